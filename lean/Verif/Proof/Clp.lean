import Verif.Spec.Clp
import Verif.Proof.BnBBase

/-! The interface to CLP: what `AddConstraints` stores. -/

namespace Mtsp


theorem nnz_append (a b : List LinCon) : nnz (a ++ b) = nnz a + nnz b := by simp [nnz]
theorem nnz_nil : nnz [] = 0 := rfl
theorem nnz_cons (c : LinCon) (cs : List LinCon) : nnz (c :: cs) = c.coefs.length + nnz cs := by simp [nnz]

/-- the row a constraint becomes -/
def LinCon.toRow (c : LinCon) : ClpRow := ⟨c.lower, c.upper, c.coefs⟩

theorem LinCon.Fits.storable {n : Nat} {c : LinCon} (h : c.Fits n) : c.toRow.storable n = true := by
  simp only [ClpRow.storable, LinCon.toRow, Bool.and_eq_true, decide_eq_true_eq, List.all_eq_true]
  exact ⟨decide_eq_true h.1, fun p hp => h.2 p hp⟩

theorem LinCon.fits_of_storable {n : Nat} {c : LinCon} (h : c.toRow.storable n = true) : c.Fits n := by
  simp only [ClpRow.storable, LinCon.toRow, Bool.and_eq_true, decide_eq_true_eq, List.all_eq_true] at h
  exact ⟨of_decide_eq_true h.1, fun p hp => h.2 p hp⟩

theorem LinCon.Fits.length {n : Nat} {c : LinCon} (h : c.Fits n) : c.coefs.length ≤ n := by
  have h2 : (c.coefs.map Prod.fst).toFinset ⊆ Finset.range n := by
    intro i hi
    simp only [List.mem_toFinset, List.mem_map] at hi
    obtain ⟨p, hp, rfl⟩ := hi
    exact Finset.mem_range.2 (h.2 p hp)
  have h3 := Finset.card_le_card h2
  rw [List.toFinset_card_of_nodup h.1] at h3
  simpa using h3

/-- the arrays after the constraints `cs` -/
def arraysOf (cs : List LinCon) : RowArrays :=
  ⟨cs.map (·.lower), cs.map (·.upper), (List.range (cs.length + 1)).map fun i => ((nnz (cs.take i) : ℕ) : ℤ),
   cs.flatMap fun c => c.coefs.map Prod.fst, cs.flatMap fun c => c.coefs.map Prod.snd⟩

theorem starts_snoc (cs : List LinCon) (c : LinCon) :
    (arraysOf (cs ++ [c])).starts = (arraysOf cs).starts ++ [((nnz (cs ++ [c]) : ℕ) : ℤ)] := by
  simp only [arraysOf, List.length_append, List.length_cons, List.length_nil]
  rw [List.range_succ, List.map_append]
  congr 1
  · apply List.map_congr_left
    intro i hi
    have hi' : i ≤ cs.length := by have := List.mem_range.1 hi; omega
    rw [List.take_append_of_le_length hi']
  · simp only [List.map_cons, List.map_nil]
    rw [List.take_of_length_le (by simp)]

theorem starts_last (cs : List LinCon) : (arraysOf cs).starts.getLast? = some ((nnz cs : ℕ) : ℤ) := by
  simp [arraysOf, List.range_succ]

theorem push_arrays (cs : List LinCon) (c : LinCon) (h : (nnz (cs ++ [c]) : ℤ) ≤ intMax) :
    (arraysOf cs).push c = .ok (arraysOf (cs ++ [c])) := by
  unfold RowArrays.push
  rw [starts_last]
  have e : ((nnz cs : ℕ) : ℤ) + (c.coefs.length : ℤ) = ((nnz (cs ++ [c]) : ℕ) : ℤ) := by
    rw [nnz_append, nnz_cons, nnz_nil]; push_cast; ring
  simp only [e]
  rw [if_neg (by omega), ← starts_snoc]
  simp [arraysOf]

theorem push_overflow (cs : List LinCon) (c : LinCon) (h : (nnz (cs ++ [c]) : ℤ) > intMax) :
    (arraysOf cs).push c = .error (.ub "signed integer overflow") := by
  unfold RowArrays.push
  rw [starts_last]
  have e : ((nnz cs : ℕ) : ℤ) + (c.coefs.length : ℤ) = ((nnz (cs ++ [c]) : ℕ) : ℤ) := by
    rw [nnz_append, nnz_cons, nnz_nil]; push_cast; ring
  simp only [e]
  rw [if_pos h]

theorem fill_arrays (cs : List LinCon) : ∀ pre : List LinCon, (nnz pre : ℤ) ≤ intMax →
    RowArrays.fill cs (arraysOf pre) =
      if (nnz (pre ++ cs) : ℤ) ≤ intMax then .ok (arraysOf (pre ++ cs)) else .error (.ub "signed integer overflow") := by
  induction cs with
  | nil => intro pre h; simp [RowArrays.fill, h]
  | cons c cs ih =>
    intro pre h
    unfold RowArrays.fill
    by_cases hc : (nnz (pre ++ [c]) : ℤ) ≤ intMax
    · rw [push_arrays pre c hc]
      simp only
      rw [ih _ hc, List.append_assoc]; rfl
    · rw [push_overflow pre c (by omega)]
      simp only
      rw [if_neg]
      have : nnz (pre ++ c :: cs) = nnz (pre ++ [c]) + nnz cs := by simp [nnz_append, nnz_cons, nnz_nil]; omega
      rw [this]; push_cast; omega

theorem arraysOf_nil : arraysOf [] = ⟨[], [], [0], [], []⟩ := by simp [arraysOf, nnz]

theorem zip_flatMap (cs : List LinCon) :
    (cs.flatMap fun c => c.coefs.map Prod.fst).zip (cs.flatMap fun c => c.coefs.map Prod.snd) = cs.flatMap fun c => c.coefs := by
  induction cs with
  | nil => rfl
  | cons c cs ih =>
    simp only [List.flatMap_cons]
    rw [List.zip_append (by simp), ih]
    congr 1
    induction c.coefs with
    | nil => rfl
    | cons p ps ih => simp [ih]

theorem length_flatMap_coefs (cs : List LinCon) : (cs.flatMap fun c => c.coefs).length = nnz cs := by
  simp [nnz, List.length_flatMap]

theorem row_arrays (cs : List LinCon) (i : Nat) (h : i < cs.length) : (arraysOf cs).row i = some (cs[i].toRow) := by
  have hs : cs = cs.take i ++ cs[i] :: cs.drop (i + 1) := by simp
  have h1 : (arraysOf cs).lower[i]? = some cs[i].lower := by simp [arraysOf, h]
  have h2 : (arraysOf cs).upper[i]? = some cs[i].upper := by simp [arraysOf, h]
  have h3 : (arraysOf cs).starts[i]? = some ((nnz (cs.take i) : ℕ) : ℤ) := by
    simp [arraysOf, List.getElem?_range (show i < cs.length + 1 by omega)]
  have h4 : (arraysOf cs).starts[i + 1]? = some ((nnz (cs.take (i + 1)) : ℕ) : ℤ) := by
    simp [arraysOf, List.getElem?_range (show i + 1 < cs.length + 1 by omega)]
  have ht : cs.take (i + 1) = cs.take i ++ [cs[i]] := by simp
  have hn : nnz (cs.take (i + 1)) = nnz (cs.take i) + cs[i].coefs.length := by rw [ht, nnz_append, nnz_cons, nnz_nil]; omega
  have hle : nnz (cs.take (i + 1)) ≤ nnz cs := by
    conv_rhs => rw [← List.take_append_drop (i + 1) cs, nnz_append]
    omega
  have hcol : (arraysOf cs).columns.length = nnz cs := by simp [arraysOf, nnz, List.length_flatMap]
  have hel : (arraysOf cs).elements.length = nnz cs := by simp [arraysOf, nnz, List.length_flatMap]
  unfold RowArrays.row
  rw [h1, h2, h3, h4]
  simp only [hcol, hel]
  rw [if_pos ⟨by omega, by omega, by omega, by omega⟩]
  simp only [Int.toNat_natCast, LinCon.toRow, Option.some.injEq, ClpRow.mk.injEq, true_and]
  simp only [arraysOf]
  rw [zip_flatMap]
  have e : (cs.flatMap fun c => c.coefs) =
      ((cs.take i).flatMap fun c => c.coefs) ++ (cs[i].coefs ++ ((cs.drop (i + 1)).flatMap fun c => c.coefs)) := by
    conv_lhs => rw [hs, List.flatMap_append, List.flatMap_cons]
  rw [e, hn, ← length_flatMap_coefs (cs.take i), List.take_length_add_append, List.drop_left]
  simp

theorem addRows_arrays (cs : List LinCon) (n : Nat) (hf : ∀ c ∈ cs, c.Fits n) : ∀ (k i : Nat) (C : Clp), C.ncols = n → i + k = cs.length →
    Clp.addRowsFrom (arraysOf cs) k i C = .ok { C with rows := C.rows ++ (cs.drop i).map LinCon.toRow } := by
  intro k
  induction k with
  | zero => intro i C _ h; simp [Clp.addRowsFrom, List.drop_of_length_le (show cs.length ≤ i by omega)]
  | succ k ih =>
    intro i C hn h
    have hi : i < cs.length := by omega
    unfold Clp.addRowsFrom
    rw [row_arrays cs i hi]
    simp only
    rw [if_pos (by rw [hn]; exact (hf _ (List.getElem_mem hi)).storable)]
    rw [ih (i + 1) _ (by simpa [Clp.ncols] using hn) (by omega)]
    rw [List.drop_eq_getElem_cons hi, List.map_cons, List.append_assoc]
    rfl

/-- a constraint that does not fit makes `addRows` undefined -/
theorem addRows_bad (cs : List LinCon) (n : Nat) (hf : ∃ c ∈ cs, ¬ c.Fits n) : ∀ (k i : Nat) (C : Clp), C.ncols = n → i + k = cs.length →
    (∀ c ∈ cs.take i, c.Fits n) → ∃ m, Clp.addRowsFrom (arraysOf cs) k i C = .error (.ub m) := by
  intro k
  induction k with
  | zero =>
    intro i C _ h hp
    obtain ⟨c, hc, hb⟩ := hf
    rw [List.take_of_length_le (by omega)] at hp
    exact absurd (hp c hc) hb
  | succ k ih =>
    intro i C hn h hp
    have hi : i < cs.length := by omega
    unfold Clp.addRowsFrom
    rw [row_arrays cs i hi]
    simp only
    by_cases hs : cs[i].toRow.storable C.ncols = true
    · rw [if_pos hs]
      refine ih (i + 1) _ (by simpa [Clp.ncols] using hn) (by omega) ?_
      intro c hc
      rw [List.take_succ_eq_append_getElem hi] at hc
      rcases List.mem_append.1 hc with hc | hc
      · exact hp c hc
      · simp at hc; subst hc; rw [← hn]; exact LinCon.fits_of_storable hs
    · rw [if_neg hs]; exact ⟨_, rfl⟩

theorem addConstraints_eq {C : Clp} {cs : List LinCon} (hf : ∀ c ∈ cs, c.Fits C.ncols) :
    C.addConstraints cs =
      if (cs.length : ℤ) > intMax then .error (.runtime "Too many constraints")
      else if (nnz cs : ℤ) ≤ intMax then .ok { C with rows := C.rows ++ cs.map LinCon.toRow }
      else .error (.ub "signed integer overflow") := by
  unfold Clp.addConstraints
  split
  · rfl
  · rw [← arraysOf_nil, fill_arrays cs [] (by simp [nnz, intMax])]
    simp only [List.nil_append]
    split
    · next h =>
      split at h
      · next => simp at h
      · next h2 => rw [if_neg h2]; simp at h; simp [← h]
    · next r h =>
      split at h
      · next h2 =>
        rw [if_pos h2]
        simp only [Except.ok.injEq] at h
        subst h
        rw [addRows_arrays cs C.ncols hf cs.length 0 C rfl (by omega)]
        simp
      · simp at h

theorem addConstraints_bad {C : Clp} {cs : List LinCon} (hf : ∃ c ∈ cs, ¬ c.Fits C.ncols) : ∀ C', C.addConstraints cs ≠ .ok C' := by
  intro C' h
  unfold Clp.addConstraints at h
  split at h
  · simp at h
  · rw [← arraysOf_nil, fill_arrays cs [] (by simp [nnz, intMax])] at h
    simp only [List.nil_append] at h
    split at h
    · simp at h
    · next r h2 =>
      split at h2
      · simp only [Except.ok.injEq] at h2
        subst h2
        obtain ⟨m, hm⟩ := addRows_bad cs C.ncols hf cs.length 0 C rfl (by omega) (by simp)
        rw [hm] at h; simp at h
      · simp at h2

/-! ### the objective -/

theorem setCoefs_spec : ∀ (ps : List (Nat × ℚ)) (C : Clp), (∀ p ∈ ps, p.1 < C.ncols) → (ps.map Prod.fst).Nodup →
    Clp.setCoefs ps C = .ok { C with obj := fun i => match ps.find? (fun p => decide (p.1 = i)) with
      | some p => p.2
      | none => C.obj i } := by
  intro ps
  induction ps with
  | nil => intro C _ _; simp [Clp.setCoefs]
  | cons p ps ih =>
    intro C h hn
    unfold Clp.setCoefs Clp.setCoef
    rw [if_pos (h p List.mem_cons_self)]
    simp only
    have hnd := List.nodup_cons.1 (show (p.1 :: ps.map Prod.fst).Nodup from hn)
    rw [ih _ (fun q hq => by simpa [Clp.ncols] using h q (List.mem_cons_of_mem _ hq)) hnd.2]
    simp only [Except.ok.injEq, Clp.mk.injEq, true_and, and_true]
    funext i
    by_cases hi : p.1 = i
    · have : ps.find? (fun p => decide (p.1 = i)) = none := by
        rw [List.find?_eq_none]
        intro q hq
        simp only [decide_eq_true_eq]
        intro e
        exact hnd.1 (by rw [hi, ← e]; exact List.mem_map_of_mem hq)
      simp [List.find?_cons, hi, this]
    · simp only [List.find?_cons, hi, decide_false]
      rw [if_neg (fun e => hi e.symm)]

end Mtsp
