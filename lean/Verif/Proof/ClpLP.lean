import Verif.Proof.Clp

/-! What CLP holds is the LP that was meant. -/

namespace Mtsp
open Finset

/-! ### objective -/

/-- the coefficient of variable `j` -/
def coefOf (m : List (Nat × ℚ)) (j : Nat) : ℚ :=
  match m.find? (fun p => decide (p.1 = j)) with
  | some p => p.2
  | none => 0

theorem coefOf_cons (p : Nat × ℚ) (m : List (Nat × ℚ)) (j : Nat) : coefOf (p :: m) j = if p.1 = j then p.2 else coefOf m j := by
  unfold coefOf
  by_cases h : p.1 = j <;> simp [List.find?_cons, h]

theorem coefOf_not_mem {m : List (Nat × ℚ)} {j : Nat} (h : j ∉ m.map Prod.fst) : coefOf m j = 0 := by
  unfold coefOf
  have : m.find? (fun p => decide (p.1 = j)) = none := by
    rw [List.find?_eq_none]
    intro q hq
    simp only [decide_eq_true_eq]
    rintro rfl
    exact h (List.mem_map_of_mem hq)
  rw [this]

theorem lin_coefOf {n : Nat} (x : Nat → ℚ) : ∀ m : List (Nat × ℚ), (m.map Prod.fst).Nodup → (∀ p ∈ m, p.1 < n) →
    LinComp.lin x m = ∑ j ∈ range n, coefOf m j * x j := by
  intro m
  induction m with
  | nil => intro _ _; simp [LinComp.lin, coefOf]
  | cons p m ih =>
    intro hn hl
    have hnd := List.nodup_cons.1 (show (p.1 :: m.map Prod.fst).Nodup from hn)
    have e : LinComp.lin x (p :: m) = p.2 * x p.1 + LinComp.lin x m := by simp [LinComp.lin]
    rw [e, ih hnd.2 fun q hq => hl q (List.mem_cons_of_mem _ hq)]
    have e2 : ∀ j ∈ range n, coefOf (p :: m) j * x j = (if p.1 = j then p.2 * x p.1 else 0) + coefOf m j * x j := by
      intro j _
      rw [coefOf_cons]
      by_cases h : p.1 = j
      · subst h; rw [if_pos rfl, if_pos rfl, coefOf_not_mem hnd.1]; ring
      · rw [if_neg h, if_neg h]; ring
    rw [sum_congr rfl e2, sum_add_distrib, sum_ite_eq, if_pos (mem_range.2 (hl p List.mem_cons_self))]

theorem setObjective_ok {C : Clp} {o : LinComp} (hf : o.Fits C.ncols) (hz : ∀ i, C.obj i = 0) :
    C.setObjective o = .ok { C with offset := -o.const, obj := coefOf o.coefs } := by
  unfold Clp.setObjective
  rw [setCoefs_spec _ _ (by simpa [Clp.ncols] using hf.2) hf.1]
  simp only [Except.ok.injEq, Clp.mk.injEq, true_and, and_true]
  funext i
  unfold coefOf
  split
  · next h => rw [h]
  · next h => rw [h]; exact hz i

/-! ### the problem -/

/-- `C` holds the data of `p` -/
structure Clp.Holds (C : Clp) (p : LPProb) : Prop where
  cols : C.cols = p.cols
  rows : C.rows = p.rows.map LinCon.toRow
  obj : C.obj = coefOf p.obj.coefs
  offset : C.offset = -p.obj.const
  fitsRows : ∀ c ∈ p.rows, c.Fits p.cols.nVars
  fitsObj : p.obj.Fits p.cols.nVars
  enough : p.cols.nVars ≤ C.ncols
  spare : ∀ i l u, p.cols.nVars ≤ i → p.cols.bounds i = (some l, some u) → l ≤ 0 ∧ 0 ≤ u

theorem list_sum_map_range (n : Nat) (f : Nat → ℚ) : ((List.range n).map f).sum = ∑ i ∈ range n, f i := list_sum_range n f

theorem Clp.Holds.objEq {C : Clp} {p : LPProb} (h : C.Holds p) (z : Nat → ℚ) : C.toProb.obj.eval z = p.obj.eval z := by
  rw [LinComp.eval_eq, LinComp.eval_eq, lin_coefOf (n := C.ncols) z p.obj.coefs h.fitsObj.1
    (fun q hq => lt_of_lt_of_le (h.fitsObj.2 q hq) h.enough)]
  simp only [Clp.toProb, h.offset, neg_neg, LinComp.lin, List.map_map, Function.comp_def, h.obj]
  rw [list_sum_range]

theorem Clp.Holds.rowsEq {C : Clp} {p : LPProb} (h : C.Holds p) : C.toProb.rows = p.rows := by
  simp only [Clp.toProb, h.rows, List.map_map]
  conv_rhs => rw [← List.map_id p.rows]
  exact List.map_congr_left fun c _ => rfl

theorem Clp.Holds.boundsEq {C : Clp} {p : LPProb} (h : C.Holds p) (i : Nat) : C.toProb.cols.bounds i = p.cols.bounds i := by
  simp only [Clp.toProb, LPModel.bounds, h.cols]

/-- the values of `z` for the variables, those of `y` for the other columns -/
def splice (n : Nat) (z y : Nat → ℚ) : Nat → ℚ := fun i => if i < n then z i else y i

theorem splice_lt {n : Nat} {z y : Nat → ℚ} {i : Nat} (h : i < n) : splice n z y i = z i := if_pos h
theorem splice_ge {n : Nat} {z y : Nat → ℚ} {i : Nat} (h : n ≤ i) : splice n z y i = y i := if_neg (by omega)

theorem Clp.Holds.sound {C : Clp} {p : LPProb} (h : C.Holds p) {z : Nat → ℚ} (hz : C.toProb.Admits z) : p.Admits z := by
  refine ⟨fun c hc => hz.rows c (by rw [h.rowsEq]; exact hc), ?_⟩
  intro i hi l u hb
  exact hz.bounds i (lt_of_lt_of_le hi h.enough) l u (by rw [h.boundsEq]; exact hb)

theorem Clp.Holds.splice {C : Clp} {p : LPProb} (h : C.Holds p) {z : Nat → ℚ} (hz : p.Admits z) :
    C.toProb.Admits (splice p.cols.nVars z fun _ => 0) := by
  constructor
  · intro c hc
    rw [h.rowsEq] at hc
    exact (h.fitsRows c hc).local z _ (fun i hi => (splice_lt hi).symm) (hz.rows c hc)
  · intro i _ l u hb
    rw [h.boundsEq] at hb
    by_cases hi : i < p.cols.nVars
    · rw [splice_lt hi]; exact hz.bounds i hi l u hb
    · rw [splice_ge (by omega)]; exact h.spare i l u (by omega) hb

theorem Clp.Holds.represents {C : Clp} {p : LPProb} (h : C.Holds p) : C.Represents p :=
  ⟨fun _ hz => h.sound hz, fun z hz => ⟨_, fun _ hi => splice_lt hi, h.splice hz⟩, h.objEq⟩

/-- an answer that is right about what CLP holds is right about the intended problem -/
theorem Clp.Holds.answer {C : Clp} {p : LPProb} (h : C.Holds p) {a : LPAnswer} (ha : a.Correct C.toProb) : a.Correct p := by
  cases a with
  | optimal y rc =>
    obtain ⟨h1, x, hx⟩ := ha
    have hnb : C.toProb.cols.nBin = p.cols.nBin := by simp [Clp.toProb, h.cols]
    refine ⟨fun i hi l u hb => h1 i (lt_of_lt_of_le hi h.enough) l u (by rw [h.boundsEq]; exact hb), x, h.sound hx.admits, ?_, ?_, ?_, ?_, ?_, ?_, ?_⟩
    · intro z hz
      have := hx.least _ (h.splice hz)
      rwa [h.objEq, h.objEq, ← h.fitsObj.local z (Mtsp.splice p.cols.nVars z fun _ => 0) (fun i hi => (splice_lt hi).symm)] at this
    · intro z hz v hv
      have := hx.dual _ (h.splice hz) v (lt_of_lt_of_le hv h.enough)
      rwa [h.objEq, h.objEq, ← h.fitsObj.local z (Mtsp.splice p.cols.nVars z fun _ => 0) (fun i hi => (splice_lt hi).symm), splice_lt hv] at this
    · have := hx.value; rwa [h.objEq, h.objEq] at this
    · intro k; have := hx.round k; rwa [h.objEq, h.objEq] at this
    · intro i hi; exact hx.near i (by rw [hnb]; exact hi)
    · intro i hi; exact hx.zero i (by rw [hnb]; exact hi)
    · intro i hi; exact hx.one i (by rw [hnb]; exact hi)
  | infeasible => intro z hz; exact ha _ (h.splice hz)
  | unbounded =>
    intro b
    obtain ⟨z, hz, hb⟩ := ha b
    exact ⟨z, h.sound hz, by rw [← h.objEq]; exact hb⟩
  | error => trivial
  | timeout => trivial

end Mtsp
