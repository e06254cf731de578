import Verif.Spec.Depots
import Verif.Props.WeightManager

/-! Which preprocessed nodes are the starts and ends, and when preprocessing fails, in terms of the input. -/

namespace Mtsp
open Relation

theorem getElem?_snoc {α : Type} (l : List α) (x : α) (a : Nat) :
    (l ++ [x])[a]? = if a < l.length then l[a]? else if a = l.length then some x else none := by
  by_cases h : a < l.length
  · simp [h, List.getElem?_append_left h]
  · rw [if_neg h, List.getElem?_append_right (by omega)]
    by_cases h2 : a = l.length
    · simp [h2]
    · rw [if_neg h2, List.getElem?_eq_none]
      simp; omega

theorem firstStart_snoc {S E : List Nat} (hl : S.length = E.length) (s e v : Nat) :
    FirstStart (S ++ [s]) (E ++ [e]) v ↔ FirstStart S E v ∨ (s = v ∧ v ∉ E) := by
  unfold FirstStart
  constructor
  · rintro ⟨a, h1, h2⟩
    rw [getElem?_snoc] at h1
    split at h1
    · next ha =>
      rw [List.take_append_of_le_length (by omega)] at h2
      exact Or.inl ⟨a, h1, h2⟩
    · split at h1
      · next ha =>
        subst ha
        rw [hl, List.take_append_of_le_length (by omega), List.take_length] at h2
        simp at h1; exact Or.inr ⟨h1, h2⟩
      · simp at h1
  · rintro (⟨a, h1, h2⟩ | ⟨rfl, h2⟩)
    · have ha := (List.getElem?_eq_some_iff.1 h1).1
      refine ⟨a, by rw [List.getElem?_append_left ha]; exact h1, ?_⟩
      rw [List.take_append_of_le_length (by omega)]; exact h2
    · refine ⟨S.length, by simp, ?_⟩
      rw [hl, List.take_append_of_le_length (by omega), List.take_length]; exact h2

theorem firstEnd_snoc {S E : List Nat} (hl : S.length = E.length) (s e v : Nat) :
    FirstEnd (S ++ [s]) (E ++ [e]) v ↔ FirstEnd S E v ∨ (e = v ∧ v ∉ S ∧ s ≠ v) := by
  unfold FirstEnd
  constructor
  · rintro ⟨a, h1, h2⟩
    rw [getElem?_snoc] at h1
    split at h1
    · next ha =>
      rw [List.take_append_of_le_length (by omega)] at h2
      exact Or.inl ⟨a, h1, h2⟩
    · split at h1
      · next ha =>
        subst ha
        rw [← hl, List.take_of_length_le (by simp)] at h2
        simp at h1 h2; exact Or.inr ⟨h1, h2.1, fun h => h2.2 h.symm⟩
      · simp at h1
  · rintro (⟨a, h1, h2⟩ | ⟨rfl, h2, h3⟩)
    · have ha := (List.getElem?_eq_some_iff.1 h1).1
      refine ⟨a, by rw [List.getElem?_append_left ha]; exact h1, ?_⟩
      rw [List.take_append_of_le_length (by omega)]; exact h2
    · refine ⟨E.length, by simp, ?_⟩
      rw [← hl, List.take_of_length_le (by simp)]
      simp; exact ⟨h2, fun h => h3 h.symm⟩

/-- loop invariant: which of the input nodes are used, and for what -/
structure DInv (origN : Nat) (S E : List Nat) (st : WMState) : Prop where
  len : S.length = E.length
  n_le : origN ≤ st.n
  used : ∀ v, v ∈ st.inUse ↔ v ∈ S ∨ v ∈ E
  start : ∀ v, v < origN → (v ∈ st.starts ↔ FirstStart S E v)
  fin : ∀ v, v < origN → (v ∈ st.ends ↔ FirstEnd S E v)

theorem firstStart_mem {S E : List Nat} {v : Nat} (h : FirstStart S E v) : v ∈ S := by
  obtain ⟨a, h, _⟩ := h; exact List.mem_of_getElem? h

theorem firstEnd_mem {S E : List Nat} {v : Nat} (h : FirstEnd S E v) : v ∈ E := by
  obtain ⟨a, h, _⟩ := h; exact List.mem_of_getElem? h

theorem firstStart_of_not_end {S E : List Nat} {v : Nat} (h : v ∈ S) (h2 : v ∉ E) : FirstStart S E v := by
  obtain ⟨a, h⟩ := List.mem_iff_getElem?.1 h
  exact ⟨a, h, fun hm => h2 (List.mem_of_mem_take hm)⟩

theorem firstEnd_of_not_start {S E : List Nat} {v : Nat} (h : v ∈ E) (h2 : v ∉ S) : FirstEnd S E v := by
  obtain ⟨a, h⟩ := List.mem_iff_getElem?.1 h
  exact ⟨a, h, fun hm => h2 (List.mem_of_mem_take hm)⟩

theorem wmAgent_dinv {origN : Nat} {S E : List Nat} {st st' : WMState} {a : Nat × Nat} (h : DInv origN S E st)
    (he : wmAgent origN st a = .ok st') : DInv origN (S ++ [a.1]) (E ++ [a.2]) st' := by
  obtain ⟨s, e⟩ := a
  unfold wmAgent at he
  cases h1 : wmTake origN true st s with
  | error er => rw [h1] at he; simp at he
  | ok st1 =>
    rw [h1] at he
    dsimp only at he
    -- after the start
    have k1 : origN ≤ st1.n ∧ (∀ v, v ∈ st1.inUse ↔ v ∈ st.inUse ∨ v = s) ∧
        (∀ v, v < origN → (v ∈ st1.starts ↔ v ∈ st.starts ∨ (v = s ∧ s ∉ st.inUse))) ∧ (∀ v, v ∈ st1.ends ↔ v ∈ st.ends) := by
      have hn := h.n_le
      unfold wmTake at h1
      split at h1
      · simp at h1
      split at h1
      · next hu =>
        simp only [if_true, Except.ok.injEq] at h1
        subst h1
        refine ⟨by simp; omega, ?_, ?_, fun v => Iff.rfl⟩
        · intro v; constructor
          · exact Or.inl
          · rintro (h | rfl)
            · exact h
            · exact hu
        · intro v hv
          simp only [List.mem_append, List.mem_singleton]
          constructor
          · rintro (h | h)
            · exact Or.inl h
            · omega
          · rintro (h | ⟨_, h⟩)
            · exact Or.inl h
            · exact absurd hu h
      · next hu =>
        simp only [if_true, Except.ok.injEq] at h1
        subst h1
        refine ⟨hn, ?_, ?_, fun v => Iff.rfl⟩
        · intro v; simp only [List.mem_cons]; tauto
        · intro v _
          simp only [List.mem_append, List.mem_singleton]; tauto
    have k2 : origN ≤ st'.n ∧ (∀ v, v ∈ st'.inUse ↔ v ∈ st1.inUse ∨ v = e) ∧
        (∀ v, v ∈ st'.starts ↔ v ∈ st1.starts) ∧ (∀ v, v < origN → (v ∈ st'.ends ↔ v ∈ st1.ends ∨ (v = e ∧ e ∉ st1.inUse))) := by
      have hn := k1.1
      unfold wmTake at he
      split at he
      · simp at he
      split at he
      · next hu =>
        simp only [Bool.false_eq_true, if_false, Except.ok.injEq] at he
        subst he
        refine ⟨by simp; omega, ?_, fun v => Iff.rfl, ?_⟩
        · intro v; constructor
          · exact Or.inl
          · rintro (h | rfl)
            · exact h
            · exact hu
        · intro v hv
          simp only [List.mem_append, List.mem_singleton]
          constructor
          · rintro (h | h)
            · exact Or.inl h
            · omega
          · rintro (h | ⟨_, h⟩)
            · exact Or.inl h
            · exact absurd hu h
      · next hu =>
        simp only [Bool.false_eq_true, if_false, Except.ok.injEq] at he
        subst he
        refine ⟨hn, ?_, fun v => Iff.rfl, ?_⟩
        · intro v; simp only [List.mem_cons]; tauto
        · intro v _
          simp only [List.mem_append, List.mem_singleton]; tauto
    obtain ⟨_, u1, s1, e1⟩ := k1
    obtain ⟨n2, u2, s2, e2⟩ := k2
    refine ⟨by simp [h.len], n2, ?_, ?_, ?_⟩
    · intro v
      rw [u2, u1, h.used]
      simp only [List.mem_append, List.mem_singleton]; tauto
    · intro v hv
      rw [s2, s1 v hv, h.start v hv, firstStart_snoc h.len, h.used]
      constructor
      · rintro (h' | ⟨rfl, h'⟩)
        · exact Or.inl h'
        · exact Or.inr ⟨rfl, fun h'' => h' (Or.inr h'')⟩
      · rintro (h' | ⟨rfl, h'⟩)
        · exact Or.inl h'
        · by_cases hS : s ∈ S
          · exact Or.inl (firstStart_of_not_end hS h')
          · exact Or.inr ⟨rfl, fun h => h.elim hS h'⟩
    · intro v hv
      rw [e2 v hv, e1, h.fin v hv, firstEnd_snoc h.len, u1, h.used]
      constructor
      · rintro (h' | ⟨rfl, h'⟩)
        · exact Or.inl h'
        · exact Or.inr ⟨rfl, fun h'' => h' (Or.inl (Or.inl h'')), fun h'' => h' (Or.inr h''.symm)⟩
      · rintro (h' | ⟨rfl, h1', h2'⟩)
        · exact Or.inl h'
        · by_cases hE : e ∈ E
          · exact Or.inl (firstEnd_of_not_start hE h1')
          · exact Or.inr ⟨rfl, fun h => h.elim (fun h => h.elim h1' hE) (fun h => h2' h.symm)⟩

theorem wmLoop_dinv {W0 : Weights} {n : Nat} {l : List (Nat × Nat)} {st : WMState}
    (h : l.foldlM (wmAgent n) { n := n, w := W0 } = .ok st) : DInv n (l.map (·.1)) (l.map (·.2)) st := by
  refine foldlM_ok (wmAgent n) (fun pre st => DInv n (pre.map (·.1)) (pre.map (·.2)) st) l _ _ h ?_ ?_
  · refine ⟨rfl, le_refl _, by simp, ?_, ?_⟩
    · intro v _; simp [FirstStart]
    · intro v _; simp [FirstEnd]
  · intro pre x b1 b2 hp _ hs
    simpa using wmAgent_dinv hp hs

section
variable {rows cols : Nat} {w : Weights} {starts ends : List Nat} {m : WM}

/-- the state of the loop behind a call of the constructor with valid arguments -/
theorem loop_of_valid (hv : ValidArgs rows cols starts ends) : ∃ st,
    (starts.zip ends).foldlM (wmAgent rows) { n := rows, w := zeroDiag rows w } = .ok st ∧
    WInv (zeroDiag rows w) rows starts ends st ∧ DInv rows starts ends st ∧
    WM.make rows cols w starts ends = (match createTransitiveDependencies st.n (zeroArtificial st.starts st.ends st.w) with
      | .error e => .error e
      | .ok w1 =>
        let w2 := if st.starts.length = 1 then setAt w1 (st.ends.getD 0 0) (st.starts.getD 0 0) 0 else w1
        let g := DepGraph.make st.n w2
        match st.starts.foldlM (fun _ s => requireEmpty (g.getIncomingSpan s)) () with
        | .error e => .error e
        | .ok () =>
          match st.ends.foldlM (fun _ e => requireEmpty (g.getOutgoingSpan e)) () with
          | .error e => .error e
          | .ok () => .ok { n := st.n, w := w2, starts := st.starts, ends := st.ends, toOrig := st.toOrig,
                            origN := rows, deps := g }) := by
  obtain ⟨h1, h2, h3, h4, hs, he⟩ := hv
  have h2' : starts.length ≠ 0 := fun e => h2 (List.length_eq_zero_iff.1 e)
  cases hl : (starts.zip ends).foldlM (wmAgent rows) { n := rows, w := zeroDiag rows w } with
  | error e' =>
    obtain ⟨a, ha, hr⟩ := (wmLoop_error hl).2
    have hz := List.of_mem_zip (show (a.1, a.2) ∈ starts.zip ends from ha)
    have := hs _ hz.1
    have := he _ hz.2
    omega
  | ok st =>
    have inv := (wmLoop_ok hl).1
    have dinv := wmLoop_dinv hl
    have e1 : (starts.zip ends).map (·.1) = starts := by rw [List.map_fst_zip]; omega
    have e2 : (starts.zip ends).map (·.2) = ends := by rw [List.map_snd_zip]; omega
    rw [e1, e2] at inv dinv
    refine ⟨st, rfl, inv, dinv, ?_⟩
    unfold WM.make
    rw [if_neg (by simpa using h1), if_neg h2', if_neg (by simpa using h3), if_neg (by omega), hl]
    rfl

/-- an input node is a start (end) after preprocessing exactly if its first use is as a start (end) -/
theorem WM.first_uses (h : WM.make rows cols w starts ends = .ok m) (v : Nat) (hv : v < rows) :
    (v ∈ m.starts ↔ FirstStart starts ends v) ∧ (v ∈ m.ends ↔ FirstEnd starts ends v) := by
  have hva : ValidArgs rows cols starts ends := by
    by_contra hc
    obtain ⟨msg, he⟩ := (C17_argument_error_iff rows cols w starts ends).2 hc
    rw [he] at h; simp at h
  obtain ⟨st, _, _, dinv, he⟩ := loop_of_valid (w := w) hva
  rw [h] at he
  split at he
  · simp at he
  dsimp only at he
  split at he
  · simp at he
  split at he
  · simp at he
  simp only [Except.ok.injEq] at he
  subst he
  exact ⟨dinv.start v hv, dinv.fin v hv⟩

/-- an input node is a depot of the preprocessed instance exactly if it is one of the input -/
theorem WM.depot_iff (h : WM.make rows cols w starts ends = .ok m) (v : Nat) (hv : v < rows) :
    v ∈ m.starts ++ m.ends ↔ v ∈ starts ++ ends := by
  obtain ⟨h1, h2⟩ := WM.first_uses h v hv
  rw [List.mem_append, List.mem_append, h1, h2]
  constructor
  · rintro (h | h)
    · exact Or.inl (firstStart_mem h)
    · exact Or.inr (firstEnd_mem h)
  · intro hm
    by_contra hc
    push Not at hc
    obtain ⟨hc1, hc2⟩ := hc
    -- the first agent that uses it
    have hex : ∃ a : Nat, starts[a]? = some v ∨ ends[a]? = some v := by
      rcases hm with hm | hm
      · obtain ⟨a, ha⟩ := List.mem_iff_getElem?.1 hm; exact ⟨a, Or.inl ha⟩
      · obtain ⟨a, ha⟩ := List.mem_iff_getElem?.1 hm; exact ⟨a, Or.inr ha⟩
    classical
    obtain ⟨a, ha, hmin⟩ : ∃ a : Nat, (starts[a]? = some v ∨ ends[a]? = some v) ∧
        ∀ b < a, ¬ (starts[b]? = some v ∨ ends[b]? = some v) := ⟨Nat.find hex, Nat.find_spec hex, fun b hb => Nat.find_min hex hb⟩
    have hnot : v ∉ starts.take a ∧ v ∉ ends.take a := by
      constructor <;>
      · intro hm
        obtain ⟨b, hb⟩ := List.mem_iff_getElem?.1 hm
        rw [List.getElem?_take] at hb
        split at hb
        · next hlt => exact hmin b hlt (by simp [hb])
        · simp at hb
    by_cases hs : starts[a]? = some v
    · exact hc1 ⟨a, hs, hnot.2⟩
    · refine hc2 ⟨a, ha.resolve_left hs, ?_⟩
      rw [List.take_add_one]
      simp only [List.mem_append, not_or]
      refine ⟨hnot.1, ?_⟩
      intro hm
      rw [Option.mem_toList] at hm
      exact hs hm

/-- the flags before the closure -/
def WMState.base (st : WMState) : Weights := zeroArtificial st.starts st.ends st.w

theorem mem_artificialArcs {S E : List Nat} (hl : S.length = E.length) {x y : Nat} (h : (x, y) ∈ artificialArcs S E) : x ∈ E ∧ y ∈ S := by
  simp only [artificialArcs, List.mem_map, List.mem_range, Prod.mk.injEq] at h
  obtain ⟨a, ha, rfl, rfl⟩ := h
  have hm : (a + 1) % S.length < S.length := Nat.mod_lt _ (by omega)
  constructor
  · rw [List.getD_eq_getElem?_getD, List.getElem?_eq_getElem (by omega)]; exact List.getElem_mem _
  · rw [List.getD_eq_getElem?_getD, List.getElem?_eq_getElem hm]; exact List.getElem_mem _

section
variable {st : WMState} (inv : WInv (zeroDiag rows w) rows starts ends st) (hl : starts.length = ends.length)
include inv

theorem st_len (hl : starts.length = ends.length) : st.starts.length = st.ends.length := by
  have h1 := congrArg List.length inv.mapS
  have h2 := congrArg List.length inv.mapE
  simp at h1 h2; omega

theorem base_to_input {u v : Nat} (h : DepIn st.n st.base u v) :
    InputDep rows w (origOf rows st.toOrig u) (origOf rows st.toOrig v) ∧ (v ∈ st.starts → v < rows) ∧ (u ∈ st.ends → u < rows) := by
  obtain ⟨hu, hv, h⟩ := h
  have hn := inv.len
  have ou : origOf rows st.toOrig u < rows := origOf_lt inv.toLt (by omega)
  have ov : origOf rows st.toOrig v < rows := origOf_lt inv.toLt (by omega)
  unfold WMState.base zeroArtificial at h
  rw [foldl_setAt_zero] at h
  split at h
  · norm_num at h
  rw [inv.wts v u hv hu] at h
  split at h
  · norm_num at h
  next hf =>
  rw [zeroDiag_apply _ _ _ _ ov] at h hf
  by_cases e : origOf rows st.toOrig v = origOf rows st.toOrig u
  · rw [if_pos e] at h; norm_num at h
  rw [if_neg e] at h hf
  refine ⟨⟨ou, ov, fun e' => e e'.symm, h⟩, ?_, ?_⟩
  · intro hm; by_contra hc; exact hf ⟨h, Or.inl ⟨by omega, hm⟩⟩
  · intro hm; by_contra hc; exact hf ⟨h, Or.inr ⟨by omega, hm⟩⟩

theorem input_to_base (hl : starts.length = ends.length) {u v : Nat} (h : InputDep rows w u v) :
    DepIn st.n st.base u v ∨ (u ∈ st.starts ∧ v ∈ st.ends) := by
  obtain ⟨hu, hv, hne, h⟩ := h
  have hn := inv.len
  by_cases ha : (v, u) ∈ artificialArcs st.starts st.ends
  · right; exact (mem_artificialArcs (st_len inv hl) ha).symm
  · left
    refine ⟨by omega, by omega, ?_⟩
    unfold WMState.base zeroArtificial
    rw [foldl_setAt_zero, if_neg ha, inv.wts v u (by omega) (by omega), origOf_self hu, origOf_self hv,
      zeroDiag_apply _ _ _ _ hv, if_neg (Ne.symm hne), if_neg, h]
    rintro ⟨_, h' | h'⟩ <;> omega

theorem base_trans {u v : Nat} (h : TransGen (DepIn st.n st.base) u v) :
    TransGen (InputDep rows w) (origOf rows st.toOrig u) (origOf rows st.toOrig v) := by
  induction h with
  | single h => exact TransGen.single (base_to_input inv h).1
  | tail _ h ih => exact TransGen.tail ih (base_to_input inv h).1

end

/-- when preprocessing succeeds, and when it reports a cycle, in terms of the flags before the closure -/
theorem make_cases (hv : ValidArgs rows cols starts ends) : ∃ st, WInv (zeroDiag rows w) rows starts ends st ∧ DInv rows starts ends st ∧
    (WM.make rows cols w starts ends = .error .cyclic ↔ ∃ x, TransGen (DepIn st.n st.base) x x) ∧
    ((∃ m, WM.make rows cols w starts ends = .ok m) ↔ (∀ x, ¬ TransGen (DepIn st.n st.base) x x) ∧
      (∀ s ∈ st.starts, ∀ u, ¬ DepIn st.n st.base u s) ∧ (∀ e ∈ st.ends, ∀ v, ¬ DepIn st.n st.base e v)) := by
  obtain ⟨st, _, inv, dinv, he⟩ := loop_of_valid (w := w) hv
  refine ⟨st, inv, dinv, ?_⟩
  have hlen := st_len inv hv.1
  by_cases hcyc : ∃ x, TransGen (DepIn st.n st.base) x x
  · have h1 := (C14_cycle_reported_iff st.n st.base).1.2 hcyc
    unfold WMState.base at h1
    rw [h1] at he
    refine ⟨⟨fun _ => hcyc, fun _ => he⟩, ⟨?_, ?_⟩⟩
    · rintro ⟨m, hm⟩; rw [hm] at he; simp at he
    · rintro ⟨h, _⟩; obtain ⟨x, hx⟩ := hcyc; exact absurd hx (h x)
  push Not at hcyc
  obtain ⟨w1, ew, c1, c2⟩ := C15_closure _ _ hcyc
  unfold WMState.base at ew
  rw [ew] at he
  dsimp only at he
  -- the closure around starts and ends
  have hflag : ∀ u v, u < st.n → v < st.n → ¬ (u ∈ st.starts ∧ v ∈ st.ends) →
      (DepIn st.n (if st.starts.length = 1 then setAt w1 (st.ends.getD 0 0) (st.starts.getD 0 0) 0 else w1) u v ↔
        TransGen (DepIn st.n st.base) u v) := by
    intro u v hu hv' hn
    have : (if st.starts.length = 1 then setAt w1 (st.ends.getD 0 0) (st.starts.getD 0 0) 0 else w1) v u = w1 v u := by
      split
      · next h1 =>
        simp only [setAt]; rw [if_neg]; rintro ⟨h2, h3⟩
        refine hn ⟨?_, ?_⟩
        · rw [h3, List.getD_eq_getElem?_getD, List.getElem?_eq_getElem (by omega)]; exact List.getElem_mem _
        · rw [h2, List.getD_eq_getElem?_getD, List.getElem?_eq_getElem (by omega)]; exact List.getElem_mem _
      · rfl
    simp only [DepIn, this, hu, hv', true_and]
    exact c1 u v hu hv'
  have hnd := List.nodup_append.1 inv.nodup
  have hdisj : ∀ x ∈ st.starts, x ∉ st.ends := fun x h1 h2 => hnd.2.2 x h1 x h2 rfl
  have hltS : ∀ s ∈ st.starts, s < st.n := fun s hs => inv.lt s (List.mem_append_left _ hs)
  have hltE : ∀ s ∈ st.ends, s < st.n := fun s hs => inv.lt s (List.mem_append_right _ hs)
  constructor
  · constructor
    · intro hc
      rw [hc] at he
      exfalso
      split at he
      · next e' hS =>
        have := (requireAll_error hS (by
          intro s hs
          obtain ⟨l, hl, _⟩ := (C16_queries_agree st.n _).2.2.2.1 s (hltS s hs)
          exact ⟨l, hl⟩)).1
        subst this
        simp at he
      · split at he
        · next e' hE =>
          have := (requireAll_error hE (by
            intro s hs
            obtain ⟨l, hl, _⟩ := (C16_queries_agree st.n _).2.2.1 s (hltE s hs)
            exact ⟨l, hl⟩)).1
          subst this
          simp at he
        · simp at he
    · rintro ⟨x, hx⟩; exact absurd hx (hcyc x)
  · constructor
    · rintro ⟨m, hm⟩
      rw [hm] at he
      refine ⟨hcyc, ?_, ?_⟩
      · intro s hs u hd
        split at he
        · simp at he
        next hS =>
        have hSn := requireAll_ok hS s hs
        obtain ⟨l, hl, _, hmem⟩ := (C16_queries_agree st.n _).2.2.2.1 s (hltS s hs)
        rw [hSn] at hl; simp at hl; subst hl
        have := (hmem u).2 ((hflag u s hd.1 hd.2.1 (fun h => hdisj s hs h.2)).2 (TransGen.single hd))
        simp at this
      · intro s hs v hd
        split at he
        · simp at he
        split at he
        · simp at he
        next hE =>
        have hSn := requireAll_ok hE s hs
        obtain ⟨l, hl, _, hmem⟩ := (C16_queries_agree st.n _).2.2.1 s (hltE s hs)
        rw [hSn] at hl; simp at hl; subst hl
        have := (hmem v).2 ((hflag s v hd.1 hd.2.1 (fun h => hdisj s h.1 hs)).2 (TransGen.single hd))
        simp at this
    · rintro ⟨_, hin, hout⟩
      split at he
      · next e' hS =>
        exfalso
        obtain ⟨_, s, hs, x, l, hx⟩ := requireAll_error hS (by
          intro s hs
          obtain ⟨l, hl, _⟩ := (C16_queries_agree st.n _).2.2.2.1 s (hltS s hs)
          exact ⟨l, hl⟩)
        obtain ⟨l', hl', _, hmem⟩ := (C16_queries_agree st.n _).2.2.2.1 s (hltS s hs)
        rw [hx] at hl'; simp at hl'; subst hl'
        have hd := (hmem x).1 List.mem_cons_self
        have ht := (hflag x s hd.1 hd.2.1 (fun h => hdisj s hs h.2)).1 hd
        cases ht with
        | single h => exact hin s hs _ h
        | tail _ h => exact hin s hs _ h
      · split at he
        · next e' hE =>
          exfalso
          obtain ⟨_, s, hs, x, l, hx⟩ := requireAll_error hE (by
            intro s hs
            obtain ⟨l, hl, _⟩ := (C16_queries_agree st.n _).2.2.1 s (hltE s hs)
            exact ⟨l, hl⟩)
          obtain ⟨l', hl', _, hmem⟩ := (C16_queries_agree st.n _).2.2.1 s (hltE s hs)
          rw [hx] at hl'; simp at hl'; subst hl'
          have hd := (hmem x).1 List.mem_cons_self
          have ht := (hflag s x hd.1 hd.2.1 (fun h => hdisj s h.1 hs)).1 hd
          obtain ⟨y, h, _⟩ := TransGen.head'_iff.1 ht
          exact hout s hs y h
        · exact ⟨_, he⟩

theorem cycle_step {α : Type} {r : α → α → Prop} {x : α} (h : TransGen r x x) : ∃ y, r y x := by
  cases h with
  | single h => exact ⟨_, h⟩
  | tail _ h => exact ⟨_, h⟩

/-- Preprocessing refuses valid arguments exactly if the dependencies are cyclic, or one leads into a node that is first used
as a start, or one leads out of a node that is first used as an end. -/
theorem make_rejects_iff (hv : ValidArgs rows cols starts ends) :
    (¬ ∃ m, WM.make rows cols w starts ends = .ok m) ↔ (∃ x, TransGen (InputDep rows w) x x) ∨
      (∃ u v, InputDep rows w u v ∧ FirstStart starts ends v) ∨ (∃ u v, InputDep rows w u v ∧ FirstEnd starts ends u) := by
  obtain ⟨st, inv, dinv, _, hok⟩ := make_cases (w := w) hv
  have hnd := List.nodup_append.1 inv.nodup
  have hdisj : ∀ x ∈ st.starts, x ∉ st.ends := fun x h1 h2 => hnd.2.2 x h1 x h2 rfl
  rw [hok]
  constructor
  · intro h
    by_contra hc
    push Not at hc
    obtain ⟨c1, c2, c3⟩ := hc
    refine h ⟨fun x hx => c1 _ (base_trans inv hx), ?_, ?_⟩
    · intro s hs u hd
      obtain ⟨h1, h2, _⟩ := base_to_input inv hd
      have hlt := h2 hs
      rw [origOf_self hlt] at h1
      exact c2 _ _ h1 ((dinv.start s hlt).1 hs)
    · intro s hs u hd
      obtain ⟨h1, _, h2⟩ := base_to_input inv hd
      have hlt := h2 hs
      rw [origOf_self hlt] at h1
      exact c3 _ _ h1 ((dinv.fin s hlt).1 hs)
  · rintro h ⟨hc, hin, hout⟩
    have hIn : ∀ u v, InputDep rows w u v → ¬ FirstStart starts ends v := by
      intro u v hd hf
      have hvs := (dinv.start v hd.2.1).2 hf
      rcases input_to_base inv hv.1 hd with h | ⟨_, h⟩
      · exact hin v hvs u h
      · exact hdisj v hvs h
    have hOut : ∀ u v, InputDep rows w u v → ¬ FirstEnd starts ends u := by
      intro u v hd hf
      have hvs := (dinv.fin u hd.1).2 hf
      rcases input_to_base inv hv.1 hd with h | ⟨h, _⟩
      · exact hout u hvs v h
      · exact hdisj u h hvs
    rcases h with ⟨x, hx⟩ | ⟨u, v, h1, h2⟩ | ⟨u, v, h1, h2⟩
    · -- no arc of a cycle is artificial: it would start at a start node, into which nothing leads
      have key : ∀ a b, TransGen (InputDep rows w) a b → (∃ y, InputDep rows w y a) → TransGen (DepIn st.n st.base) a b := by
        intro a b hab
        induction hab using TransGen.head_induction_on with
        | single h =>
          rename_i a
          rintro ⟨y, hy⟩
          rcases input_to_base inv hv.1 h with h' | ⟨h', _⟩
          · exact TransGen.single h'
          · exact absurd ((dinv.start a hy.2.1).1 h') (hIn y a hy)
        | head h _ ih =>
          rename_i a c _
          rintro ⟨y, hy⟩
          rcases input_to_base inv hv.1 h with h' | ⟨h', _⟩
          · exact TransGen.head h' (ih ⟨a, h⟩)
          · exact absurd ((dinv.start a hy.2.1).1 h') (hIn y a hy)
      exact hc x (key x x hx (cycle_step hx))
    · exact hIn u v h1 h2
    · exact hOut u v h1 h2

/-- a reported cycle is one of the input; a cycle is reported as such unless a dependency leads into a start -/
theorem make_cyclic_iff (hv : ValidArgs rows cols starts ends) :
    (WM.make rows cols w starts ends = .error .cyclic → ∃ x, TransGen (InputDep rows w) x x) ∧
    ((∀ u v, InputDep rows w u v → ¬ FirstStart starts ends v) → (∃ x, TransGen (InputDep rows w) x x) →
      WM.make rows cols w starts ends = .error .cyclic) := by
  obtain ⟨st, inv, dinv, hcyc, _⟩ := make_cases (w := w) hv
  rw [hcyc]
  refine ⟨fun ⟨x, hx⟩ => ⟨_, base_trans inv hx⟩, ?_⟩
  rintro hIn ⟨x, hx⟩
  have key : ∀ a b, TransGen (InputDep rows w) a b → (∃ y, InputDep rows w y a) → TransGen (DepIn st.n st.base) a b := by
    intro a b hab
    induction hab using TransGen.head_induction_on with
    | single h =>
      rename_i a
      rintro ⟨y, hy⟩
      rcases input_to_base inv hv.1 h with h' | ⟨h', _⟩
      · exact TransGen.single h'
      · exact absurd ((dinv.start a hy.2.1).1 h') (hIn y a hy)
    | head h _ ih =>
      rename_i a c _
      rintro ⟨y, hy⟩
      rcases input_to_base inv hv.1 h with h' | ⟨h', _⟩
      · exact TransGen.head h' (ih ⟨a, h⟩)
      · exact absurd ((dinv.start a hy.2.1).1 h') (hIn y a hy)
  exact ⟨x, key x x hx (cycle_step hx)⟩

end
end Mtsp
