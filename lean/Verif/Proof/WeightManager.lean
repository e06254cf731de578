import Verif.Model.WeightManager
import Verif.Props.Dependency

namespace Mtsp
open Relation

structure WInv (W0 : Weights) (origN : Nat) (cs ce : List Nat) (st : WMState) : Prop where
  len : st.n = origN + st.toOrig.length
  toLt : ∀ x ∈ st.toOrig, x < origN
  nodup : (st.starts ++ st.ends).Nodup
  lt : ∀ x ∈ st.starts ++ st.ends, x < st.n
  used : ∀ p, p < origN → (p ∈ st.inUse ↔ p ∈ st.starts ++ st.ends)
  mapS : st.starts.map (origOf origN st.toOrig) = cs
  mapE : st.ends.map (origOf origN st.toOrig) = ce
  cover : ∀ i, origN ≤ i → i < st.n → i ∈ st.starts ++ st.ends
  wts : ∀ i j, i < st.n → j < st.n → st.w i j =
    if W0 (origOf origN st.toOrig i) (origOf origN st.toOrig j) = -1 ∧
        ((origN ≤ i ∧ i ∈ st.starts) ∨ (origN ≤ j ∧ j ∈ st.ends)) then 0
    else W0 (origOf origN st.toOrig i) (origOf origN st.toOrig j)

theorem origOf_lt {origN : Nat} {t : List Nat} (h : ∀ x ∈ t, x < origN) {i : Nat} (hi : i < origN + t.length) :
    origOf origN t i < origN := by
  unfold origOf
  split
  · assumption
  · have : i - origN < t.length := by omega
    rw [List.getD_eq_getElem?_getD, List.getElem?_eq_getElem this]
    exact h _ (List.getElem_mem this)

theorem origOf_self {origN : Nat} {t : List Nat} {i : Nat} (h : i < origN) : origOf origN t i = i := by
  simp [origOf, h]

theorem origOf_snoc {origN : Nat} {t : List Nat} {p i : Nat} (h : i < origN + t.length) :
    origOf origN (t ++ [p]) i = origOf origN t i := by
  unfold origOf
  split
  · rfl
  · have : i - origN < t.length := by omega
    simp [List.getD_eq_getElem?_getD, List.getElem?_append_left this]

theorem origOf_last {origN : Nat} {t : List Nat} {p : Nat} : origOf origN (t ++ [p]) (origN + t.length) = p := by
  simp [origOf]

theorem dupNode_eq {n : Nat} {w : Weights} {p : Nat} (hp : p < n) (i j : Nat) :
    dupNode n w p i j = w (if i = n then p else i) (if j = n then p else j) := by
  simp only [dupNode]
  by_cases h1 : i = n <;> by_cases h2 : j = n <;> simp [h1, h2]

/-- shared part of the two duplication cases -/
theorem dup_orig {st : WMState} {origN p : Nat} (hlen : st.n = origN + st.toOrig.length) (hp : p < origN) (i : Nat)
    (hi : i < st.n + 1) :
    origOf origN (st.toOrig ++ [p]) i = origOf origN st.toOrig (if i = st.n then p else i) ∧
    (if i = st.n then p else i) < st.n := by
  by_cases h : i = st.n
  · subst h
    simp only [if_true]
    rw [origOf_self hp]
    rw [hlen]
    exact ⟨origOf_last, by omega⟩
  · simp only [h, if_false]
    exact ⟨origOf_snoc (by omega), by omega⟩

theorem map_orig_snoc {st : WMState} {origN p : Nat} {l : List Nat} (hlen : st.n = origN + st.toOrig.length)
    (h : ∀ x ∈ l, x < st.n) : l.map (origOf origN (st.toOrig ++ [p])) = l.map (origOf origN st.toOrig) := by
  apply List.map_congr_left
  intro x hx
  exact origOf_snoc (by have := h x hx; omega)

theorem wmTake_start {W0 : Weights} {origN : Nat} {cs ce : List Nat} {st st' : WMState} {p : Nat}
    (h : WInv W0 origN cs ce st) (he : wmTake origN true st p = .ok st') :
    p < origN ∧ WInv W0 origN (cs ++ [p]) ce st' := by
  unfold wmTake at he
  split at he
  · simp at he
  next hp =>
  have hp : p < origN := by omega
  refine ⟨hp, ?_⟩
  have hpn : p < st.n := by have := h.len; omega
  have hltS : ∀ x ∈ st.starts, x < st.n := fun x hx => h.lt x (List.mem_append_left _ hx)
  have hltE : ∀ x ∈ st.ends, x < st.n := fun x hx => h.lt x (List.mem_append_right _ hx)
  split at he
  · simp only [if_true, Except.ok.injEq] at he
    subst he
    refine ⟨by simp; have := h.len; omega, ?_, ?_, ?_, ?_, ?_, ?_, ?_, ?_⟩
    · intro x hx; simp at hx; rcases hx with hx | rfl
      · exact h.toLt x hx
      · exact hp
    · have hnd := h.nodup
      rw [List.nodup_append] at hnd ⊢
      obtain ⟨n1, n2, n3⟩ := hnd
      refine ⟨?_, n2, ?_⟩
      · rw [List.nodup_append]; refine ⟨n1, by simp, ?_⟩
        intro a ha b hb e; simp at hb; subst hb; subst e; exact absurd (hltS _ ha) (lt_irrefl _)
      · intro a ha b hb e
        simp at ha; rcases ha with ha | rfl
        · exact n3 a ha b hb e
        · subst e; exact absurd (hltE _ hb) (lt_irrefl _)
    · intro x hx
      simp at hx
      rcases hx with hx | rfl | hx
      · have := hltS x hx; simp; omega
      · simp
      · have := hltE x hx; simp; omega
    · intro q hq
      rw [h.used q hq]
      have : q ≠ st.n := by have := h.len; omega
      simp [this]
    · simp only [List.map_append, List.map_cons, List.map_nil]
      rw [map_orig_snoc h.len hltS, h.mapS]
      congr 2
      simp only [h.len]; exact origOf_last
    · simp only
      rw [map_orig_snoc h.len hltE, h.mapE]
    · intro i hi hin
      simp at hin ⊢
      by_cases e : i = st.n
      · simp [e]
      · have := h.cover i hi (by omega)
        simp at this; tauto
    · intro i j hi hj
      simp only at hi hj ⊢
      obtain ⟨oi, li⟩ := dup_orig h.len hp i hi
      obtain ⟨oj, lj⟩ := dup_orig h.len hp j hj
      rw [oi, oj, dupNode_eq hpn, h.wts _ _ li lj]
      have hn : origN ≤ st.n := by have := h.len; omega
      by_cases e1 : i = st.n
      · have e1' : ¬ origN ≤ (if i = st.n then p else i) := by simp [e1, hp]
        simp only [e1'] 
        by_cases hv : W0 (origOf origN st.toOrig (if i = st.n then p else i)) (origOf origN st.toOrig (if j = st.n then p else j)) = -1
        · simp only [hv, e1, hn, List.mem_append, List.mem_singleton, true_and, or_true, true_or, if_true, false_and, false_or]
          split_ifs <;> simp_all
        · simp [hv]
      · have hi' : i ∈ st.starts ++ [st.n] ↔ i ∈ st.starts := by simp [e1]
        simp only [e1, false_and, if_false, hi']
        by_cases e2 : j = st.n
        · have : j ∉ st.ends := fun hm => by have := hltE j hm; omega
          have hnp : ¬ origN ≤ p := by omega
          simp only [e2, if_true, hnp, false_and, or_false]
          rw [e2] at this
          simp [this]
        · simp only [e2, if_false]
  · next hu =>
    simp only [if_true, Except.ok.injEq] at he
    subst he
    have hpm : p ∉ st.starts ++ st.ends := fun hm => hu ((h.used p hp).2 hm)
    refine ⟨h.len, h.toLt, ?_, ?_, ?_, ?_, h.mapE, ?_, ?_⟩
    · have : (st.starts ++ [p] ++ st.ends).Perm (p :: (st.starts ++ st.ends)) := by
        simp only [List.append_assoc, List.singleton_append]; exact List.perm_middle
      exact this.nodup_iff.2 (List.nodup_cons.2 ⟨hpm, h.nodup⟩)
    · intro x hx
      simp at hx
      rcases hx with hx | rfl | hx
      · exact hltS x hx
      · exact hpn
      · exact hltE x hx
    · intro q hq
      have := h.used q hq
      simp at this ⊢; tauto
    · simp [h.mapS, origOf_self hp]
    · intro i hi hin
      have := h.cover i hi hin
      simp at this ⊢; tauto
    · intro i j hi hj
      simp only at hi hj ⊢
      rw [h.wts i j hi hj]
      have : (origN ≤ i ∧ i ∈ st.starts ++ [p]) ↔ (origN ≤ i ∧ i ∈ st.starts) := by
        simp only [List.mem_append, List.mem_singleton]
        constructor
        · rintro ⟨h1, h2 | rfl⟩
          · exact ⟨h1, h2⟩
          · omega
        · rintro ⟨h1, h2⟩; exact ⟨h1, Or.inl h2⟩
      simp only [this]

theorem wmTake_end {W0 : Weights} {origN : Nat} {cs ce : List Nat} {st st' : WMState} {p : Nat}
    (h : WInv W0 origN cs ce st) (he : wmTake origN false st p = .ok st') :
    p < origN ∧ WInv W0 origN cs (ce ++ [p]) st' := by
  unfold wmTake at he
  split at he
  · simp at he
  next hp =>
  have hp : p < origN := by omega
  refine ⟨hp, ?_⟩
  have hpn : p < st.n := by have := h.len; omega
  have hltS : ∀ x ∈ st.starts, x < st.n := fun x hx => h.lt x (List.mem_append_left _ hx)
  have hltE : ∀ x ∈ st.ends, x < st.n := fun x hx => h.lt x (List.mem_append_right _ hx)
  split at he
  · simp only [Bool.false_eq_true, if_false, Except.ok.injEq] at he
    subst he
    refine ⟨by simp; have := h.len; omega, ?_, ?_, ?_, ?_, ?_, ?_, ?_, ?_⟩
    · intro x hx; simp at hx; rcases hx with hx | rfl
      · exact h.toLt x hx
      · exact hp
    · simp only [← List.append_assoc]
      rw [List.nodup_append]
      refine ⟨h.nodup, by simp, ?_⟩
      intro a ha b hb e; simp at hb; subst hb; subst e; exact absurd (h.lt _ ha) (lt_irrefl _)
    · intro x hx
      simp at hx
      rcases hx with hx | hx | rfl
      · have := hltS x hx; simp; omega
      · have := hltE x hx; simp; omega
      · simp
    · intro q hq
      rw [h.used q hq]
      have : q ≠ st.n := by have := h.len; omega
      simp [this]
    · simp only
      rw [map_orig_snoc h.len hltS, h.mapS]
    · simp only [List.map_append, List.map_cons, List.map_nil]
      rw [map_orig_snoc h.len hltE, h.mapE]
      congr 2
      simp only [h.len]; exact origOf_last
    · intro i hi hin
      simp at hin ⊢
      by_cases e : i = st.n
      · simp [e]
      · have := h.cover i hi (by omega)
        simp at this; tauto
    · intro i j hi hj
      simp only at hi hj ⊢
      obtain ⟨oi, li⟩ := dup_orig h.len hp i hi
      obtain ⟨oj, lj⟩ := dup_orig h.len hp j hj
      rw [oi, oj, dupNode_eq hpn, h.wts _ _ li lj]
      have hn : origN ≤ st.n := by have := h.len; omega
      by_cases e1 : j = st.n
      · have e1' : ¬ origN ≤ (if j = st.n then p else j) := by simp [e1, hp]
        simp only [e1'] 
        by_cases hv : W0 (origOf origN st.toOrig (if i = st.n then p else i)) (origOf origN st.toOrig (if j = st.n then p else j)) = -1
        · simp only [hv, e1, hn, List.mem_append, List.mem_singleton, true_and, or_true, true_or, if_true, false_and, or_false]
          split_ifs <;> simp_all
        · simp [hv]
      · have hi' : j ∈ st.ends ++ [st.n] ↔ j ∈ st.ends := by simp [e1]
        simp only [e1, false_and, if_false, hi']
        by_cases e2 : i = st.n
        · have : i ∉ st.starts := fun hm => by have := hltS i hm; omega
          have hnp : ¬ origN ≤ p := by omega
          simp only [e2, if_true, hnp, false_and, false_or]
          rw [e2] at this
          simp [this]
        · simp only [e2, if_false]
  · next hu =>
    simp only [Bool.false_eq_true, if_false, Except.ok.injEq] at he
    subst he
    have hpm : p ∉ st.starts ++ st.ends := fun hm => hu ((h.used p hp).2 hm)
    refine ⟨h.len, h.toLt, ?_, ?_, ?_, h.mapS, ?_, ?_, ?_⟩
    · have : (st.starts ++ (st.ends ++ [p])).Perm (p :: (st.starts ++ st.ends)) := by
        rw [← List.append_assoc]; exact List.perm_append_singleton p _
      exact this.nodup_iff.2 (List.nodup_cons.2 ⟨hpm, h.nodup⟩)
    · intro x hx
      simp at hx
      rcases hx with hx | hx | rfl
      · exact hltS x hx
      · exact hltE x hx
      · exact hpn
    · intro q hq
      have := h.used q hq
      simp at this ⊢; tauto
    · simp [h.mapE, origOf_self hp]
    · intro i hi hin
      have := h.cover i hi hin
      simp at this ⊢; tauto
    · intro i j hi hj
      simp only at hi hj ⊢
      rw [h.wts i j hi hj]
      have : (origN ≤ j ∧ j ∈ st.ends ++ [p]) ↔ (origN ≤ j ∧ j ∈ st.ends) := by
        simp only [List.mem_append, List.mem_singleton]
        constructor
        · rintro ⟨h1, h2 | rfl⟩
          · exact ⟨h1, h2⟩
          · omega
        · rintro ⟨h1, h2⟩; exact ⟨h1, Or.inl h2⟩
      simp only [this]

theorem wmTake_ok_iff (origN : Nat) (b : Bool) (st : WMState) (p : Nat) :
    (∃ st', wmTake origN b st p = .ok st') ↔ p < origN := by
  unfold wmTake
  constructor
  · rintro ⟨st', h⟩
    split at h
    · simp at h
    · omega
  · intro h
    rw [if_neg (by omega)]
    split <;> split <;> exact ⟨_, rfl⟩

theorem wmTake_error {origN : Nat} {b : Bool} {st : WMState} {p : Nat} {e : Err} (h : wmTake origN b st p = .error e) :
    (∃ m, e = .runtime m) ∧ origN ≤ p := by
  unfold wmTake at h
  split at h
  · next hp => simp at h; exact ⟨⟨_, h.symm⟩, hp⟩
  · exfalso; split at h <;> split at h <;> simp at h

theorem wmAgent_ok {W0 : Weights} {origN : Nat} {cs ce : List Nat} {st st' : WMState} {a : Nat × Nat}
    (h : WInv W0 origN cs ce st) (he : wmAgent origN st a = .ok st') :
    a.1 < origN ∧ a.2 < origN ∧ WInv W0 origN (cs ++ [a.1]) (ce ++ [a.2]) st' := by
  unfold wmAgent at he
  split at he
  · simp at he
  · next st1 h1 =>
    obtain ⟨k1, k2⟩ := wmTake_start h h1
    obtain ⟨k3, k4⟩ := wmTake_end k2 he
    exact ⟨k1, k3, k4⟩

theorem wmAgent_error {origN : Nat} {st : WMState} {a : Nat × Nat} {e : Err} (he : wmAgent origN st a = .error e) :
    (∃ m, e = .runtime m) ∧ (origN ≤ a.1 ∨ origN ≤ a.2) := by
  unfold wmAgent at he
  split at he
  · next e' h1 =>
    simp at he; subst he
    exact ⟨(wmTake_error h1).1, Or.inl (wmTake_error h1).2⟩
  · exact ⟨(wmTake_error he).1, Or.inr (wmTake_error he).2⟩

theorem wInit_inv (W0 : Weights) (n : Nat) : WInv W0 n [] [] { n := n, w := W0 } := by
  refine ⟨by simp, by simp, by simp, by simp, by simp, by simp, by simp, ?_, ?_⟩
  · intro i h1 h2; simp at h2; omega
  · intro i j hi hj; simp at hi hj; simp [origOf_self hi, origOf_self hj]

theorem wmLoop_ok {W0 : Weights} {n : Nat} {l : List (Nat × Nat)} {st : WMState}
    (h : l.foldlM (wmAgent n) { n := n, w := W0 } = .ok st) :
    WInv W0 n (l.map (·.1)) (l.map (·.2)) st ∧ ∀ a ∈ l, a.1 < n ∧ a.2 < n := by
  have := foldlM_ok (wmAgent n) (fun pre st => WInv W0 n (pre.map (·.1)) (pre.map (·.2)) st ∧ ∀ a ∈ pre, a.1 < n ∧ a.2 < n)
    l _ _ h ⟨by simpa using wInit_inv W0 n, by simp⟩ (by
      rintro pre x b1 b2 ⟨hi, hp⟩ _ hs
      obtain ⟨k1, k2, k3⟩ := wmAgent_ok hi hs
      refine ⟨by simpa using k3, ?_⟩
      intro a ha; simp at ha; rcases ha with ha | rfl
      · exact hp a ha
      · exact ⟨k1, k2⟩)
  exact this

theorem wmLoop_error {W0 : Weights} {n : Nat} {l : List (Nat × Nat)} {e : Err}
    (h : l.foldlM (wmAgent n) { n := n, w := W0 } = .error e) :
    (∃ m, e = .runtime m) ∧ ∃ a ∈ l, n ≤ a.1 ∨ n ≤ a.2 := by
  obtain ⟨pre, x, b1, _, hx, he⟩ := foldlM_error (wmAgent n) (fun _ _ => True) l _ _ h trivial (fun _ _ _ _ _ _ _ => trivial)
  exact ⟨(wmAgent_error he).1, x, hx, (wmAgent_error he).2⟩

theorem foldl_setAt_zero (l : List (Nat × Nat)) (w : Weights) (a b : Nat) :
    l.foldl (fun w e => setAt w e.1 e.2 0) w a b = if (a, b) ∈ l then 0 else w a b := by
  induction l generalizing w with
  | nil => simp
  | cons e l ih =>
    simp only [List.foldl_cons, ih, List.mem_cons, setAt]
    obtain ⟨x, y⟩ := e
    by_cases h1 : (a, b) ∈ l
    · simp [h1]
    · by_cases h2 : a = x ∧ b = y
      · obtain ⟨rfl, rfl⟩ := h2; simp
      · simp only [h1, if_false, h2, or_false, Prod.mk.injEq]

theorem requireAll_ok {l : List Nat} {f : Nat → Except Err (List Nat)}
    (h : l.foldlM (fun _ s => requireEmpty (f s)) () = .ok ()) : ∀ s ∈ l, f s = .ok [] := by
  have := foldlM_ok (fun (_ : Unit) s => requireEmpty (f s)) (fun pre _ => ∀ s ∈ pre, f s = .ok []) l () () h (by simp) (by
    intro pre x _ _ hp _ hs
    intro s hm; rcases List.mem_append.1 hm with hm | hm
    · exact hp s hm
    · simp at hm; subst hm
      unfold requireEmpty at hs
      split at hs
      · simp at hs
      · next l' hl =>
        split at hs
        · next he => rw [hl]; simp at he; rw [he]
        · simp at hs)
  exact this

theorem requireAll_error {l : List Nat} {f : Nat → Except Err (List Nat)} {e : Err}
    (h : l.foldlM (fun _ s => requireEmpty (f s)) () = .error e) (hf : ∀ s ∈ l, ∃ m, f s = .ok m) :
    e = .incompatible ∧ ∃ s ∈ l, ∃ x m, f s = .ok (x :: m) := by
  obtain ⟨pre, x, b1, _, hx, he⟩ := foldlM_error (fun (_ : Unit) s => requireEmpty (f s)) (fun _ _ => True) l () e h trivial
    (fun _ _ _ _ _ _ _ => trivial)
  obtain ⟨m, hm⟩ := hf x hx
  simp only [requireEmpty, hm] at he
  cases m with
  | nil => simp at he
  | cons y m => simp at he; exact ⟨he.symm, x, hx, y, m, hm⟩

/-- Everything there is to know about a successful construction. -/
structure WMSpec (rows : Nat) (w : Weights) (starts ends : List Nat) (m : WM) : Prop where
  two : 2 ≤ rows
  origN : m.origN = rows
  lenEq : starts.length = ends.length
  pos : 0 < starts.length
  rangeS : ∀ s ∈ starts, s < rows
  rangeE : ∀ e ∈ ends, e < rows
  n_eq : m.n = rows + m.toOrig.length
  toLt : ∀ x ∈ m.toOrig, x < rows
  nodup : (m.starts ++ m.ends).Nodup
  lt : ∀ x ∈ m.starts ++ m.ends, x < m.n
  mapS : m.starts.map m.orig = starts
  mapE : m.ends.map m.orig = ends
  cover : ∀ i, rows ≤ i → i < m.n → i ∈ m.starts ++ m.ends
  deps : m.deps = DepGraph.make m.n m.w
  noIn : ∀ s ∈ m.starts, ∀ u, ¬ DepIn m.n m.w u s
  noOut : ∀ e ∈ m.ends, ∀ v, ¬ DepIn m.n m.w e v
  /-- `base`: the flags before the closure -/
  weights : ∃ base : Weights,
    (∀ i j, i < m.n → j < m.n → base i j =
      if (i, j) ∈ artificialArcs m.starts m.ends then 0
      else if zeroDiag rows w (m.orig i) (m.orig j) = -1 ∧
        ((rows ≤ i ∧ i ∈ m.starts) ∨ (rows ≤ j ∧ j ∈ m.ends)) then 0
      else zeroDiag rows w (m.orig i) (m.orig j)) ∧
    (∀ x, ¬ TransGen (DepIn m.n base) x x) ∧
    (∀ i j, i < m.n → j < m.n →
      (¬ (m.starts.length = 1 ∧ i = m.ends.getD 0 0 ∧ j = m.starts.getD 0 0) →
        ((m.w i j = -1 ↔ TransGen (DepIn m.n base) j i) ∧ (¬ TransGen (DepIn m.n base) j i → m.w i j = base i j))) ∧
      ((m.starts.length = 1 ∧ i = m.ends.getD 0 0 ∧ j = m.starts.getD 0 0) → m.w i j = 0))

theorem WM.make_ok {rows cols : Nat} {w : Weights} {starts ends : List Nat} {m : WM}
    (h : WM.make rows cols w starts ends = .ok m) : WMSpec rows w starts ends m ∧ rows = cols := by
  unfold WM.make at h
  split at h
  · simp at h
  next h1 =>
  split at h
  · simp at h
  next h2 =>
  split at h
  · simp at h
  next h3 =>
  split at h
  · simp at h
  next h4 =>
  split at h
  · simp at h
  next st hst =>
  split at h
  · simp at h
  next w1 hw1 =>
  dsimp only at h
  split at h
  · simp at h
  next hS =>
  split at h
  · simp at h
  next hE =>
  simp only [Except.ok.injEq] at h
  push Not at h1 h3
  obtain ⟨inv, rng⟩ := wmLoop_ok hst
  have e1 : (starts.zip ends).map (·.1) = starts := by rw [List.map_fst_zip]; omega
  have e2 : (starts.zip ends).map (·.2) = ends := by rw [List.map_snd_zip]; omega
  rw [e1, e2] at inv
  have hac : ∀ x, ¬ TransGen (DepIn st.n (zeroArtificial st.starts st.ends st.w)) x x := by
    intro x hx
    rw [(C14_cycle_reported_iff _ _).1.2 ⟨x, hx⟩] at hw1; simp at hw1
  obtain ⟨w1', ew, c1, c2⟩ := C15_closure _ _ hac
  rw [hw1] at ew; simp at ew; subst ew
  have hSn := requireAll_ok hS
  have hEn := requireAll_ok hE
  refine ⟨?_, h3⟩
  subst h
  refine ⟨by omega, rfl, h1, by omega, ?_, ?_, inv.len, inv.toLt, inv.nodup, inv.lt, inv.mapS, inv.mapE, inv.cover, rfl, ?_, ?_, ?_⟩
  · intro s hs
    rw [← e1] at hs; obtain ⟨a, ha, rfl⟩ := List.mem_map.1 hs; exact (rng a ha).1
  · intro s hs
    rw [← e2] at hs; obtain ⟨a, ha, rfl⟩ := List.mem_map.1 hs; exact (rng a ha).2
  · intro s hs u hd
    have hsn := inv.lt s (List.mem_append_left _ hs)
    obtain ⟨l, hl, _, hm⟩ := (C16_queries_agree st.n _).2.2.2.1 s hsn
    rw [hSn s hs] at hl; simp at hl; subst hl
    have := (hm u).2 hd; simp at this
  · intro s hs u hd
    have hsn := inv.lt s (List.mem_append_right _ hs)
    obtain ⟨l, hl, _, hm⟩ := (C16_queries_agree st.n _).2.2.1 s hsn
    rw [hEn s hs] at hl; simp at hl; subst hl
    have := (hm u).2 hd; simp at this
  · refine ⟨zeroArtificial st.starts st.ends st.w, ?_, hac, ?_⟩
    · intro i j hi hj
      simp only [zeroArtificial, foldl_setAt_zero]
      split
      · rfl
      · exact inv.wts i j hi hj
    · intro i j hi hj
      constructor
      · intro hn
        have : (if st.starts.length = 1 then setAt w1 (st.ends.getD 0 0) (st.starts.getD 0 0) 0 else w1) i j = w1 i j := by
          split
          · next h => simp only [setAt]; rw [if_neg]; intro h'; exact hn ⟨h, h'.1, h'.2⟩
          · rfl
        simp only [this]
        exact ⟨c1 j i hj hi, c2 j i⟩
      · rintro ⟨h, rfl, rfl⟩
        simp only at h
        simp [h, setAt]

end Mtsp
