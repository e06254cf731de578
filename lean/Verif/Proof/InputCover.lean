import Verif.Spec.InputCover
import Verif.Proof.Depots
import Verif.Proof.Tour
import Verif.Model.Result

/-! Solutions of the preprocessed instance and solutions in terms of the input. -/

namespace Mtsp
open Relation

theorem middle_shape (s e : Nat) (mid : List Nat) : middle (s :: mid ++ [e]) = mid := by
  simp [middle]

theorem middle_map (f : Nat → Nat) (p : List Nat) : middle (p.map f) = (middle p).map f := by
  simp [middle, List.map_tail, List.map_dropLast]

/-- the nodes of the paths: starts, ends, and what is in between -/
theorem flatten_split : ∀ (Q : Paths) (S E : List Nat), Q.length = S.length → Q.length = E.length →
    (∀ (a : Nat) (p : List Nat), Q[a]? = some p → ∃ s e mid, S[a]? = some s ∧ E[a]? = some e ∧ p = s :: mid ++ [e]) →
    Q.flatten.Perm (S ++ E ++ (Q.map middle).flatten)
  | [], S, E, h1, h2, _ => by
    simp at h1 h2
    rw [List.length_eq_zero_iff.1 h1.symm, List.length_eq_zero_iff.1 h2.symm]
    simp
  | p :: Q, [], E, h1, _, _ => by simp at h1
  | p :: Q, s :: S, [], _, h2, _ => by simp at h2
  | p :: Q, s :: S, e :: E, h1, h2, h => by
    have ih := flatten_split Q S E (by simpa using h1) (by simpa using h2) (fun a q hq => by
      have := h (a + 1) q (by simpa using hq)
      simpa using this)
    obtain ⟨s', e', mid, e1, e2, rfl⟩ := h 0 p (by simp)
    simp at e1 e2
    subst e1 e2
    simp only [List.flatten_cons, List.map_cons, middle_shape]
    refine (List.Perm.append_left _ ih).trans ?_
    rw [List.perm_iff_count]
    intro x
    simp only [List.count_append, List.count_cons, List.count_nil]
    ring

section
variable {rows cols : Nat} {w : Weights} {starts ends : List Nat} {m : WM}

theorem cover_shape (h : WM.make rows cols w starts ends = .ok m) {Q : Paths} (hQ : IsCover m.n m.starts m.ends Q) (a : Nat) (p : List Nat)
    (hp : Q[a]? = some p) : ∃ s e mid, m.starts[a]? = some s ∧ m.ends[a]? = some e ∧ p = s :: mid ++ [e] := by
  have hnd := (C18_own_starts_and_ends h).1
  have ha : a < m.starts.length := by rw [← hQ.len]; exact (List.getElem?_eq_some_iff.1 hp).1
  have h1 := hQ.head a p hp
  have h2 := hQ.last a p hp
  have hlen : m.starts.length = m.ends.length := by
    obtain ⟨_, _, h1, h2, _⟩ := C18_own_starts_and_ends h
    rw [h1, h2, (WM.make_ok h).1.lenEq]
  have e1 : m.starts[a]? = some (m.starts[a]) := List.getElem?_eq_getElem ha
  have e2 : m.ends[a]? = some (m.ends[a]) := List.getElem?_eq_getElem (by omega)
  rw [e1] at h1; rw [e2] at h2
  have hne : m.starts[a] ≠ m.ends[a] := by
    intro hc
    exact (List.nodup_append.1 hnd).2.2 _ (List.getElem_mem ha) _ (List.getElem_mem _) hc
  refine ⟨_, _, middle p, e1, e2, ?_⟩
  cases p with
  | nil => simp at h1
  | cons x p =>
    simp at h1
    subst h1
    rcases List.eq_nil_or_concat p with rfl | ⟨l, y, rfl⟩
    · simp at h2; exact absurd h2 hne
    · simp [List.getLast?_cons] at h2
      subst h2
      simp [middle]

theorem orig_nondepot (h : WM.make rows cols w starts ends = .ok m) {x v : Nat} (hx : x < m.n) (hv : v ∉ starts ++ ends) (he : m.orig x = v) :
    x = v ∧ x < rows := by
  obtain ⟨_, _, hls, hle, hmS, hmE, _, hid, _, hcov⟩ := C18_own_starts_and_ends h
  by_cases hr : x < rows
  · exact ⟨by rw [← he, hid x hr], hr⟩
  · exfalso
    apply hv
    rw [← hmS, ← hmE, ← List.map_append, ← he]
    exact List.mem_map_of_mem (hcov x (by omega) hx)

/-- the nodes between the depots -/
theorem mids_perm (h : WM.make rows cols w starts ends = .ok m) {M : List Nat} (hM : (m.starts ++ m.ends ++ M).Perm (List.range m.n)) :
    M.Perm ((List.range rows).filter fun v => decide (v ∉ starts ++ ends)) := by
  obtain ⟨_, hlt, hls, hle, hmS, hmE, hr, hid, _, hcov⟩ := C18_own_starts_and_ends h
  have hnd : (m.starts ++ m.ends ++ M).Nodup := hM.nodup_iff.2 List.nodup_range
  obtain ⟨_, n2, n3⟩ := List.nodup_append.1 hnd
  rw [List.perm_ext_iff_of_nodup n2 (List.nodup_range.filter _)]
  intro v
  simp only [List.mem_filter, List.mem_range, decide_eq_true_eq]
  constructor
  · intro hv
    have h1 : v < m.n := List.mem_range.1 (hM.mem_iff.1 (List.mem_append_right _ hv))
    have h2 : v ∉ m.starts ++ m.ends := fun hc => n3 v hc v hv rfl
    have h3 : v < rows := by by_contra hc; exact h2 (hcov v (by omega) h1)
    exact ⟨h3, fun hc => h2 ((WM.depot_iff h v h3).2 hc)⟩
  · rintro ⟨h1, h2⟩
    have h3 : v ∉ m.starts ++ m.ends := fun hc => h2 ((WM.depot_iff h v h1).1 hc)
    have := hM.mem_iff.2 (List.mem_range.2 (show v < m.n by omega))
    rw [List.mem_append] at this
    exact this.resolve_left h3

theorem wm_len (h : WM.make rows cols w starts ends = .ok m) : m.starts.length = m.ends.length := by
  obtain ⟨_, _, h1, h2, _⟩ := C18_own_starts_and_ends h
  rw [h1, h2, (WM.make_ok h).1.lenEq]

/-- mapping a cover back gives a solution in terms of the input -/
theorem inputCover_of_cover (h : WM.make rows cols w starts ends = .ok m) {Q : Paths} (hQ : IsCover m.n m.starts m.ends Q) :
    InputCover rows starts ends (Q.map (·.map m.orig)) := by
  obtain ⟨_, hlt, hls, hle, hmS, hmE, hr, hid, _, hcov⟩ := C18_own_starts_and_ends h
  refine ⟨by simp [hQ.len, hls], ?_, ?_⟩
  · intro a p hp
    rw [List.getElem?_map, Option.map_eq_some_iff] at hp
    obtain ⟨q, hq, rfl⟩ := hp
    obtain ⟨s, e, mid, h1, h2, rfl⟩ := cover_shape h hQ a q hq
    refine ⟨m.orig s, m.orig e, mid.map m.orig, ?_, ?_, by simp⟩
    · rw [← hmS, List.getElem?_map, h1]; rfl
    · rw [← hmE, List.getElem?_map, h2]; rfl
  · have hsplit := flatten_split Q m.starts m.ends hQ.len (by rw [hQ.len, wm_len h]) (cover_shape h hQ)
    have hM := mids_perm h (hsplit.symm.trans hQ.perm)
    have : ((Q.map (·.map m.orig)).map middle).flatten = (Q.map middle).flatten := by
      congr 1
      rw [List.map_map]
      apply List.map_congr_left
      intro q hq
      simp only [Function.comp, middle_map]
      rw [List.map_congr_left (g := id), List.map_id]
      intro x hx
      have hx' : x ∈ (Q.map middle).flatten := List.mem_flatten.2 ⟨_, List.mem_map_of_mem hq, hx⟩
      have := hM.mem_iff.1 hx'
      simp only [List.mem_filter, List.mem_range] at this
      exact hid x this.1
    rw [this]; exact hM

/-- every solution in terms of the input comes from exactly such a cover -/
theorem cover_of_inputCover (h : WM.make rows cols w starts ends = .ok m) {P : Paths} (hP : InputCover rows starts ends P) :
    ∃ Q, IsCover m.n m.starts m.ends Q ∧ Q.map (·.map m.orig) = P := by
  obtain ⟨hnd, hlt, hls, hle, hmS, hmE, hr, hid, _, hcov⟩ := C18_own_starts_and_ends h
  have hl := wm_len h
  let Q : Paths := (List.range starts.length).map fun a => m.starts.getD a 0 :: middle (P.getD a []) ++ [m.ends.getD a 0]
  have hQa : ∀ (a : Nat) (q : List Nat), Q[a]? = some q → a < starts.length ∧ m.starts[a]? = some (m.starts.getD a 0) ∧
      m.ends[a]? = some (m.ends.getD a 0) ∧ q = m.starts.getD a 0 :: middle (P.getD a []) ++ [m.ends.getD a 0] := by
    intro a q hq
    simp only [Q, List.getElem?_map, Option.map_eq_some_iff] at hq
    obtain ⟨b, hb, rfl⟩ := hq
    obtain ⟨hbl, hbe⟩ := List.getElem?_eq_some_iff.1 hb
    simp at hbl hbe
    subst hbe
    refine ⟨hbl, ?_, ?_, rfl⟩
    · simp [List.getD_eq_getElem?_getD, show a < m.starts.length by omega]
    · simp [List.getD_eq_getElem?_getD, show a < m.ends.length by omega]
  have hQl : Q.length = m.starts.length := by simp [Q, hls]
  have hmid : Q.map middle = P.map middle := by
    apply List.ext_getElem?
    intro a
    simp only [Q, List.map_map, List.getElem?_map]
    by_cases ha : a < starts.length
    · have h2 : a < P.length := by rw [hP.len]; exact ha
      rw [List.getElem?_eq_getElem (by simpa using ha), List.getElem?_eq_getElem h2]
      simp only [List.getElem_range, Option.map_some, Function.comp, middle_shape]
      simp [List.getD_eq_getElem?_getD, h2]
    · rw [List.getElem?_eq_none (by simpa using ha), List.getElem?_eq_none (by rw [hP.len]; omega)]
      rfl
  have hrest : ∀ x ∈ (P.map middle).flatten, x < rows ∧ x ∉ starts ++ ends := by
    intro x hx
    have := hP.rest.mem_iff.1 hx
    simpa only [List.mem_filter, List.mem_range, decide_eq_true_eq] using this
  refine ⟨Q, ⟨hQl, ?_, ?_, ?_⟩, ?_⟩
  · intro a q hq
    obtain ⟨_, h1, _, rfl⟩ := hQa a q hq
    rw [h1]; rfl
  · intro a q hq
    obtain ⟨_, _, h1, rfl⟩ := hQa a q hq
    rw [h1]
    rw [List.getLast?_append]; rfl
  · refine (flatten_split Q m.starts m.ends hQl (by omega) (fun a q hq => ?_)).trans ?_
    · obtain ⟨_, h1, h2, h3⟩ := hQa a q hq
      exact ⟨_, _, _, h1, h2, h3⟩
    rw [hmid]
    have hnd2 : ((P.map middle).flatten).Nodup := hP.rest.nodup_iff.2 (List.nodup_range.filter _)
    have hdis : ∀ x ∈ m.starts ++ m.ends, ∀ y ∈ (P.map middle).flatten, x ≠ y := by
      rintro x hx y hy rfl
      obtain ⟨h1, h2⟩ := hrest x hy
      exact h2 ((WM.depot_iff h x h1).1 hx)
    rw [List.perm_ext_iff_of_nodup (List.nodup_append.2 ⟨hnd, hnd2, hdis⟩) List.nodup_range]
    intro x
    rw [List.mem_append, List.mem_range]
    constructor
    · rintro (hx | hx)
      · exact hlt x hx
      · have := (hrest x hx).1; omega
    · intro hx
      by_cases hd : x ∈ m.starts ++ m.ends
      · exact Or.inl hd
      · right
        have hxr : x < rows := by by_contra hc; exact hd (hcov x (by omega) hx)
        rw [hP.rest.mem_iff]
        simp only [List.mem_filter, List.mem_range, decide_eq_true_eq]
        exact ⟨hxr, fun hc => hd ((WM.depot_iff h x hxr).2 hc)⟩
  · apply List.ext_getElem?
    intro a
    by_cases ha : a < starts.length
    · have h2 : a < P.length := by rw [hP.len]; exact ha
      have hq : Q[a]? = some (m.starts.getD a 0 :: middle (P.getD a []) ++ [m.ends.getD a 0]) := by
        simp [Q, ha]
      rw [List.getElem?_map, hq, List.getElem?_eq_getElem h2]
      have hp : P[a]? = some P[a] := List.getElem?_eq_getElem h2
      obtain ⟨s, e, mid, h3, h4, h5⟩ := hP.shape a _ hp
      have hg : P.getD a [] = P[a] := by simp [List.getD_eq_getElem?_getD, h2]
      rw [hg, h5, middle_shape]
      simp only [Option.map_some, List.map_append, List.map_cons, List.map_nil, Option.some.injEq]
      have e1 : m.orig (m.starts.getD a 0) = s := by
        have : (m.starts.map m.orig)[a]? = some s := by rw [hmS]; exact h3
        rw [List.getElem?_map, Option.map_eq_some_iff] at this
        obtain ⟨x, hx, rfl⟩ := this
        simp [List.getD_eq_getElem?_getD, hx]
      have e2 : m.orig (m.ends.getD a 0) = e := by
        have : (m.ends.map m.orig)[a]? = some e := by rw [hmE]; exact h4
        rw [List.getElem?_map, Option.map_eq_some_iff] at this
        obtain ⟨x, hx, rfl⟩ := this
        simp [List.getD_eq_getElem?_getD, hx]
      rw [e1, e2]
      congr 2
      rw [List.map_congr_left (g := id), List.map_id]
      intro x hx
      refine hid x (hrest x (List.mem_flatten.2 ⟨mid, ?_, hx⟩)).1
      rw [List.mem_map]
      exact ⟨_, List.getElem_mem h2, by rw [h5, middle_shape]⟩
    · rw [List.getElem?_eq_none (by simp [hQl]; omega), List.getElem?_eq_none (by rw [hP.len]; omega)]

end
end Mtsp
