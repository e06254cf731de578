import Verif.Spec.Point
import Verif.Proof.Before
import Mathlib.Data.List.Nodup
import Mathlib.Tactic.Linarith
import Mathlib.Data.List.Perm.Lattice

/-! The closed tour through all paths. -/

namespace Mtsp

/-- successor on the closed tour `T` -/
def nxt (T : List Nat) (u : Nat) : Nat := T.getD ((T.idxOf u + 1) % T.length) 0

theorem idxOf_append_cons {l r : List Nat} {u : Nat} (h : (l ++ u :: r).Nodup) : (l ++ u :: r).idxOf u = l.length := by
  have hu : u ∉ l := by
    intro hm
    exact (List.nodup_append.1 h).2.2 u hm u (by simp) rfl
  rw [List.idxOf_append_of_notMem hu]; simp

theorem nxt_split {l r : List Nat} {u v : Nat} (h : (l ++ u :: v :: r).Nodup) : nxt (l ++ u :: v :: r) u = v := by
  unfold nxt
  rw [idxOf_append_cons h, Nat.mod_eq_of_lt (by simp), List.getD_eq_getElem?_getD, List.getElem?_append_right (by omega)]
  simp

theorem nxt_wrap {l r : List Nat} {T : List Nat} {u v : Nat} (h : T.Nodup) (h1 : T = l ++ [u]) (h2 : T = v :: r) :
    nxt T u = v := by
  unfold nxt
  have e : T.idxOf u = l.length := by rw [h1] at h ⊢; exact idxOf_append_cons h
  have el : T.length = l.length + 1 := by rw [h1]; simp
  rw [e, el, Nat.mod_self, h2]; rfl

theorem nxt_mem {T : List Nat} {u : Nat} (h : T ≠ []) : nxt T u ∈ T := by
  unfold nxt
  have hl : 0 < T.length := List.length_pos_iff.2 h
  have := Nat.mod_lt (T.idxOf u + 1) hl
  rw [List.getD_eq_getElem?_getD, List.getElem?_eq_getElem this]; exact List.getElem_mem _

theorem idxOf_nxt {T : List Nat} (hn : T.Nodup) {u : Nat} (hu : u ∈ T) :
    T.idxOf (nxt T u) = (T.idxOf u + 1) % T.length := by
  have hl : 0 < T.length := List.length_pos_iff.2 (List.ne_nil_of_mem hu)
  have := Nat.mod_lt (T.idxOf u + 1) hl
  unfold nxt
  rw [List.getD_eq_getElem?_getD, List.getElem?_eq_getElem this]
  exact hn.idxOf_getElem _ _

theorem mem_eq_of_idxOf {T : List Nat} {u v : Nat} (hu : u ∈ T) (hv : v ∈ T) (h : T.idxOf u = T.idxOf v) : u = v := by
  have h1 := List.getElem_idxOf (List.idxOf_lt_length_of_mem hu)
  have h2 := List.getElem_idxOf (List.idxOf_lt_length_of_mem hv)
  simp only [h] at h1
  exact h1.symm.trans h2

theorem nxt_inj {T : List Nat} (hn : T.Nodup) {u v : Nat} (hu : u ∈ T) (hv : v ∈ T) (h : nxt T u = nxt T v) : u = v := by
  have h1 := idxOf_nxt hn hu
  have h2 := idxOf_nxt hn hv
  rw [h, h2] at h1
  have lu := List.idxOf_lt_length_of_mem hu
  have lv := List.idxOf_lt_length_of_mem hv
  apply mem_eq_of_idxOf hu hv
  rcases Nat.lt_or_ge (T.idxOf u + 1) T.length with a | a <;> rcases Nat.lt_or_ge (T.idxOf v + 1) T.length with b | b
  · rw [Nat.mod_eq_of_lt a, Nat.mod_eq_of_lt b] at h1; omega
  · rw [Nat.mod_eq_of_lt a, show T.idxOf v + 1 = T.length by omega, Nat.mod_self] at h1; omega
  · rw [Nat.mod_eq_of_lt b, show T.idxOf u + 1 = T.length by omega, Nat.mod_self] at h1; omega
  · omega

theorem nxt_surj {T : List Nat} (hn : T.Nodup) {v : Nat} (hv : v ∈ T) : ∃ u ∈ T, nxt T u = v := by
  have lv := List.idxOf_lt_length_of_mem hv
  have hl : 0 < T.length := by omega
  set k := (T.idxOf v + T.length - 1) % T.length with hk
  have hkl : k < T.length := Nat.mod_lt _ hl
  refine ⟨T[k], List.getElem_mem _, ?_⟩
  apply mem_eq_of_idxOf (nxt_mem (List.ne_nil_of_mem hv)) hv
  rw [idxOf_nxt hn (List.getElem_mem _), hn.idxOf_getElem]
  rcases Nat.eq_zero_or_pos (T.idxOf v) with h0 | h0
  · have : k = T.length - 1 := by rw [hk, h0, Nat.zero_add, Nat.mod_eq_of_lt (by omega)]
    rw [this, Nat.sub_add_cancel hl, Nat.mod_self, h0]
  · have : k = T.idxOf v - 1 := by
      rw [hk, show T.idxOf v + T.length - 1 = (T.idxOf v - 1) + T.length by omega, Nat.add_mod_right, Nat.mod_eq_of_lt (by omega)]
    rw [this, Nat.sub_add_cancel h0, Nat.mod_eq_of_lt lv]

theorem nxt_ne {T : List Nat} (hn : T.Nodup) {u : Nat} (hu : u ∈ T) (h2 : 2 ≤ T.length) : nxt T u ≠ u := by
  intro h
  have h1 := idxOf_nxt hn hu
  rw [h] at h1
  have lu := List.idxOf_lt_length_of_mem hu
  rcases Nat.lt_or_ge (T.idxOf u + 1) T.length with a | a
  · rw [Nat.mod_eq_of_lt a] at h1; omega
  · rw [show T.idxOf u + 1 = T.length by omega, Nat.mod_self] at h1; omega

theorem nxt_nxt_ne {T : List Nat} (hn : T.Nodup) {u : Nat} (hu : u ∈ T) (h3 : 3 ≤ T.length) : nxt T (nxt T u) ≠ u := by
  intro h
  have hm : nxt T u ∈ T := nxt_mem (List.ne_nil_of_mem hu)
  have h1 := idxOf_nxt hn hu
  have h2 := idxOf_nxt hn hm
  rw [h, h1] at h2
  have lu := List.idxOf_lt_length_of_mem hu
  rcases Nat.lt_or_ge (T.idxOf u + 1) T.length with a | a
  · rw [Nat.mod_eq_of_lt a] at h2
    rcases Nat.lt_or_ge (T.idxOf u + 1 + 1) T.length with b | b
    · rw [Nat.mod_eq_of_lt b] at h2; omega
    · rw [show T.idxOf u + 1 + 1 = T.length by omega, Nat.mod_self] at h2; omega
  · rw [show T.idxOf u + 1 = T.length by omega, Nat.mod_self, Nat.mod_eq_of_lt (by omega)] at h2; omega

/-! ### covers -/

section Cover
variable {N : Nat} {starts ends : List Nat} {P : List (List Nat)}

theorem IsCover.flatten_nodup (h : IsCover N starts ends P) : P.flatten.Nodup := h.perm.nodup_iff.2 List.nodup_range

theorem IsCover.flatten_length (h : IsCover N starts ends P) : P.flatten.length = N := by
  rw [h.perm.length_eq, List.length_range]

theorem IsCover.mem_flatten (h : IsCover N starts ends P) (u : Nat) : u ∈ P.flatten ↔ u < N := by
  rw [h.perm.mem_iff, List.mem_range]

theorem IsCover.lt (h : IsCover N starts ends P) : ∀ p ∈ P, ∀ i ∈ p, i < N := by
  intro p hp i hi
  exact (h.mem_flatten i).1 (List.mem_flatten.2 ⟨p, hp, hi⟩)

theorem IsCover.nodup (h : IsCover N starts ends P) {p : List Nat} (hp : p ∈ P) : p.Nodup :=
  (List.nodup_flatten.1 h.flatten_nodup).1 p hp

/-- the agent of a node is unique -/
theorem IsCover.agent_unique (h : IsCover N starts ends P) {a b : Nat} {p q : List Nat} {x : Nat}
    (hp : P[a]? = some p) (hq : P[b]? = some q) (hx : x ∈ p) (hx' : x ∈ q) : a = b := by
  obtain ⟨hal, hae⟩ := List.getElem?_eq_some_iff.1 hp
  obtain ⟨hbl, hbe⟩ := List.getElem?_eq_some_iff.1 hq
  have hpw := List.pairwise_iff_getElem.1 (List.nodup_flatten.1 h.flatten_nodup).2
  rcases Nat.lt_trichotomy a b with hab | hab | hab
  · exact absurd (hbe ▸ hx') (hpw a b hal hbl hab (hae ▸ hx))
  · exact hab
  · exact absurd (hae ▸ hx) (hpw b a hbl hal hab (hbe ▸ hx'))

/-- every node is on some path -/
theorem IsCover.agent_exists (h : IsCover N starts ends P) {u : Nat} (hu : u < N) : ∃ (a : Nat) (p : List Nat), P[a]? = some p ∧ u ∈ p := by
  obtain ⟨p, hp, hup⟩ := List.mem_flatten.1 ((h.mem_flatten u).2 hu)
  obtain ⟨a, ha⟩ := List.mem_iff_getElem?.1 hp
  exact ⟨a, p, ha, hup⟩

theorem split_at {P : List (List Nat)} {a : Nat} {p : List Nat} (h : P[a]? = some p) : P = P.take a ++ p :: P.drop (a + 1) := by
  obtain ⟨ha, he⟩ := List.getElem?_eq_some_iff.1 h
  conv_lhs => rw [← List.take_append_drop a P]
  congr 1
  rw [List.drop_eq_getElem_cons ha, he]

theorem step_nxt (h : IsCover N starts ends P) {a : Nat} {p : List Nat} {u v : Nat} (hp : P[a]? = some p) (hs : Step p u v) :
    nxt P.flatten u = v := by
  obtain ⟨l1, l2, rfl⟩ := hs
  have hn := h.flatten_nodup
  have e : P.flatten = ((P.take a).flatten ++ l1) ++ u :: v :: (l2 ++ (P.drop (a + 1)).flatten) := by
    conv_lhs => rw [split_at hp]
    simp
  rw [e] at hn ⊢
  exact nxt_split hn

theorem art_nxt (h : IsCover N starts ends P) (hl : starts.length = ends.length) {a u v : Nat} (ha : a < starts.length)
    (hu : ends[a]? = some u) (hv : starts[(a + 1) % starts.length]? = some v) : nxt P.flatten u = v := by
  have hal : a < P.length := by rw [h.len]; exact ha
  obtain ⟨p, hp⟩ : ∃ p, P[a]? = some p := ⟨P[a], List.getElem?_eq_getElem hal⟩
  have hlast := h.last a p hp
  rw [hu] at hlast
  obtain ⟨l1, rfl⟩ := List.getLast?_eq_some_iff.1 hlast
  have hbl : (a + 1) % starts.length < P.length := by rw [h.len]; exact Nat.mod_lt _ (by omega)
  obtain ⟨q, hq⟩ : ∃ q, P[(a + 1) % starts.length]? = some q := ⟨_, List.getElem?_eq_getElem hbl⟩
  have hhead := h.head _ q hq
  rw [hv] at hhead
  obtain ⟨q', rfl⟩ := List.head?_eq_some_iff.1 hhead
  have hn := h.flatten_nodup
  by_cases hA : a + 1 < starts.length
  · rw [Nat.mod_eq_of_lt hA] at hq
    have e1 : P.drop (a + 1) = (v :: q') :: P.drop (a + 2) := by
      obtain ⟨hb, he⟩ := List.getElem?_eq_some_iff.1 hq
      rw [List.drop_eq_getElem_cons hb, he]
    have e : P.flatten = ((P.take a).flatten ++ l1) ++ u :: v :: (q' ++ (P.drop (a + 2)).flatten) := by
      conv_lhs => rw [split_at hp, e1]
      simp
    rw [e] at hn ⊢
    exact nxt_split hn
  · have hA' : a + 1 = starts.length := by omega
    rw [hA', Nat.mod_self] at hq
    refine nxt_wrap (l := (P.take a).flatten ++ l1) (r := q' ++ (P.drop 1).flatten) hn ?_ ?_
    · conv_lhs => rw [split_at hp]
      have : P.drop (a + 1) = [] := by rw [List.drop_eq_nil_iff, h.len]; omega
      rw [this]; simp
    · conv_lhs => rw [split_at hq]
      simp

theorem nonempty_of_cover (h : IsCover N starts ends P) {a : Nat} {p : List Nat} (hp : P[a]? = some p) : p ≠ [] := by
  rintro rfl
  have := h.head a [] hp
  have hal : a < starts.length := by rw [← h.len]; exact (List.getElem?_eq_some_iff.1 hp).1
  rw [List.getElem?_eq_getElem hal] at this
  simp at this

/-- agent `a` uses `(u, v)` iff `u` is on its path and `v` follows on the closed tour -/
theorem uses_iff (h : IsCover N starts ends P) (hl : starts.length = ends.length) (a u v : Nat) :
    Uses starts ends P a u v ↔ (∃ p, P[a]? = some p ∧ u ∈ p) ∧ nxt P.flatten u = v := by
  constructor
  · rintro (⟨p, hp, hs⟩ | ⟨ha, hu, hv⟩)
    · refine ⟨⟨p, hp, ?_⟩, step_nxt h hp hs⟩
      obtain ⟨l1, l2, rfl⟩ := hs; simp
    · refine ⟨?_, art_nxt h hl ha hu hv⟩
      have hal : a < P.length := by rw [h.len]; exact ha
      refine ⟨P[a], List.getElem?_eq_getElem hal, ?_⟩
      have := h.last a _ (List.getElem?_eq_getElem hal)
      rw [hu] at this
      exact List.mem_of_getLast? this
  · rintro ⟨⟨p, hp, hup⟩, rfl⟩
    obtain ⟨l1, l2, rfl⟩ := List.append_of_mem hup
    have hal : a < starts.length := by rw [← h.len]; exact (List.getElem?_eq_some_iff.1 hp).1
    cases l2 with
    | cons v l2 =>
      left
      have hs : Step (l1 ++ u :: v :: l2) u v := ⟨l1, l2, rfl⟩
      rw [step_nxt h hp hs]
      exact ⟨_, hp, hs⟩
    | nil =>
      right
      have hlast := h.last a _ hp
      rw [List.getLast?_concat] at hlast
      have hm : (a + 1) % starts.length < starts.length := Nat.mod_lt _ (by omega)
      have hv : starts[(a + 1) % starts.length]? = some starts[(a + 1) % starts.length] := List.getElem?_eq_getElem hm
      rw [art_nxt h hl hal hlast.symm hv]
      exact ⟨hal, hlast.symm, hv⟩

theorem uses_lt (h : IsCover N starts ends P) (hl : starts.length = ends.length) {a u v : Nat} (hu : Uses starts ends P a u v) :
    a < starts.length ∧ u < N ∧ v < N := by
  obtain ⟨⟨p, hp, hup⟩, rfl⟩ := (uses_iff h hl a u v).1 hu
  have hun : u < N := h.lt p (List.mem_of_getElem? hp) u hup
  refine ⟨by rw [← h.len]; exact (List.getElem?_eq_some_iff.1 hp).1, hun, ?_⟩
  rw [← h.mem_flatten]
  exact nxt_mem (List.ne_nil_of_mem ((h.mem_flatten u).2 hun))

/-- exactly one agent and successor for every node -/
theorem uses_out (h : IsCover N starts ends P) (hl : starts.length = ends.length) {u : Nat} (hu : u < N) :
    ∃ a v, Uses starts ends P a u v ∧ ∀ a' v', Uses starts ends P a' u v' → a' = a ∧ v' = v := by
  obtain ⟨a, p, hp, hup⟩ := h.agent_exists hu
  refine ⟨a, nxt P.flatten u, (uses_iff h hl _ _ _).2 ⟨⟨p, hp, hup⟩, rfl⟩, ?_⟩
  intro a' v' h'
  obtain ⟨⟨q, hq, huq⟩, rfl⟩ := (uses_iff h hl _ _ _).1 h'
  exact ⟨h.agent_unique hq hp huq hup, rfl⟩

/-- exactly one agent and predecessor for every node -/
theorem uses_in (h : IsCover N starts ends P) (hl : starts.length = ends.length) {v : Nat} (hv : v < N) :
    ∃ a u, Uses starts ends P a u v ∧ ∀ a' u', Uses starts ends P a' u' v → a' = a ∧ u' = u := by
  obtain ⟨u, hu, hnx⟩ := nxt_surj h.flatten_nodup ((h.mem_flatten v).2 hv)
  obtain ⟨a, p, hp, hup⟩ := h.agent_exists ((h.mem_flatten u).1 hu)
  refine ⟨a, u, (uses_iff h hl _ _ _).2 ⟨⟨p, hp, hup⟩, hnx⟩, ?_⟩
  intro a' u' h'
  obtain ⟨⟨q, hq, huq⟩, hnx'⟩ := (uses_iff h hl _ _ _).1 h'
  have hu' : u' ∈ P.flatten := (h.mem_flatten u').2 (h.lt q (List.mem_of_getElem? hq) u' huq)
  have : u' = u := nxt_inj h.flatten_nodup hu' hu (hnx'.trans hnx.symm)
  subst this
  exact ⟨h.agent_unique hq hp huq hup, rfl⟩

/-- a node that is no start is entered by the agent on whose path it is -/
theorem uses_enter {a u v : Nat} (hv : v ∉ starts)
    (hu : Uses starts ends P a u v) : ∃ p, P[a]? = some p ∧ v ∈ p := by
  rcases hu with ⟨p, hp, l1, l2, rfl⟩ | ⟨_, _, h3⟩
  · exact ⟨_, hp, by simp⟩
  · exact absurd (List.mem_of_getElem? h3) hv

/-- a start is entered from the previous agent's end -/
theorem uses_enter_start (h : IsCover N starts ends P) {a u v : Nat} (hv : v ∈ starts)
    (hu : Uses starts ends P a u v) : ends[a]? = some u ∧ starts[(a + 1) % starts.length]? = some v := by
  rcases hu with ⟨p, hp, l1, l2, rfl⟩ | ⟨_, h2, h3⟩
  · exfalso
    obtain ⟨b, hb⟩ := List.mem_iff_getElem?.1 hv
    have hbl : b < P.length := by rw [h.len]; exact (List.getElem?_eq_some_iff.1 hb).1
    have hh := h.head b _ (List.getElem?_eq_getElem hbl)
    rw [hb] at hh
    have hab : a = b := h.agent_unique (x := v) hp (List.getElem?_eq_getElem hbl) (by simp) (List.mem_of_head? hh)
    subst hab
    rw [List.getElem?_eq_getElem hbl] at hp
    have hp' : P[a] = l1 ++ u :: v :: l2 := by simpa using hp
    have hnd := h.nodup (List.getElem_mem hbl)
    rw [hp'] at hh hnd
    cases l1 with
    | nil => simp at hh; subst hh; simp at hnd
    | cons y l1 => simp at hh; subst hh; simp at hnd
  · exact ⟨h2, h3⟩

end Cover

end Mtsp
