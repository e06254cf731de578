import Verif.Proof.LP
import Verif.Proof.Instance

/-! The point of a feasible solution satisfies the rows. -/

namespace Mtsp
open Finset

theorem getElem?_getD {l : List Nat} {a : Nat} (h : a < l.length) : l[a]? = some (l.getD a 0) := by
  simp [List.getD_eq_getElem?_getD, h]

section
variable {N : Nat} {starts ends : List Nat} {D : Nat → Nat → Prop} {P : List (List Nat)} {x : Nat → ℚ}

theorem cover_start_mem (h : IsCover N starts ends P) {a s : Nat} (hs : starts[a]? = some s) : ∃ p, P[a]? = some p ∧ s ∈ p := by
  have hal : a < P.length := by rw [h.len]; exact (List.getElem?_eq_some_iff.1 hs).1
  refine ⟨_, List.getElem?_eq_getElem hal, ?_⟩
  have := h.head a _ (List.getElem?_eq_getElem hal)
  rw [hs] at this; exact List.mem_of_head? this

theorem cover_end_mem (h : IsCover N starts ends P) (hl : starts.length = ends.length) {a e : Nat} (he : ends[a]? = some e) :
    ∃ p, P[a]? = some p ∧ e ∈ p := by
  have hal : a < P.length := by rw [h.len, hl]; exact (List.getElem?_eq_some_iff.1 he).1
  refine ⟨_, List.getElem?_eq_getElem hal, ?_⟩
  have := h.last a _ (List.getElem?_eq_getElem hal)
  rw [he] at this; exact List.mem_of_getLast? this

/-- a start is the first node of the path it is on -/
theorem start_first (h : IsCover N starts ends P) {a s : Nat} {p : List Nat} (hs : s ∈ starts) (hp : P[a]? = some p) (hm : s ∈ p) :
    p.head? = some s := by
  obtain ⟨b, hb⟩ := List.mem_iff_getElem?.1 hs
  obtain ⟨q, hq, hsq⟩ := cover_start_mem h hb
  have := h.agent_unique hp hq hm hsq
  subst this
  rw [h.head a p hp, hb]

/-- an end is the last node of the path it is on -/
theorem end_last (h : IsCover N starts ends P) (hl : starts.length = ends.length) {a e : Nat} {p : List Nat}
    (he : e ∈ ends) (hp : P[a]? = some p) (hm : e ∈ p) : p.getLast? = some e := by
  obtain ⟨b, hb⟩ := List.mem_iff_getElem?.1 he
  obtain ⟨q, hq, hsq⟩ := cover_end_mem h hl hb
  have := h.agent_unique hp hq hm hsq
  subst this
  rw [h.last a p hp, hb]

/-- nothing is before the first node -/
theorem not_before_head {p : List Nat} {u s : Nat} (hn : p.Nodup) (hs : p.head? = some s) : ¬ Before p u s := by
  rintro ⟨l1, l2, l3, rfl⟩
  cases l1 with
  | nil => simp at hs; subst hs; simp at hn
  | cons y l1 => simp at hs; subst hs; simp at hn

theorem not_before_last {p : List Nat} {u e : Nat} (hn : p.Nodup) (hs : p.getLast? = some e) : ¬ Before p e u := by
  rintro ⟨l1, l2, l3, rfl⟩
  obtain ⟨q, hq⟩ := List.getLast?_eq_some_iff.1 hs
  have h2 : (u :: l3).getLast? = some e := by
    rw [List.getLast?_append_of_ne_nil _ (by simp)] at hs; exact hs
  have : e ∈ u :: l3 := List.mem_of_getLast? h2
  have hn' := List.nodup_append.1 hn
  exact hn'.2.2 e (by simp) e this rfl

theorem Step.before {p : List Nat} {u v : Nat} (h : Step p u v) : Before p u v := by
  obtain ⟨l1, l2, rfl⟩ := h; exact ⟨l1, [], l2, by simp⟩

/-- nothing is strictly between direct neighbours -/
theorem Step.no_between {p : List Nat} (hn : p.Nodup) {u v y : Nat} (h : Step p u v) (h1 : Before p u y) (h2 : Before p y v) : False := by
  obtain ⟨l1, l2, rfl⟩ := h
  have e1 : (l1 ++ u :: v :: l2).idxOf u = l1.length := idxOf_append_cons hn
  have e2 : (l1 ++ u :: v :: l2).idxOf v = l1.length + 1 := by
    have : l1 ++ u :: v :: l2 = (l1 ++ [u]) ++ v :: l2 := by simp
    rw [this] at hn ⊢; rw [idxOf_append_cons hn]; simp
  have h1 := ((before_iff_idxOf hn _ _).1 h1).2.2
  have h2 := ((before_iff_idxOf hn _ _).1 h2).2.2
  omega

/-- a dependency in an instance: where the nodes are -/
theorem dep_path (hi : Inst N starts ends D) (hf : Feasible N starts ends D P) {u v : Nat} (huv : D u v) :
    ∃ (a : Nat) (p : List Nat), P[a]? = some p ∧ Before p u v ∧ u ∈ p ∧ v ∈ p := by
  obtain ⟨p, hp, hb⟩ := hf.2 u v huv
  obtain ⟨a, ha⟩ := List.mem_iff_getElem?.1 hp
  have := (before_iff_idxOf (hf.1.nodup hp) u v).1 hb
  exact ⟨a, p, ha, hb, this.1, this.2.1⟩

/-- all rows but those against 2-cycles -/
theorem rows_of_point (hi : Inst N starts ends D) (hf : Feasible N starts ends D P) (hx : IsPoint N starts ends P x)
    {arcs : List (Nat × Nat)} (harcs : ∀ u v, (u, v) ∈ arcs ↔ D u v) (h3 : 3 ≤ N) : LPRows N starts ends arcs x := by
  have hc := hf.1
  have hl := hi.lenEq
  obtain ⟨own, pv, ht, ho⟩ := hx.tour hc hl
  set T := P.flatten with hT
  have hTn : T.Nodup := hc.flatten_nodup
  have hTl : T.length = N := hc.flatten_length
  have hTm : ∀ u, u ∈ T ↔ u < N := hc.mem_flatten
  have hslt : ∀ s ∈ starts, s < N := fun s hs => hi.lt s (List.mem_append_left _ hs)
  have helt : ∀ s ∈ ends, s < N := fun s hs => hi.lt s (List.mem_append_right _ hs)
  have hsm : ∀ a < starts.length, starts.getD a 0 ∈ starts := fun a ha => List.mem_of_getElem? (getElem?_getD ha)
  have hem : ∀ a < starts.length, ends.getD a 0 ∈ ends := fun a ha => List.mem_of_getElem? (getElem?_getD (hl ▸ ha))
  -- arcs used
  have huse : ∀ a u v, u < N → (Uses starts ends P a u v ↔ own u = a ∧ nxt T u = v) := by
    intro a u v hu; rw [uses_iff hc hl, ho u hu a]
  -- a node that is no start belongs to the agent of its predecessor
  have hown : ∀ v < N, v ∉ starts → own (pv v) = own v := by
    intro v hv hs
    have : Uses starts ends P (own (pv v)) (pv v) v := (huse _ _ _ (ht.pvLt v hv)).2 ⟨rfl, ht.nxpv v hv⟩
    obtain ⟨p, hp, hm⟩ := uses_enter hs this
    exact ((ho v hv _).2 ⟨p, hp, hm⟩).symm
  have hstep : ∀ u < N, nxt T u ∉ starts → ∃ p, P[own u]? = some p ∧ Step p u (nxt T u) := by
    intro u hu hs
    rcases (huse (own u) u _ hu).2 ⟨rfl, rfl⟩ with ⟨p, hp⟩ | ⟨_, _, h3⟩
    · exact ⟨p, hp⟩
    · exact absurd (List.mem_of_getElem? h3) hs
  have hdep : ∀ u v, D u v → own u = own v ∧ ∃ p, P[own u]? = some p ∧ Before p u v := by
    intro u v huv
    obtain ⟨a, p, hp, hb, hu, hv⟩ := dep_path hi hf huv
    have h1 := (ho u (hi.dlt u v huv).1 a).2 ⟨p, hp, hu⟩
    have h2 := (ho v (hi.dlt u v huv).2 a).2 ⟨p, hp, hv⟩
    exact ⟨h1.trans h2.symm, p, by rw [h1]; exact hp, hb⟩
  have hvs : ∀ u v, D u v → v ∉ starts := fun u v huv hs => hi.noIn v hs u huv
  have hue : ∀ u v, D u v → u ∉ ends := fun u v huv hs => hi.noOut u hs v huv
  constructor
  · intro a ha n hn
    rw [ht.val a ha n hn n hn, if_neg]
    rintro ⟨_, h⟩
    exact nxt_ne hTn ((hTm n).2 hn) (by omega) h
  · intro n hn
    rw [Finset.sum_congr rfl (fun a ha => ht.in_eq (Finset.mem_range.1 ha) hn)]
    simp [ht.ownLt _ (ht.pvLt n hn)]
  · intro n hn
    rw [Finset.sum_congr rfl (fun a ha => ht.out_eq (Finset.mem_range.1 ha) hn)]
    simp [ht.ownLt n hn]
  · intro n hn hs a ha
    rw [ht.in_eq ha hn, ht.out_eq ha hn, hown n hn hs]
  · intro a ha
    rw [ht.out_eq ha (hslt _ (hsm a ha)), if_pos]
    rw [ho _ (hslt _ (hsm a ha))]
    exact cover_start_mem hc (getElem?_getD ha)
  · intro a ha
    have hes : ends.getD a 0 ∉ starts := fun hs => (List.nodup_append.1 hi.nodup).2.2 _ hs _ (hem a ha) rfl
    rw [ht.in_eq ha (helt _ (hem a ha)), hown _ (helt _ (hem a ha)) hes, if_pos]
    rw [ho _ (helt _ (hem a ha))]
    exact cover_end_mem hc hl (getElem?_getD (hl ▸ ha))
  · intro a ha
    have hm : (a + 1) % starts.length < starts.length := Nat.mod_lt _ (by omega)
    rw [ht.val a ha _ (helt _ (hem a ha)) _ (hslt _ (hsm _ hm)), if_pos]
    rw [← huse a _ _ (helt _ (hem a ha))]
    exact Or.inr ⟨ha, getElem?_getD (hl ▸ ha), getElem?_getD hm⟩
  · intro u v huv hA
    have hD := (harcs u v).1 huv
    obtain ⟨hu, hv⟩ := hi.dlt u v hD
    rw [ht.agents_eq hv hu, if_neg]
    intro hnx
    obtain ⟨ho1, p, hp, hb⟩ := hdep u v hD
    have hnd := hc.nodup (List.mem_of_getElem? hp)
    rcases (huse (own v) v u hv).2 ⟨rfl, hnx⟩ with ⟨q, hq, hs⟩ | ⟨h1, h2, h3⟩
    · rw [← ho1, hp] at hq
      cases hq
      exact Before.asymm hnd hb hs.before
    · have h4 := (ho u hu _).2 (cover_start_mem hc h3)
      rw [ho1] at h4
      rcases Nat.lt_or_ge (own v + 1) starts.length with hlt | hge
      · rw [Nat.mod_eq_of_lt hlt] at h4; omega
      · have : own v + 1 = starts.length := by omega
        rw [this, Nat.mod_self] at h4 h3
        rw [h4] at h2
        have e1 : starts.getD 0 0 = u := by rw [List.getD_eq_getElem?_getD, h3]; rfl
        have e2 : ends.getD 0 0 = v := by rw [List.getD_eq_getElem?_getD, h2]; rfl
        rcases hA with hA | hA | hA
        · omega
        · exact hA e1.symm
        · exact hA e2.symm
  · intro u v huv hA a ha
    have hD := (harcs u v).1 huv
    obtain ⟨hu, hv⟩ := hi.dlt u v hD
    rw [ht.out_eq ha hu, ht.in_eq ha hv, hown v hv (hvs u v hD), (hdep u v hD).1]
  · intro u v huv s hs hne
    have hD := (harcs u v).1 huv
    obtain ⟨hu, hv⟩ := hi.dlt u v hD
    rw [ht.agents_eq (hslt s hs) hv, if_neg]
    intro hnx
    obtain ⟨p, hp, hst⟩ := hstep s (hslt s hs) (by rw [hnx]; exact hvs u v hD)
    rw [hnx] at hst
    obtain ⟨ho1, q, hq, hb⟩ := hdep u v hD
    have hmv : v ∈ p := by obtain ⟨l1, l2, rfl⟩ := hst; simp
    have hms : s ∈ p := by obtain ⟨l1, l2, rfl⟩ := hst; simp
    have : own v = own s := (ho v hv _).2 ⟨p, hp, hmv⟩
    rw [ho1, this, hp] at hq
    cases hq
    have hnd := hc.nodup (List.mem_of_getElem? hp)
    have hmu : u ∈ p := ((before_iff_idxOf hnd _ _).1 hb).1
    rcases before_total hnd hms hmu hne with h | h
    · exact hst.no_between hnd h hb
    · exact not_before_head hnd (start_first hc hs hp hms) h
  · intro u v huv e he hne
    have hD := (harcs u v).1 huv
    obtain ⟨hu, hv⟩ := hi.dlt u v hD
    rw [ht.agents_eq hu (helt e he), if_neg]
    intro hnx
    have hes : e ∉ starts := fun hs => (List.nodup_append.1 hi.nodup).2.2 _ hs _ he rfl
    obtain ⟨p, hp, hst⟩ := hstep u hu (by rw [hnx]; exact hes)
    rw [hnx] at hst
    obtain ⟨ho1, q, hq, hb⟩ := hdep u v hD
    rw [hp] at hq
    cases hq
    have hnd := hc.nodup (List.mem_of_getElem? hp)
    have hme : e ∈ p := by obtain ⟨l1, l2, rfl⟩ := hst; simp
    have hmv : v ∈ p := ((before_iff_idxOf hnd _ _).1 hb).2.1
    rcases before_total hnd hmv hme (Ne.symm hne) with h | h
    · exact hst.no_between hnd hb h
    · exact not_before_last hnd (end_last hc hl he hp hme) h
  · intro u v huv hv
    have hu : u < N := by omega
    have e := evCycle starts.length N x u v
    rw [eval_sumVars, Finset.sum_add_distrib, ht.agents_eq hu hv, ht.agents_eq hv hu] at e
    apply sat_le_const
    · rw [e]; split <;> split <;> norm_num
    · rw [e]
      split <;> split <;> norm_num
      rename_i h1 h2
      exact nxt_nxt_ne hTn ((hTm u).2 hu) (by omega) (by rw [h1, h2])

end

end Mtsp
