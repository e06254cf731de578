import Verif.Proof.Depots
import Verif.Proof.InputCover
import Verif.Proof.InputDeps

/-! When an input has a solution at all. -/

namespace Mtsp
open Relation

variable {rows : Nat} {w : Weights} {starts ends : List Nat} {P : Paths}

theorem first_use (v : Nat) (hm : v ∈ starts ++ ends) : FirstStart starts ends v ∨ FirstEnd starts ends v := by
  by_contra hc
  push Not at hc
  obtain ⟨hc1, hc2⟩ := hc
  have hex : ∃ a : Nat, starts[a]? = some v ∨ ends[a]? = some v := by
    rcases List.mem_append.1 hm with hm | hm
    · obtain ⟨a, ha⟩ := List.mem_iff_getElem?.1 hm; exact ⟨a, Or.inl ha⟩
    · obtain ⟨a, ha⟩ := List.mem_iff_getElem?.1 hm; exact ⟨a, Or.inr ha⟩
  classical
  obtain ⟨a, ha, hmin⟩ : ∃ a : Nat, (starts[a]? = some v ∨ ends[a]? = some v) ∧
      ∀ b < a, ¬ (starts[b]? = some v ∨ ends[b]? = some v) := ⟨Nat.find hex, Nat.find_spec hex, fun b hb => Nat.find_min hex hb⟩
  have hnot : v ∉ starts.take a ∧ v ∉ ends.take a := by
    constructor <;>
    · intro hm
      obtain ⟨b, hb⟩ := List.mem_iff_getElem?.1 hm
      rw [List.getElem?_take] at hb
      split at hb
      · next hlt => exact hmin b hlt (by simp [hb])
      · simp at hb
  by_cases hs : starts[a]? = some v
  · exact hc1 ⟨a, hs, hnot.2⟩
  · refine hc2 ⟨a, ha.resolve_left hs, ?_⟩
    rw [List.take_add_one]
    simp only [List.mem_append, not_or]
    refine ⟨hnot.1, ?_⟩
    intro hm
    rw [Option.mem_toList] at hm
    exact hs hm

/-- an order of all nodes that respects acyclic dependencies -/
theorem input_order (hac : ∀ x, ¬ TransGen (InputDep rows w) x x) :
    ∃ L : List Nat, L.Perm (List.range rows) ∧ ∀ u v, InputDep rows w u v → Before L u v := by
  classical
  let arcs : Arcs := (depArcs rows w).filter fun e => decide (e.1 ≠ e.2)
  have hmem : ∀ u v, (u, v) ∈ arcs ↔ InputDep rows w u v := by
    intro u v
    simp only [arcs, List.mem_filter, mem_depArcs, decide_eq_true_eq, InputDep]
    tauto
  have hrel : (fun u v => (u, v) ∈ arcs) = InputDep rows w := by funext u v; exact propext (hmem u v)
  have hlt : ∀ e ∈ arcs, e.1 < rows ∧ e.2 < rows := by
    rintro ⟨u, v⟩ he
    have := (hmem u v).1 he
    exact ⟨this.1, this.2.1⟩
  obtain ⟨d, _, hp, hf⟩ := topologicalSort_acyclic rows arcs hlt (by
    intro x hx
    have hx' : TransGen (fun u v => (u, v) ∈ arcs) x x := hx
    rw [hrel] at hx'
    exact hac x hx')
  refine ⟨d.reverse, (List.reverse_perm d).trans hp, ?_⟩
  intro u v he
  have hu : u ∈ d := hp.mem_iff.2 (List.mem_range.2 he.1)
  obtain ⟨l1, l2, rfl⟩ := List.append_of_mem hu
  have hv := hf l1 u l2 rfl v ((mem_adjOf _ _ _).2 ((hmem u v).2 he))
  obtain ⟨l3, l4, rfl⟩ := List.append_of_mem hv
  exact ⟨l2.reverse, l4.reverse, l3.reverse, by simp⟩

/-! ### a solution, if nothing is wrong -/

theorem exists_solution (hlen : starts.length = ends.length) (hpos : 0 < starts.length)
    (hac : ∀ x, ¬ TransGen (InputDep rows w) x x) (hin : ∀ u v, InputDep rows w u v → ¬ FirstStart starts ends v)
    (hout : ∀ u v, InputDep rows w u v → ¬ FirstEnd starts ends u) (hapart : ¬ AgentsTied rows w starts ends)
    (hdrop : ∀ u v b, InputDep rows w u v → ends[b]? = some v → starts[(b + 1) % starts.length]? = some u → starts.length = 1) :
    ∃ P, InputCover rows starts ends P ∧ Respects (InputDep rows w) P := by
  classical
  obtain ⟨L, hL, hord⟩ := input_order hac
  have hLnd : L.Nodup := hL.nodup_iff.2 List.nodup_range
  have apart : ∀ a b, a < starts.length → b < starts.length → EqvGen (PutsTogether rows w starts ends) (.agent a) (.agent b) → a = b := by
    intro a b ha hb he
    rcases Nat.lt_trichotomy a b with h | h | h
    · exact absurd ⟨a, b, h, hb, he⟩ hapart
    · exact h
    · exact absurd ⟨b, a, h, ha, EqvGen.symm _ _ he⟩ hapart
  -- the agent that visits a node
  let f : Nat → Nat := fun v =>
    if h : ∃ a, a < starts.length ∧ EqvGen (PutsTogether rows w starts ends) (.agent a) (.node v) then h.choose else 0
  have hf : ∀ v, f v < starts.length := by
    intro v
    simp only [f]
    split
    next h => exact h.choose_spec.1
    · exact hpos
  have fA : ∀ a v, a < starts.length → EqvGen (PutsTogether rows w starts ends) (.agent a) (.node v) → f v = a := by
    intro a v ha he
    have hex : ∃ a, a < starts.length ∧ EqvGen (PutsTogether rows w starts ends) (.agent a) (.node v) := ⟨a, ha, he⟩
    simp only [f, dif_pos hex]
    exact apart _ _ hex.choose_spec.1 ha (EqvGen.trans _ _ _ hex.choose_spec.2 (EqvGen.symm _ _ he))
  have fN : ∀ u v, EqvGen (PutsTogether rows w starts ends) (.node u) (.node v) → f u = f v := by
    intro u v he
    by_cases hex : ∃ a, a < starts.length ∧ EqvGen (PutsTogether rows w starts ends) (.agent a) (.node u)
    · obtain ⟨a, ha, h⟩ := hex
      rw [fA a u ha h, fA a v ha (EqvGen.trans _ _ _ h he)]
    · have hex' : ¬ ∃ a, a < starts.length ∧ EqvGen (PutsTogether rows w starts ends) (.agent a) (.node v) := by
        rintro ⟨a, ha, h⟩
        exact hex ⟨a, ha, EqvGen.trans _ _ _ h (EqvGen.symm _ _ he)⟩
      simp only [f, dif_neg hex, dif_neg hex']
  let mid : Nat → List Nat := fun a => L.filter fun v => decide (v ∉ starts ++ ends ∧ f v = a)
  let p : Nat → List Nat := fun a => starts.getD a 0 :: mid a ++ [ends.getD a 0]
  have hmid : ∀ a v, v ∈ mid a ↔ v < rows ∧ v ∉ starts ++ ends ∧ f v = a := by
    intro a v
    simp only [mid, List.mem_filter, hL.mem_iff, List.mem_range, decide_eq_true_eq]
  have hmem : ∀ a, a < starts.length → p a ∈ (List.range starts.length).map p := fun a ha => List.mem_map.2 ⟨a, List.mem_range.2 ha, rfl⟩
  refine ⟨(List.range starts.length).map p, ⟨by simp, ?_, ?_⟩, ?_⟩
  · intro a q hq
    have ha : a < starts.length := by simpa using (List.getElem?_eq_some_iff.1 hq).1
    rw [List.getElem?_map, List.getElem?_range ha] at hq
    simp only [Option.map_some, Option.some.injEq] at hq
    refine ⟨starts.getD a 0, ends.getD a 0, mid a, ?_, ?_, hq.symm⟩
    · rw [List.getD_eq_getElem?_getD, List.getElem?_eq_getElem ha]; rfl
    · rw [List.getD_eq_getElem?_getD, List.getElem?_eq_getElem (by omega)]; rfl
  · have e : (((List.range starts.length).map p).map middle).flatten = (List.range starts.length).flatMap mid := by
      rw [List.map_map, List.flatMap_def]
      congr 1
      refine List.map_congr_left fun a _ => ?_
      exact middle_shape _ _ _
    rw [e]
    have hndm : ∀ a, (mid a).Nodup := fun a => hLnd.filter _
    rw [List.perm_ext_iff_of_nodup]
    · intro v
      simp only [List.mem_flatMap, List.mem_range, hmid, List.mem_filter, decide_eq_true_eq]
      constructor
      · rintro ⟨a, _, h1, h2, _⟩; exact ⟨h1, h2⟩
      · rintro ⟨h1, h2⟩; exact ⟨f v, hf v, h1, h2, rfl⟩
    · rw [List.nodup_flatMap]
      refine ⟨fun a _ => hndm a, ?_⟩
      refine List.Pairwise.imp ?_ (List.nodup_range (n := starts.length))
      intro a b hab x hx hy
      exact hab (((hmid a x).1 hx).2.2.symm.trans ((hmid b x).1 hy).2.2)
    · exact List.nodup_range.filter _
  · intro u v hd
    have hu : u ∉ starts ++ ends ∨ ∃ a : Nat, starts[a]? = some u := by
      by_cases hm : u ∈ starts ++ ends
      · right
        rcases first_use u hm with h | h
        · obtain ⟨a, ha⟩ := List.mem_iff_getElem?.1 (firstStart_mem h); exact ⟨a, ha⟩
        · exact absurd h (hout u v hd)
      · exact Or.inl hm
    have hv : v ∉ starts ++ ends ∨ ∃ b : Nat, ends[b]? = some v := by
      by_cases hm : v ∈ starts ++ ends
      · right
        rcases first_use v hm with h | h
        · exact absurd h (hin u v hd)
        · obtain ⟨a, ha⟩ := List.mem_iff_getElem?.1 (firstEnd_mem h); exact ⟨a, ha⟩
      · exact Or.inl hm
    rcases hu with hu | ⟨a, ha⟩ <;> rcases hv with hv | ⟨b, hb⟩
    · -- both inner
      have he : f u = f v := fN u v (EqvGen.rel _ _ ⟨u, v, hd, ⟨rfl, hu⟩, ⟨rfl, hv⟩, by rintro ⟨b, h, _⟩; cases h⟩)
      have hum : u ∈ mid (f u) := (hmid _ u).2 ⟨hd.1, hu, rfl⟩
      have hvm : v ∈ mid (f u) := (hmid _ v).2 ⟨hd.2.1, hv, he.symm⟩
      refine ⟨_, hmem (f u) (hf u), ?_⟩
      have hb : Before (mid (f u)) u v := by
        rcases before_total (hLnd.filter _) hum hvm hd.2.2.1 with h | h
        · exact h
        · exact absurd (h.of_sublist List.filter_sublist) (fun h' => Before.asymm hLnd h' (hord u v hd))
      exact hb.of_sublist ((List.sublist_cons_self _ _).trans (List.sublist_append_left (starts.getD (f u) 0 :: mid (f u)) [ends.getD (f u) 0]))
    · -- into an end
      have hbl : b < starts.length := by rw [hlen]; exact (List.getElem?_eq_some_iff.1 hb).1
      have he : f u = b := fA b u hbl (EqvGen.symm _ _ (EqvGen.rel _ _ ⟨u, v, hd, ⟨rfl, hu⟩, hb, by rintro ⟨b, _, h⟩; cases h⟩))
      have hum : u ∈ mid b := (hmid _ u).2 ⟨hd.1, hu, he⟩
      refine ⟨_, hmem b hbl, ?_⟩
      have e2 : ends.getD b 0 = v := by rw [List.getD_eq_getElem?_getD, hb]; rfl
      show Before (starts.getD b 0 :: mid b ++ [ends.getD b 0]) u v
      rw [e2]
      exact before_snoc (List.mem_cons_of_mem _ hum)
    · -- out of a start
      have hal : a < starts.length := (List.getElem?_eq_some_iff.1 ha).1
      have he : f v = a := fA a v hal (EqvGen.rel _ _ ⟨u, v, hd, ha, ⟨rfl, hv⟩, by rintro ⟨b, h, _⟩; cases h⟩)
      have hvm : v ∈ mid a := (hmid _ v).2 ⟨hd.2.1, hv, he⟩
      refine ⟨_, hmem a hal, ?_⟩
      have e2 : starts.getD a 0 = u := by rw [List.getD_eq_getElem?_getD, ha]; rfl
      show Before (starts.getD a 0 :: (mid a ++ [ends.getD a 0])) u v
      rw [e2]
      exact before_cons (List.mem_append_left _ hvm)
    · -- from a start to an end
      have hal : a < starts.length := (List.getElem?_eq_some_iff.1 ha).1
      have hbl : b < starts.length := by rw [hlen]; exact (List.getElem?_eq_some_iff.1 hb).1
      have hab : a = b := by
        by_cases h1 : starts.length = 1
        · omega
        · refine apart a b hal hbl (EqvGen.rel _ _ ⟨u, v, hd, ha, hb, ?_⟩)
          rintro ⟨b', h2, h3⟩
          cases h2
          cases h3
          exact h1 (hdrop u v b hd hb ha)
      subst hab
      refine ⟨_, hmem a hal, ?_⟩
      have e1 : starts.getD a 0 = u := by rw [List.getD_eq_getElem?_getD, ha]; rfl
      have e2 : ends.getD a 0 = v := by rw [List.getD_eq_getElem?_getD, hb]; rfl
      show Before (starts.getD a 0 :: (mid a ++ [ends.getD a 0])) u v
      rw [e1, e2]
      exact before_cons (List.mem_append_right _ List.mem_cons_self)

/-! ### no solution, if something is wrong -/

/-- the paths on which a node of the input can be -/
theorem InputCover.unique (hP : InputCover rows starts ends P) (hown : OwnDepots starts ends) {a b x : Nat} {p q : List Nat}
    (hp : P[a]? = some p) (hq : P[b]? = some q) (hxp : x ∈ p) (hxq : x ∈ q) : a = b := by
  obtain ⟨s, e, mid, hs, he, rfl⟩ := hP.shape a p hp
  obtain ⟨s', e', mid', hs', he', rfl⟩ := hP.shape b q hq
  have inner : ∀ (c : Nat) (s e : Nat) (mid : List Nat), P[c]? = some (s :: mid ++ [e]) → ∀ y ∈ mid, y ∉ starts ++ ends := by
    intro c s e mid hc y hy
    have : y ∈ (P.map middle).flatten := List.mem_flatten.2 ⟨mid, List.mem_map.2 ⟨_, List.mem_of_getElem? hc, middle_shape s e mid⟩, hy⟩
    have := hP.rest.mem_iff.1 this
    simpa using (List.mem_filter.1 this).2
  have hnd : (P.map middle).flatten.Nodup := hP.rest.nodup_iff.2 (List.nodup_range.filter _)
  by_cases hx : x ∈ starts ++ ends
  · refine hown a b x ?_ ?_
    · simp only [List.cons_append, List.mem_cons, List.mem_append, List.not_mem_nil, or_false] at hxp
      rcases hxp with rfl | hm | rfl
      · exact Or.inl hs
      · exact absurd hx (inner a s e mid hp x hm)
      · exact Or.inr he
    · simp only [List.cons_append, List.mem_cons, List.mem_append, List.not_mem_nil, or_false] at hxq
      rcases hxq with rfl | hm | rfl
      · exact Or.inl hs'
      · exact absurd hx (inner b s' e' mid' hq x hm)
      · exact Or.inr he'
  · have h1 : x ∈ mid := by
      simp only [List.cons_append, List.mem_cons, List.mem_append, List.not_mem_nil, or_false] at hxp
      rcases hxp with rfl | hm | rfl
      · exact absurd (List.mem_append_left _ (List.mem_of_getElem? hs)) hx
      · exact hm
      · exact absurd (List.mem_append_right _ (List.mem_of_getElem? he)) hx
    have h2 : x ∈ mid' := by
      simp only [List.cons_append, List.mem_cons, List.mem_append, List.not_mem_nil, or_false] at hxq
      rcases hxq with rfl | hm | rfl
      · exact absurd (List.mem_append_left _ (List.mem_of_getElem? hs')) hx
      · exact hm
      · exact absurd (List.mem_append_right _ (List.mem_of_getElem? he')) hx
    by_contra hne
    rw [List.nodup_flatten] at hnd
    have hpw := hnd.2
    have hpa : (P.map middle)[a]? = some mid := by rw [List.getElem?_map, hp]; exact congrArg some (middle_shape s e mid)
    have hpb : (P.map middle)[b]? = some mid' := by rw [List.getElem?_map, hq]; exact congrArg some (middle_shape s' e' mid')
    obtain ⟨ha, ea⟩ := List.getElem?_eq_some_iff.1 hpa
    obtain ⟨hb, eb⟩ := List.getElem?_eq_some_iff.1 hpb
    rw [List.pairwise_iff_getElem] at hpw
    rcases Nat.lt_or_gt_of_ne hne with h | h
    · exact hpw a b ha hb h (ea ▸ h1) (eb ▸ h2)
    · exact hpw b a hb ha h (eb ▸ h2) (ea ▸ h1)

/-- positions on a path of a cover: a node other than a round trip's depot is there once -/
theorem InputCover.once (hP : InputCover rows starts ends P) {a s e : Nat} {mid : List Nat} (hp : P[a]? = some (s :: mid ++ [e])) (hne : s ≠ e) :
    starts[a]? = some s → ends[a]? = some e → (s :: mid ++ [e]).Nodup := by
  intro hs he
  have inner : ∀ y ∈ mid, y ∉ starts ++ ends := by
    intro y hy
    have : y ∈ (P.map middle).flatten := List.mem_flatten.2 ⟨mid, List.mem_map.2 ⟨_, List.mem_of_getElem? hp, middle_shape s e mid⟩, hy⟩
    have := hP.rest.mem_iff.1 this
    simpa using (List.mem_filter.1 this).2
  have hnd : mid.Nodup := by
    have h : (P.map middle).flatten.Nodup := hP.rest.nodup_iff.2 (List.nodup_range.filter _)
    rw [List.nodup_flatten] at h
    exact h.1 mid (List.mem_map.2 ⟨_, List.mem_of_getElem? hp, middle_shape s e mid⟩)
  rw [List.cons_append, List.nodup_cons, List.nodup_append]
  refine ⟨?_, hnd, by simp, ?_⟩
  · simp only [List.mem_append, List.mem_singleton, not_or]
    exact ⟨fun h => inner s h (List.mem_append_left _ (List.mem_of_getElem? hs)), hne⟩
  · intro x hx y hy
    rw [List.mem_singleton.1 hy]
    rintro rfl
    exact inner x hx (List.mem_append_right _ (List.mem_of_getElem? he))

theorem InputCover.mid_inner (hP : InputCover rows starts ends P) {a s e : Nat} {mid : List Nat} (hp : P[a]? = some (s :: mid ++ [e])) :
    (∀ y ∈ mid, y ∉ starts ++ ends) ∧ mid.Nodup := by
  constructor
  · intro y hy
    have : y ∈ (P.map middle).flatten := List.mem_flatten.2 ⟨mid, List.mem_map.2 ⟨_, List.mem_of_getElem? hp, middle_shape s e mid⟩, hy⟩
    have := hP.rest.mem_iff.1 this
    simpa using (List.mem_filter.1 this).2
  · have h : (P.map middle).flatten.Nodup := hP.rest.nodup_iff.2 (List.nodup_range.filter _)
    rw [List.nodup_flatten] at h
    exact h.1 mid (List.mem_map.2 ⟨_, List.mem_of_getElem? hp, middle_shape s e mid⟩)

/-- a path without the second visit of a round trip's depot -/
def trim (p : List Nat) : List Nat := if p.head? = p.getLast? then p.dropLast else p

theorem trim_shape (s e : Nat) (mid : List Nat) : trim (s :: mid ++ [e]) = if s = e then s :: mid else s :: mid ++ [e] := by
  have h1 : (s :: mid ++ [e]).head? = some s := rfl
  have h2 : (s :: mid ++ [e]).getLast? = some e := List.getLast?_concat
  have h3 : (s :: mid ++ [e]).dropLast = s :: mid := List.dropLast_concat
  unfold trim
  rw [h1, h2, h3]
  simp only [Option.some.injEq]

theorem InputCover.trim_nodup (hP : InputCover rows starts ends P) {a : Nat} {p : List Nat} (hp : P[a]? = some p) : (trim p).Nodup := by
  obtain ⟨s, e, mid, hs, he, rfl⟩ := hP.shape a p hp
  obtain ⟨h1, h2⟩ := hP.mid_inner hp
  rw [trim_shape]
  split
  · rw [List.nodup_cons]
    exact ⟨fun h => h1 s h (List.mem_append_left _ (List.mem_of_getElem? hs)), h2⟩
  next hne => exact hP.once hp hne hs he

theorem trim_sublist (p : List Nat) : (trim p).Sublist p := by
  unfold trim
  split
  · exact List.dropLast_sublist p
  · exact List.Sublist.refl p

theorem before_snoc_inv {r : List Nat} {s u v : Nat} (h : Before (r ++ [s]) u v) (hne : v ≠ s) : Before r u v := by
  rw [before_iff_sublist] at h ⊢
  rw [List.sublist_append_iff] at h
  obtain ⟨l1, l2, he, h1, h2⟩ := h
  rcases List.sublist_singleton.1 h2 with rfl | rfl
  · rw [List.append_nil] at he
    rw [he]; exact h1
  · have := congrArg List.getLast? he
    simp at this
    exact absurd this hne

/-- a dependency on the trimmed paths -/
theorem before_trim (hP : InputCover rows starts ends P) (hround : ∀ a s : Nat, starts[a]? = some s → ends[a]? = some s → ∀ u, ¬ InputDep rows w u s)
    {u v a : Nat} {p : List Nat} (hp : P[a]? = some p) (hd : InputDep rows w u v) (hb : Before p u v) : Before (trim p) u v := by
  obtain ⟨s, e, mid, hs, he, rfl⟩ := hP.shape a p hp
  rw [trim_shape]
  split
  · next h =>
    subst h
    refine before_snoc_inv hb ?_
    rintro rfl
    exact hround a v hs he u hd
  · exact hb

theorem respects_trans (hP : InputCover rows starts ends P) (hR : Respects (InputDep rows w) P)
    (hround : ∀ a s : Nat, starts[a]? = some s → ends[a]? = some s → ∀ u, ¬ InputDep rows w u s) (hown : OwnDepots starts ends) {u v : Nat}
    (h : TransGen (InputDep rows w) u v) : ∃ (a : Nat) (p : List Nat), P[a]? = some p ∧ Before (trim p) u v := by
  induction h with
  | single h =>
    obtain ⟨p, hp, hb⟩ := hR _ _ h
    obtain ⟨a, ha⟩ := List.mem_iff_getElem?.1 hp
    exact ⟨a, p, ha, before_trim hP hround ha h hb⟩
  | tail _ h ih =>
    obtain ⟨a, p, ha, hb⟩ := ih
    obtain ⟨q, hq, hb'⟩ := hR _ _ h
    obtain ⟨b, hbq⟩ := List.mem_iff_getElem?.1 hq
    have hb'' := before_trim hP hround hbq h hb'
    have hab : a = b := hP.unique hown ha hbq ((trim_sublist p).subset hb.mem_right) ((trim_sublist q).subset hb''.mem_left)
    subst hab
    rw [ha] at hbq
    cases hbq
    exact ⟨a, p, ha, hb.trans (hP.trim_nodup ha) hb''⟩

/-- the path on which a place is -/
def OnPath (P : Paths) (k : Nat) : Place → Prop
  | .agent a => k = a
  | .node v => ∃ p, P[k]? = some p ∧ v ∈ p

theorem no_solution (hown : OwnDepots starts ends)
    (hround : ∀ a s : Nat, starts[a]? = some s → ends[a]? = some s → ∀ u, ¬ InputDep rows w u s)
    (hbad : (∃ x, TransGen (InputDep rows w) x x) ∨ (∃ u v, InputDep rows w u v ∧ FirstStart starts ends v) ∨
      (∃ u v, InputDep rows w u v ∧ FirstEnd starts ends u) ∨ AgentsTied rows w starts ends)
    (hP : InputCover rows starts ends P) (hR : Respects (InputDep rows w) P) : False := by
  have hpath : ∀ u v, InputDep rows w u v → ∃ (a : Nat) (p : List Nat), P[a]? = some p ∧ Before (trim p) u v :=
    fun u v hd => respects_trans hP hR hround hown (TransGen.single hd)
  -- where depots are
  have hst : ∀ (a x k : Nat) (p : List Nat), starts[a]? = some x → P[k]? = some p → x ∈ p → k = a := by
    intro a x k p hs hk hx
    have hal : a < P.length := by rw [hP.len]; exact (List.getElem?_eq_some_iff.1 hs).1
    obtain ⟨s, e, mid, hs', he', hq⟩ := hP.shape a _ (List.getElem?_eq_getElem hal)
    rw [hs] at hs'; cases hs'
    exact hP.unique hown hk (List.getElem?_eq_getElem hal) hx (by rw [hq]; simp)
  have hen : ∀ (a x k : Nat) (p : List Nat), a < starts.length → ends[a]? = some x → P[k]? = some p → x ∈ p → k = a := by
    intro a x k p hal' hs hk hx
    have hal : a < P.length := by rw [hP.len]; exact hal'
    obtain ⟨s, e, mid, hs', he', hq⟩ := hP.shape a _ (List.getElem?_eq_getElem hal)
    rw [hs] at he'; cases he'
    exact hP.unique hown hk (List.getElem?_eq_getElem hal) hx (by rw [hq]; simp)
  rcases hbad with ⟨x, hx⟩ | ⟨u, v, hd, hf⟩ | ⟨u, v, hd, hf⟩ | ⟨a, b, hab, hbl, he⟩
  · obtain ⟨a, p, ha, hb⟩ := respects_trans hP hR hround hown hx
    exact Before.asymm (hP.trim_nodup ha) hb hb
  · obtain ⟨a, hs⟩ : ∃ a : Nat, starts[a]? = some v := List.mem_iff_getElem?.1 (firstStart_mem hf)
    obtain ⟨k, p, hk, hb⟩ := hpath u v hd
    have hka := hst a v k p hs hk ((trim_sublist p).subset hb.mem_right)
    subst hka
    have hnd := hP.trim_nodup hk
    obtain ⟨s, e, mid, hs', he', rfl⟩ := hP.shape k p hk
    rw [hs] at hs'; cases hs'
    have hhead : ∃ r, trim (v :: mid ++ [e]) = v :: r := by
      rw [trim_shape]; split
      · exact ⟨_, rfl⟩
      · exact ⟨_, rfl⟩
    obtain ⟨r, hr⟩ := hhead
    rw [hr] at hb hnd
    have hmem : u ∈ r := by
      rcases List.mem_cons.1 hb.mem_left with h | h
      · exact absurd h hd.2.2.1
      · exact h
    exact Before.asymm hnd hb (before_cons hmem)
  · obtain ⟨a, hs, hnot⟩ := hf
    obtain ⟨k, p, hk, hb⟩ := hpath u v hd
    have hal : a < starts.length ∨ starts.length ≤ a := Nat.lt_or_ge _ _
    have hup : u ∈ p := (trim_sublist p).subset hb.mem_left
    have hka : k = a := by
      obtain ⟨s, e, mid, hs', he', rfl⟩ := hP.shape k p hk
      have hin := (hP.mid_inner hk).1
      simp only [List.cons_append, List.mem_cons, List.mem_append, List.not_mem_nil, or_false] at hup
      rcases hup with rfl | hm | rfl
      · exact hown k a u (Or.inl hs') (Or.inr hs)
      · exact absurd (List.mem_append_right _ (List.mem_of_getElem? hs)) (hin u hm)
      · exact hown k a u (Or.inr he') (Or.inr hs)
    subst hka
    have hnd := hP.trim_nodup hk
    obtain ⟨s, e, mid, hs', he', rfl⟩ := hP.shape k p hk
    rw [hs] at he'; cases he'
    have hne : s ≠ u := by
      rintro rfl
      refine hnot (List.mem_iff_getElem?.2 ⟨k, ?_⟩)
      rw [List.getElem?_take, if_pos (by omega)]
      exact hs'
    rw [trim_shape, if_neg hne] at hb hnd
    have hmem : v ∈ s :: mid := by
      rcases List.mem_append.1 hb.mem_right with h | h
      · exact h
      · exact absurd (List.mem_singleton.1 h).symm hd.2.2.1
    exact Before.asymm hnd hb (before_snoc hmem)
  · have hk : ∀ x y, PutsTogether rows w starts ends x y → ∃ k, OnPath P k x ∧ OnPath P k y := by
      rintro x y ⟨u, v, hd, ho, hi, _⟩
      obtain ⟨k, p, hk, hb⟩ := hpath u v hd
      have hup : u ∈ p := (trim_sublist p).subset hb.mem_left
      have hvp : v ∈ p := (trim_sublist p).subset hb.mem_right
      refine ⟨k, ?_, ?_⟩
      · cases x with
        | agent a => exact hst a u k p ho hk hup
        | node x => obtain ⟨rfl, _⟩ := ho; exact ⟨p, hk, hup⟩
      · cases y with
        | agent b =>
          have hi' : ends[b]? = some v := hi
          obtain ⟨s, e, mid, hs', he', rfl⟩ := hP.shape k p hk
          have hin := (hP.mid_inner hk).1
          simp only [List.cons_append, List.mem_cons, List.mem_append, List.not_mem_nil, or_false] at hvp
          rcases hvp with rfl | hm | rfl
          · exact hown k b v (Or.inl hs') (Or.inr hi')
          · exact absurd (List.mem_append_right _ (List.mem_of_getElem? hi')) (hin v hm)
          · exact hown k b v (Or.inr he') (Or.inr hi')
        | node y => obtain ⟨rfl, _⟩ := hi; exact ⟨p, hk, hvp⟩
    have huniq : ∀ x j k, OnPath P j x → OnPath P k x → j = k := by
      intro x j k h1 h2
      cases x with
      | agent a => exact Eq.trans h1 (Eq.symm h2)
      | node v =>
        obtain ⟨p, hp, hv⟩ := h1
        obtain ⟨q, hq, hv'⟩ := h2
        exact hP.unique hown hp hq hv hv'
    have key : ∀ x y, EqvGen (PutsTogether rows w starts ends) x y → ∀ k, (OnPath P k x ↔ OnPath P k y) := by
      intro x y h
      induction h with
      | rel x y h =>
        obtain ⟨j, h1, h2⟩ := hk x y h
        intro k
        constructor
        · intro h3; rw [huniq x k j h3 h1]; exact h2
        · intro h3; rw [huniq y k j h3 h2]; exact h1
      | refl x => intro k; exact Iff.rfl
      | symm x y _ ih => intro k; exact (ih k).symm
      | trans x y z _ _ ih1 ih2 => intro k; exact (ih1 k).trans (ih2 k)
    have : a = b := (key _ _ he a).1 rfl
    omega

end Mtsp
