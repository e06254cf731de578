import Verif.Proof.CApi
import Verif.Proof.InputDeps

/-! Which agents are tied together by the dependencies of the input: `Tied` (about the preprocessed instance) in terms of the input. -/

namespace Mtsp
open Relation

variable {rows cols : Nat} {w : Weights} {starts ends : List Nat} {m : WM}

theorem EqvGen.map' {α β : Type} {r : α → α → Prop} {q : β → β → Prop} (f : α → β) (h : ∀ x y, r x y → EqvGen q (f x) (f y)) {x y : α}
    (hxy : EqvGen r x y) : EqvGen q (f x) (f y) := by
  induction hxy with
  | rel x y h' => exact h x y h'
  | refl x => exact EqvGen.refl _
  | symm x y _ ih => exact EqvGen.symm _ _ ih
  | trans x y z _ _ ih1 ih2 => exact EqvGen.trans _ _ _ ih1 ih2

open Classical in
/-- the place of a node of the preprocessed instance -/
noncomputable def WM.place (m : WM) (x : Nat) : Place :=
  if h : ∃ a : Nat, m.starts[a]? = some x ∨ m.ends[a]? = some x then .agent h.choose else .node x

theorem agents_tied_iff (h : WM.make rows cols w starts ends = .ok m) :
    AgentsTied rows w starts ends ↔
      ∃ a b s s' : Nat, a < b ∧ m.starts[a]? = some s ∧ m.starts[b]? = some s' ∧ Linked m.starts m.ends (DepIn m.n m.w) s s' := by
  have s := (WM.make_ok h).1
  obtain ⟨hnd, hltn, hls, hle, hmS, hmE, hr, hid, hlt, hcov⟩ := C18_own_starts_and_ends h
  have hlen := wm_len h
  obtain ⟨base, hb, hac, hw⟩ := s.weights
  have hgetS : 0 < m.starts.length := WM.starts_pos h
  have h0S : m.starts.getD 0 0 ∈ m.starts := by
    rw [List.getD_eq_getElem?_getD, List.getElem?_eq_getElem hgetS]; exact List.getElem_mem _
  have h0E : m.ends.getD 0 0 ∈ m.ends := by
    rw [List.getD_eq_getElem?_getD, List.getElem?_eq_getElem (by omega)]; exact List.getElem_mem _
  have hdisj : ∀ x ∈ m.starts, x ∉ m.ends := fun x h1 h2 => (List.nodup_append.1 hnd).2.2 x h1 x h2 rfl
  have hup : ∀ u v, DepIn m.n base u v → ¬ (u ∈ m.starts ∧ v ∈ m.ends) → DepIn m.n m.w u v := by
    intro u v hd hn
    refine ⟨hd.1, hd.2.1, ((hw v u hd.2.1 hd.1).1 ?_).1.2 (TransGen.single hd)⟩
    rintro ⟨_, rfl, rfl⟩
    exact hn ⟨h0S, h0E⟩
  have hnoIn : ∀ u v, DepIn m.n base u v → v ∉ m.starts := by
    intro u v hd hm
    exact s.noIn v hm u (hup u v hd (fun h => hdisj v hm h.2))
  have hnoOut : ∀ u v, DepIn m.n base u v → u ∉ m.ends := by
    intro u v hd hm
    exact s.noOut u hm v (hup u v hd (fun h => hdisj u h.1 hm))
  have hart := fun i j => mem_artificial (m := m) hlen i j
  have origS : ∀ a x : Nat, m.starts[a]? = some x → starts[a]? = some (m.orig x) := by
    intro a x hx; rw [← hmS, List.getElem?_map, hx]; rfl
  have origE : ∀ a x : Nat, m.ends[a]? = some x → ends[a]? = some (m.orig x) := by
    intro a x hx; rw [← hmE, List.getElem?_map, hx]; rfl
  -- indices of depots are unique
  have idx : ∀ a b x : Nat, (m.starts[a]? = some x ∨ m.ends[a]? = some x) → (m.starts[b]? = some x ∨ m.ends[b]? = some x) → a = b := by
    have hS := (List.nodup_append.1 hnd).1
    have hE := (List.nodup_append.1 hnd).2.1
    rintro a b x (h1 | h1) (h2 | h2)
    · obtain ⟨ha, e1⟩ := List.getElem?_eq_some_iff.1 h1
      obtain ⟨hb', e2⟩ := List.getElem?_eq_some_iff.1 h2
      exact (List.Nodup.getElem_inj_iff hS).1 (e1.trans e2.symm)
    · exact absurd (List.mem_of_getElem? h2) (hdisj x (List.mem_of_getElem? h1))
    · exact absurd (List.mem_of_getElem? h1) (hdisj x (List.mem_of_getElem? h2))
    · obtain ⟨ha, e1⟩ := List.getElem?_eq_some_iff.1 h1
      obtain ⟨hb', e2⟩ := List.getElem?_eq_some_iff.1 h2
      exact (List.Nodup.getElem_inj_iff hE).1 (e1.trans e2.symm)
  have plA : ∀ a x : Nat, (m.starts[a]? = some x ∨ m.ends[a]? = some x) → m.place x = .agent a := by
    intro a x hx
    have hex : ∃ a : Nat, m.starts[a]? = some x ∨ m.ends[a]? = some x := ⟨a, hx⟩
    unfold WM.place
    rw [dif_pos hex]
    exact congrArg _ (idx _ _ x hex.choose_spec hx)
  have plN : ∀ x, x ∉ m.starts → x ∉ m.ends → m.place x = .node x := by
    intro x h1 h2
    unfold WM.place
    rw [dif_neg]
    rintro ⟨a, h | h⟩
    · exact h1 (List.mem_of_getElem? h)
    · exact h2 (List.mem_of_getElem? h)
  have inner : ∀ x, x < m.n → x ∉ m.starts → x ∉ m.ends → x < rows ∧ m.orig x = x ∧ x ∉ starts ++ ends := by
    intro x hx h1 h2
    have hxr : x < rows := by
      by_contra hc
      rcases List.mem_append.1 (hcov x (by omega) hx) with h | h
      · exact h1 h
      · exact h2 h
    refine ⟨hxr, hid x hxr, fun hc => ?_⟩
    rcases List.mem_append.1 ((WM.depot_iff h x hxr).2 hc) with h | h
    · exact h1 h
    · exact h2 h
  -- a flag before the closure puts its places together
  have hdown : ∀ x y, DepIn m.n base x y → PutsTogether rows w starts ends (m.place x) (m.place y) := by
    rintro x y hd
    have hxE := hnoOut x y hd
    have hyS := hnoIn x y hd
    obtain ⟨hx, hy, e⟩ := hd
    rw [hb y x hy hx] at e
    split at e
    · norm_num at e
    next hna =>
    split at e
    · norm_num at e
    rw [zeroDiag_apply _ _ _ _ (hlt y hy)] at e
    split at e
    · norm_num at e
    next hne =>
    have hout : OutOf starts ends (m.orig x) (m.place x) := by
      by_cases hxS : x ∈ m.starts
      · obtain ⟨a, ha⟩ := List.mem_iff_getElem?.1 hxS
        rw [plA a x (Or.inl ha)]
        exact origS a x ha
      · rw [plN x hxS hxE]
        obtain ⟨_, h2, h3⟩ := inner x hx hxS hxE
        exact ⟨h2.symm, by rw [h2]; exact h3⟩
    have hin : Into starts ends (m.orig y) (m.place y) := by
      by_cases hyE : y ∈ m.ends
      · obtain ⟨a, ha⟩ := List.mem_iff_getElem?.1 hyE
        rw [plA a y (Or.inr ha)]
        exact origE a y ha
      · rw [plN y hyS hyE]
        obtain ⟨_, h2, h3⟩ := inner y hy hyS hyE
        exact ⟨h2.symm, by rw [h2]; exact h3⟩
    refine ⟨m.orig x, m.orig y, ⟨hlt x hx, hlt y hy, fun h => hne h.symm, e⟩, hout, hin, ?_⟩
    rintro ⟨b, hb1, hb2⟩
    refine hna ((hart y x).2 ?_)
    have hyE : y ∈ m.ends := by
      by_contra hc
      rw [plN y hyS hc] at hb1; cases hb1
    have hxS : x ∈ m.starts := by
      by_contra hc
      rw [plN x hc hxE] at hb2; cases hb2
    obtain ⟨b', hb'⟩ := List.mem_iff_getElem?.1 hyE
    obtain ⟨a', ha'⟩ := List.mem_iff_getElem?.1 hxS
    rw [plA b' y (Or.inr hb')] at hb1
    rw [plA a' x (Or.inl ha')] at hb2
    cases hb1
    cases hb2
    refine ⟨_, by rw [hlen]; exact (List.getElem?_eq_some_iff.1 hb').1, hb', ?_⟩
    rw [hls]; exact ha'
  constructor
  · rintro ⟨a, b, hab, hbl, he⟩
    have ha : a < m.starts.length := by omega
    have hb' : b < m.starts.length := by omega
    refine ⟨a, b, m.starts[a], m.starts[b], hab, List.getElem?_eq_getElem ha, List.getElem?_eq_getElem hb', ?_⟩
    let f : Place → Nat := fun p => match p with | .agent a => m.starts.getD a 0 | .node v => v
    have key := EqvGen.map' (q := fun u v => DepIn m.n m.w u v ∨ ∃ a : Nat, m.starts[a]? = some u ∧ m.ends[a]? = some v) f ?_ he
    · have e1 : f (.agent a) = m.starts[a] := by show m.starts.getD a 0 = _; rw [List.getD_eq_getElem?_getD, List.getElem?_eq_getElem ha]; rfl
      have e2 : f (.agent b) = m.starts[b] := by show m.starts.getD b 0 = _; rw [List.getD_eq_getElem?_getD, List.getElem?_eq_getElem hb']; rfl
      rw [e1, e2] at key
      exact key
    · rintro p q ⟨u, v, hd, ho, hi, hna⟩
      obtain ⟨hu, hv, huv, hwt⟩ := hd
      -- the nodes they stand for
      obtain ⟨x, hx, hox, hpx, hxE⟩ : ∃ x, x < m.n ∧ m.orig x = u ∧ f p = x ∧ x ∉ m.ends ∧ ∀ a, p = .agent a → m.starts[a]? = some x := by
        cases p with
        | agent a =>
          have ho' : starts[a]? = some u := ho
          rw [← hmS, List.getElem?_map] at ho'
          cases hc : m.starts[a]? with
          | none => rw [hc] at ho'; simp at ho'
          | some x =>
            rw [hc] at ho'
            simp only [Option.map_some, Option.some.injEq] at ho'
            refine ⟨x, hltn x (List.mem_append_left _ (List.mem_of_getElem? hc)), ho', ?_, hdisj x (List.mem_of_getElem? hc), ?_⟩
            · show m.starts.getD a 0 = x
              rw [List.getD_eq_getElem?_getD, hc]; rfl
            · intro a' e; cases e; exact hc
        | node x =>
          obtain ⟨rfl, hn⟩ := ho
          refine ⟨x, by omega, hid x hu, rfl, fun hc => hn ((WM.depot_iff h x hu).1 (List.mem_append_right _ hc)), fun a e => by cases e⟩
      obtain ⟨y, hy, hoy, hqy, hyS, hqa⟩ : ∃ y, y < m.n ∧ m.orig y = v ∧
          EqvGen (fun u v => DepIn m.n m.w u v ∨ ∃ a : Nat, m.starts[a]? = some u ∧ m.ends[a]? = some v) y (f q) ∧ y ∉ m.starts ∧
          ((∃ b, q = .agent b ∧ m.ends[b]? = some y) ∨ y ∉ m.ends) := by
        cases q with
        | agent b =>
          have hi' : ends[b]? = some v := hi
          rw [← hmE, List.getElem?_map] at hi'
          cases hc : m.ends[b]? with
          | none => rw [hc] at hi'; simp at hi'
          | some y =>
            rw [hc] at hi'
            simp only [Option.map_some, Option.some.injEq] at hi'
            have hbl' : b < m.starts.length := by rw [hlen]; exact (List.getElem?_eq_some_iff.1 hc).1
            refine ⟨y, hltn y (List.mem_append_right _ (List.mem_of_getElem? hc)), hi', ?_, fun hm => hdisj y hm (List.mem_of_getElem? hc), Or.inl ⟨b, rfl, hc⟩⟩
            refine EqvGen.symm _ _ (EqvGen.rel _ _ (Or.inr ⟨b, ?_, hc⟩))
            show m.starts[b]? = some (m.starts.getD b 0)
            rw [List.getD_eq_getElem?_getD, List.getElem?_eq_getElem hbl']; rfl
        | node y =>
          obtain ⟨rfl, hn⟩ := hi
          exact ⟨y, by omega, hid y hv, EqvGen.refl _, fun hc => hn ((WM.depot_iff h y hv).1 (List.mem_append_left _ hc)),
            Or.inr fun hc => hn ((WM.depot_iff h y hv).1 (List.mem_append_right _ hc))⟩
      have hbd : DepIn m.n base x y := by
        refine ⟨hx, hy, ?_⟩
        rw [hb y x hy hx, if_neg, if_neg, zeroDiag_apply _ _ _ _ (hlt y hy), hox, hoy, if_neg (fun h => huv h.symm)]
        · exact hwt
        · rintro ⟨_, ⟨_, hc⟩ | ⟨_, hc⟩⟩
          · exact hyS hc
          · exact hxE.1 hc
        · intro hc
          obtain ⟨b, hbl', hb1, hb2⟩ := (hart y x).1 hc
          rcases hqa with ⟨b2, rfl, hb3⟩ | hno
          · have : b2 = b := idx _ _ y (Or.inr hb3) (Or.inr hb1)
            subst this
            refine hna ⟨b2, rfl, ?_⟩
            cases p with
            | agent a' =>
              have := idx _ _ x (Or.inl (hxE.2 a' rfl)) (Or.inl hb2)
              rw [this, hls]
            | node x' =>
              obtain ⟨rfl, hn⟩ := ho
              have hfx : x' = x := hpx
              subst hfx
              exact absurd ((WM.depot_iff h x' hu).1 (List.mem_append_left _ (List.mem_of_getElem? hb2))) hn
          · exact hno (List.mem_of_getElem? hb1)
      rw [hpx]
      refine EqvGen.trans _ _ _ (EqvGen.rel _ _ (Or.inl ?_)) hqy
      refine ⟨hx, hy, ((hw y x hy hx).1 ?_).1.2 (TransGen.single hbd)⟩
      rintro ⟨h1, _, _⟩
      omega
  · rintro ⟨a, b, x, y, hab, ha, hb', hl⟩
    have hbl : b < m.starts.length := (List.getElem?_eq_some_iff.1 hb').1
    refine ⟨a, b, hab, by omega, ?_⟩
    have key := EqvGen.map' (q := PutsTogether rows w starts ends) m.place ?_ hl
    · rw [plA a x (Or.inl ha), plA b y (Or.inl hb')] at key
      exact key
    · rintro u v (hd | ⟨c, h1, h2⟩)
      · have hns : ¬ (m.starts.length = 1 ∧ v = m.ends.getD 0 0 ∧ u = m.starts.getD 0 0) := by rintro ⟨h1, _⟩; omega
        have htr := ((hw v u hd.2.1 hd.1).1 hns).1.1 hd.2.2
        clear hd hns
        induction htr with
        | single h' => exact EqvGen.rel _ _ (hdown _ _ h')
        | tail _ h' ih => exact EqvGen.trans _ _ _ ih (EqvGen.rel _ _ (hdown _ _ h'))
      · rw [plA c u (Or.inl h1), plA c v (Or.inr h2)]
        exact EqvGen.refl _

theorem tied_iff (h : WM.make rows rows w starts ends = .ok m) : Tied rows w starts ends ↔ AgentsTied rows w starts ends := by
  rw [agents_tied_iff h]
  constructor
  · rintro ⟨m', hm, h'⟩
    rw [h] at hm
    cases hm
    exact h'
  · intro h'
    exact ⟨m, h, h'⟩

end Mtsp
