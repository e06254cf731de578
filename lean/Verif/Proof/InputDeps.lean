import Verif.Proof.InputCover
import Verif.Props.InitialResult

/-! Dependencies of the preprocessed instance and dependencies of the input. -/

namespace Mtsp
open Relation

theorem Before.trans {p : List Nat} (hn : p.Nodup) {u v x : Nat} (h1 : Before p u v) (h2 : Before p v x) : Before p u x := by
  rw [before_iff_idxOf hn] at *
  exact ⟨h1.1, h2.2.1, by omega⟩

theorem before_map_inv {f : Nat → Nat} {q : List Nat} {u v : Nat} (h : Before (q.map f) u v) : ∃ x y, Before q x y ∧ f x = u ∧ f y = v := by
  obtain ⟨l1, l2, l3, h⟩ := h
  rw [List.append_assoc, List.map_eq_append_iff] at h
  obtain ⟨q1, q2, rfl, rfl, h⟩ := h
  rw [List.cons_append, List.map_eq_cons_iff] at h
  obtain ⟨x, q3, rfl, rfl, h⟩ := h
  rw [List.map_eq_append_iff] at h
  obtain ⟨q4, q5, rfl, rfl, h⟩ := h
  rw [List.map_eq_cons_iff] at h
  obtain ⟨y, q6, rfl, rfl, h⟩ := h
  exact ⟨x, y, ⟨q1, q4, q6, by simp⟩, rfl, rfl⟩

theorem before_map {f : Nat → Nat} {q : List Nat} {u v : Nat} (h : Before q u v) : Before (q.map f) (f u) (f v) := by
  obtain ⟨l1, l2, l3, rfl⟩ := h
  exact ⟨l1.map f, l2.map f, l3.map f, by simp⟩

theorem Before.mem_left {p : List Nat} {u v : Nat} (h : Before p u v) : u ∈ p := by
  obtain ⟨a, b, c, rfl⟩ := h; simp

theorem Before.mem_right {p : List Nat} {u v : Nat} (h : Before p u v) : v ∈ p := by
  obtain ⟨a, b, c, rfl⟩ := h; simp

section
variable {rows cols : Nat} {w : Weights} {starts ends : List Nat} {m : WM}

theorem before_ends {p : List Nat} {u v : Nat} (hne : u ≠ v) (h1 : p.head? = some u) (h2 : p.getLast? = some v) : Before p u v := by
  cases p with
  | nil => simp at h1
  | cons x p =>
    simp only [List.head?_cons, Option.some.injEq] at h1
    subst h1
    rcases List.eq_nil_or_concat p with rfl | ⟨q, y, rfl⟩
    · simp at h2; exact absurd h2 hne
    · have : (x :: q.concat y).getLast? = some y := by rw [List.concat_eq_append, ← List.cons_append, List.getLast?_concat]
      rw [this] at h2
      simp only [Option.some.injEq] at h2
      subst h2
      exact ⟨[], q, [], by simp [List.concat_eq_append]⟩

/-- the path that contains an agent's end has it last -/
theorem not_before_end {n : Nat} {S E : List Nat} {Q : Paths} (hQ : IsCover n S E Q) (hl : S.length = E.length) {x y : Nat} {q : List Nat}
    (hq : q ∈ Q) (hx : x ∈ E) : ¬ Before q x y := by
  intro hb
  obtain ⟨b, hb'⟩ := List.mem_iff_getElem?.1 hx
  have hbl : b < Q.length := by rw [hQ.len, hl]; exact (List.getElem?_eq_some_iff.1 hb').1
  have hp : Q[b]? = some Q[b] := List.getElem?_eq_getElem hbl
  have hlast := hQ.last b _ hp
  rw [hb'] at hlast
  have hxp : x ∈ Q[b] := List.mem_of_getLast? hlast
  have := mem_split_unique hQ (List.getElem_mem hbl) hq hxp hb.mem_left
  rw [this] at hlast
  have hnd := hQ.nodup hq
  obtain ⟨l1, l2, l3, rfl⟩ := hb
  rw [List.append_assoc] at hnd
  have hx2 : x ∉ l2 ++ y :: l3 := by
    have := (List.nodup_append.1 hnd).2.1
    rw [List.cons_append] at this
    exact (List.nodup_cons.1 this).1
  have e : (l1 ++ x :: l2 ++ y :: l3).getLast? = (y :: l3).getLast? := by
    rw [List.getLast?_append]
    cases h : (y :: l3).getLast? with
    | none => simp at h
    | some z => rfl
  rw [e] at hlast
  exact hx2 (List.mem_append_right _ (List.mem_of_getLast? hlast))

/-- the path that contains an agent's start has it first -/
theorem not_before_start {n : Nat} {S E : List Nat} {Q : Paths} (hQ : IsCover n S E Q) {x y : Nat} {q : List Nat}
    (hq : q ∈ Q) (hy : y ∈ S) : ¬ Before q x y := by
  intro hb
  obtain ⟨b, hb'⟩ := List.mem_iff_getElem?.1 hy
  have hbl : b < Q.length := by rw [hQ.len]; exact (List.getElem?_eq_some_iff.1 hb').1
  have hp : Q[b]? = some Q[b] := List.getElem?_eq_getElem hbl
  have hhead := hQ.head b _ hp
  rw [hb'] at hhead
  have hyp : y ∈ Q[b] := List.mem_of_head? hhead
  have := mem_split_unique hQ (List.getElem_mem hbl) hq hyp hb.mem_right
  rw [this] at hhead
  have hnd := hQ.nodup hq
  obtain ⟨l1, l2, l3, rfl⟩ := hb
  have hy2 : y ∉ l1 ++ x :: l2 := fun hm => (List.nodup_append.1 hnd).2.2 y hm y List.mem_cons_self rfl
  have e : (l1 ++ x :: l2 ++ y :: l3).head? = (l1 ++ x :: l2).head? := by
    rw [List.head?_append]
    cases h : (l1 ++ x :: l2).head? with
    | none => simp at h
    | some z => rfl
  rw [e] at hhead
  exact hy2 (List.mem_of_head? hhead)

/-- no two agents are tied together by the dependencies -/
def Apart (m : WM) : Prop :=
  ∀ a b s s' : Nat, a < b → m.starts[a]? = some s → m.starts[b]? = some s' → ¬ Linked m.starts m.ends (DepIn m.n m.w) s s'

theorem Apart.eq (hf : Apart m) {a b s s' : Nat} (h1 : m.starts[a]? = some s) (h2 : m.starts[b]? = some s')
    (hl : Linked m.starts m.ends (DepIn m.n m.w) s s') : a = b := by
  rcases Nat.lt_trichotomy a b with h | h | h
  · exact absurd hl (hf a b s s' h h1 h2)
  · exact h
  · exact absurd (EqvGen.symm _ _ hl) (hf b a s' s h h2 h1)

/-- the flag of an input dependency is only cleared between the end of one agent and the start of the next -/
theorem dep_survives (h : WM.make rows cols w starts ends = .ok m) (hnd : NoneDropped rows w starts ends) {u v : Nat} (hd : InputDep rows w u v) :
    DepIn m.n m.w u v ∨ (m.starts = [u] ∧ m.ends = [v]) := by
  obtain ⟨hu, hv, hne, hw⟩ := hd
  obtain ⟨_, _, hls, hle, hmS, hmE, hr, hid, _, _⟩ := C18_own_starts_and_ends h
  rcases (C20_dependencies_survive_partial h).2.2 u v hu hv hne hw with h1 | ⟨a, ha, h1, h2⟩
  · exact Or.inl ⟨by omega, by omega, h1⟩
  · right
    have e1 : ends[a]? = some v := by rw [← hmE, List.getElem?_map, h1]; simp [hid v hv]
    have e2 : starts[(a + 1) % starts.length]? = some u := by
      rw [← hls, ← hmS, List.getElem?_map, h2]; simp [hid u hu]
    have hl := hnd u v a ⟨hu, hv, hne, hw⟩ e1 e2
    have hl1 : m.starts.length = 1 := by omega
    have hl2 : m.ends.length = 1 := by rw [← wm_len h]; exact hl1
    have ha0 : a = 0 := by omega
    subst ha0
    constructor
    · obtain ⟨x, hx⟩ := List.length_eq_one_iff.1 hl1
      rw [hx] at h2 ⊢
      simp at h2
      rw [h2]
    · obtain ⟨x, hx⟩ := List.length_eq_one_iff.1 hl2
      rw [hx] at h1 ⊢
      simp at h1
      rw [h1]

/-- A cover that respects the dependencies of the preprocessed instance respects those of the input, unless some are dropped. -/
theorem respects_input (h : WM.make rows cols w starts ends = .ok m) (hnd : NoneDropped rows w starts ends) {Q : Paths}
    (hQ : IsCover m.n m.starts m.ends Q) (hR : Respects (DepIn m.n m.w) Q) : Respects (InputDep rows w) (Q.map (·.map m.orig)) := by
  obtain ⟨_, _, _, _, _, _, hr, hid, _, _⟩ := C18_own_starts_and_ends h
  intro u v hd
  have hid' := hid u hd.1
  have hid2 := hid v hd.2.1
  have key : ∃ q ∈ Q, Before q u v := by
    rcases dep_survives h hnd hd with h1 | ⟨h1, h2⟩
    · exact hR u v h1
    · have hQl : 0 < Q.length := by rw [hQ.len, h1]; simp
      have hp : Q[0]? = some Q[0] := List.getElem?_eq_getElem hQl
      have e1 := hQ.head 0 _ hp
      have e2 := hQ.last 0 _ hp
      rw [h1] at e1
      rw [h2] at e2
      exact ⟨Q[0], List.getElem_mem hQl, before_ends hd.2.2.1 e1 e2⟩
  obtain ⟨q, hq, hb⟩ := key
  refine ⟨q.map m.orig, List.mem_map_of_mem hq, ?_⟩
  have := before_map (f := m.orig) hb
  rwa [hid', hid2] at this

/-- A cover whose mapped-back paths respect the dependencies of the input respects those of the preprocessed instance. -/
theorem respects_of_input (h : WM.make rows cols w starts ends = .ok m) (hf : Apart m) {Q : Paths}
    (hQ : IsCover m.n m.starts m.ends Q) (hR : Respects (InputDep rows w) (Q.map (·.map m.orig))) : Respects (DepIn m.n m.w) Q := by
    have s := (WM.make_ok h).1
    obtain ⟨hnd, hltn, hls, hle, hmS, hmE, hr, hid, hlt, hcov⟩ := C18_own_starts_and_ends h
    have hlen := wm_len h
    have hS : ∀ x ∈ m.starts, m.orig x ∈ starts := fun x hx => by rw [← hmS]; exact List.mem_map_of_mem hx
    have hE : ∀ x ∈ m.ends, m.orig x ∈ ends := fun x hx => by rw [← hmE]; exact List.mem_map_of_mem hx
    obtain ⟨base, hb, hac, hw⟩ := s.weights
    -- flags before the closure, in terms of the input
    have hbase : ∀ u v, DepIn m.n base u v → InputDep rows w (m.orig u) (m.orig v) := by
      rintro u v ⟨hu, hv, e⟩
      rw [hb v u hv hu] at e
      split at e
      · norm_num at e
      split at e
      · norm_num at e
      rw [zeroDiag_apply _ _ _ _ (hlt v hv)] at e
      split at e
      · norm_num at e
      next hne => exact ⟨hlt u hu, hlt v hv, fun h => hne h.symm, e⟩
    have hflag : ∀ u v, u < m.n → v < m.n → InputDep rows w (m.orig u) (m.orig v) → ¬ (u ∈ m.starts ∧ v ∈ m.ends) → v ∉ m.starts → u ∉ m.ends →
        DepIn m.n base u v := by
      intro u v hu hv hd h1 h2 h3
      refine ⟨hu, hv, ?_⟩
      rw [hb v u hv hu, if_neg, if_neg, zeroDiag_apply _ _ _ _ (hlt v hv), if_neg (Ne.symm hd.2.2.1)]
      · exact hd.2.2.2
      · rintro ⟨_, ⟨_, h⟩ | ⟨_, h⟩⟩
        · exact h2 h
        · exact h3 h
      · intro ha; have := mem_artificialArcs hlen ha; exact h1 ⟨this.2, this.1⟩
    have hgetS : 0 < m.starts.length := WM.starts_pos h
    have h0S : m.starts.getD 0 0 ∈ m.starts := by
      rw [List.getD_eq_getElem?_getD, List.getElem?_eq_getElem hgetS]; exact List.getElem_mem _
    have h0E : m.ends.getD 0 0 ∈ m.ends := by
      rw [List.getD_eq_getElem?_getD, List.getElem?_eq_getElem (by omega)]; exact List.getElem_mem _
    have hup : ∀ u v, DepIn m.n base u v → ¬ (u ∈ m.starts ∧ v ∈ m.ends) → DepIn m.n m.w u v := by
      intro u v hd hn
      refine ⟨hd.1, hd.2.1, ((hw v u hd.2.1 hd.1).1 ?_).1.2 (TransGen.single hd)⟩
      rintro ⟨_, rfl, rfl⟩
      exact hn ⟨h0S, h0E⟩
    have hdisj : ∀ x ∈ m.starts, x ∉ m.ends := fun x h1 h2 => (List.nodup_append.1 hnd).2.2 x h1 x h2 rfl
    have hnoIn : ∀ u v, DepIn m.n base u v → v ∉ m.starts := by
      intro u v hd hm
      exact s.noIn v hm u (hup u v hd (fun h => hdisj v hm h.2))
    have hnoOut : ∀ u v, DepIn m.n base u v → u ∉ m.ends := by
      intro u v hd hm
      exact s.noOut u hm v (hup u v hd (fun h => hdisj u h.1 hm))
    -- depots on both levels
    have hdep : ∀ x, x < m.n → m.orig x ∈ starts ++ ends → x ∈ m.starts ++ m.ends := by
      intro x hx hm
      by_cases hxr : x < rows
      · rw [hid x hxr] at hm; exact (WM.depot_iff h x hxr).2 hm
      · exact hcov x (by omega) hx
    have hone : ∀ u v, DepIn m.n base u v → ∃ q ∈ Q, Before q u v := by
      intro u v hd
      have hu := hd.1
      have hv := hd.2.1
      have hin := hbase u v hd
      obtain ⟨p, hp, hbp⟩ := hR _ _ hin
      obtain ⟨q, hq, rfl⟩ := List.mem_map.1 hp
      obtain ⟨x, y, hxy, ex, ey⟩ := before_map_inv hbp
      have hx : x < m.n := hQ.lt q hq x hxy.mem_left
      have hy : y < m.n := hQ.lt q hq y hxy.mem_right
      have hxE : x ∉ m.ends := fun hm => not_before_end hQ hlen hq hm hxy
      have hyS : y ∉ m.starts := fun hm => not_before_start hQ hq hm hxy
      have hvS := hnoIn u v hd
      have huE := hnoOut u v hd
      have hpair : ∀ {a : Nat} {x' : Nat}, m.starts[a]? = some x' → ∃ y', m.ends[a]? = some y' ∧ Linked m.starts m.ends (DepIn m.n m.w) x' y' := by
        intro a x' ha
        have hal := (List.getElem?_eq_some_iff.1 ha).1
        have he : m.ends[a]? = some (m.ends[a]'(by omega)) := List.getElem?_eq_getElem (by omega)
        exact ⟨_, he, EqvGen.rel _ _ (Or.inr ⟨a, ha, he⟩)⟩
      by_cases hud : m.orig u ∈ starts ++ ends
      · -- the first node is a depot, hence a start
        have huS : u ∈ m.starts := (List.mem_append.1 (hdep u hu hud)).resolve_right huE
        have hxS : x ∈ m.starts := (List.mem_append.1 (hdep x hx (by rw [ex]; exact hud))).resolve_right hxE
        by_cases hvE : v ∈ m.ends
        · -- from a start to an end: of the same agent
          have hfl : DepIn m.n m.w u v := by
            refine ⟨hu, hv, ((hw v u hv hu).1 ?_).1.2 (TransGen.single hd)⟩
            rintro ⟨h1, rfl, rfl⟩
            have e := hd.2.2
            rw [hb _ _ hv hu, if_pos] at e
            · norm_num at e
            · unfold artificialArcs
              rw [List.mem_map]
              exact ⟨0, List.mem_range.2 (by omega), by rw [h1]⟩
          obtain ⟨a, ha⟩ := List.mem_iff_getElem?.1 huS
          obtain ⟨b, hb'⟩ := List.mem_iff_getElem?.1 hvE
          have hbl := (List.getElem?_eq_some_iff.1 hb').1
          have sb : m.starts[b]? = some (m.starts[b]'(by omega)) := List.getElem?_eq_getElem (by omega)
          have hab := hf.eq ha sb (EqvGen.trans _ _ _ (EqvGen.rel _ _ (Or.inl hfl)) (EqvGen.symm _ _ (EqvGen.rel _ _ (Or.inr ⟨b, sb, hb'⟩))))
          subst hab
          have hal : a < Q.length := by rw [hQ.len]; omega
          have hp : Q[a]? = some Q[a] := List.getElem?_eq_getElem hal
          have e1 := hQ.head a _ hp
          have e2 := hQ.last a _ hp
          rw [ha] at e1
          rw [hb'] at e2
          exact ⟨Q[a], List.getElem_mem hal, before_ends (fun e => hdisj u huS (e ▸ hvE)) e1 e2⟩
        have hvd : m.orig v ∉ starts ++ ends := fun hm => (List.mem_append.1 (hdep v hv hm)).elim hvS hvE
        have e1 := orig_nondepot h hv hvd rfl
        have e2 := orig_nondepot h hy hvd ey
        have hyv : y = v := e2.1.trans e1.1.symm
        subst hyv
        have hdx : DepIn m.n base x y := hflag x y hx hv (by rw [ex]; exact hin) (fun h => hvE h.2) hvS hxE
        obtain ⟨a, ha⟩ := List.mem_iff_getElem?.1 huS
        obtain ⟨b, hb'⟩ := List.mem_iff_getElem?.1 hxS
        have hl : Linked m.starts m.ends (DepIn m.n m.w) u x :=
          EqvGen.trans _ _ _ (EqvGen.rel _ _ (Or.inl (hup u y hd (fun h => hvE h.2))))
            (EqvGen.symm _ _ (EqvGen.rel _ _ (Or.inl (hup x y hdx (fun h => hvE h.2)))))
        have := hf.eq ha hb' hl
        subst this
        rw [ha] at hb'
        simp only [Option.some.injEq] at hb'
        subst hb'
        exact ⟨q, hq, hxy⟩
      · have e1 := orig_nondepot h hu hud rfl
        have e2 := orig_nondepot h hx hud ex
        have hxu : x = u := e2.1.trans e1.1.symm
        subst hxu
        have hxS : x ∉ m.starts := fun hm => hud (List.mem_append_left _ (hS x hm))
        by_cases hvd : m.orig v ∈ starts ++ ends
        · have hvE : v ∈ m.ends := (List.mem_append.1 (hdep v hv hvd)).resolve_left hvS
          have hyE : y ∈ m.ends := (List.mem_append.1 (hdep y hy (by rw [ey]; exact hvd))).resolve_left hyS
          have hdy : DepIn m.n base x y := hflag x y hx hy (by rw [ey]; exact hin) (fun h => hxS h.1) hyS hxE
          obtain ⟨a, ha⟩ := List.mem_iff_getElem?.1 hvE
          obtain ⟨b, hb'⟩ := List.mem_iff_getElem?.1 hyE
          have hal := (List.getElem?_eq_some_iff.1 ha).1
          have hbl := (List.getElem?_eq_some_iff.1 hb').1
          have sa : m.starts[a]? = some (m.starts[a]'(by omega)) := List.getElem?_eq_getElem (by omega)
          have sb : m.starts[b]? = some (m.starts[b]'(by omega)) := List.getElem?_eq_getElem (by omega)
          have hl : Linked m.starts m.ends (DepIn m.n m.w) v y :=
            EqvGen.trans _ _ _ (EqvGen.symm _ _ (EqvGen.rel _ _ (Or.inl (hup x v hd (fun h => hxS h.1)))))
              (EqvGen.rel _ _ (Or.inl (hup x y hdy (fun h => hxS h.1))))
          have := hf.eq sa sb (EqvGen.trans _ _ _ (EqvGen.rel _ _ (Or.inr ⟨a, sa, ha⟩))
            (EqvGen.trans _ _ _ hl (EqvGen.symm _ _ (EqvGen.rel _ _ (Or.inr ⟨b, sb, hb'⟩)))))
          subst this
          rw [ha] at hb'
          simp only [Option.some.injEq] at hb'
          subst hb'
          exact ⟨q, hq, hxy⟩
        · have e1 := orig_nondepot h hv hvd rfl
          have e2 := orig_nondepot h hy hvd ey
          have hyv : y = v := e2.1.trans e1.1.symm
          subst hyv
          exact ⟨q, hq, hxy⟩
    -- chains
    have hall : ∀ u v, TransGen (DepIn m.n base) u v → ∃ q ∈ Q, Before q u v := by
      intro u v ht
      induction ht with
      | single h => exact hone _ _ h
      | tail _ h ih =>
        obtain ⟨q, hq, hb1⟩ := ih
        obtain ⟨q', hq', hb2⟩ := hone _ _ h
        have := mem_split_unique hQ hq hq' hb1.mem_right hb2.mem_left
        subst this
        exact ⟨q, hq, hb1.trans (hQ.nodup hq) hb2⟩
    intro u v hd
    refine hall u v ?_
    by_cases hsp : m.starts.length = 1 ∧ v = m.ends.getD 0 0 ∧ u = m.starts.getD 0 0
    · have := (hw v u hd.2.1 hd.1).2 hsp
      rw [hd.2.2] at this; norm_num at this
    · exact ((hw v u hd.2.1 hd.1).1 hsp).1.1 hd.2.2

end
/-- Dependencies that only say which agent visits a node are such after preprocessing, too. -/
theorem OnlyDepotDeps.depotDeps (h : WM.make rows cols w starts ends = .ok m) (hd : OnlyDepotDeps rows w starts ends) :
    DepotDeps m.starts m.ends (DepIn m.n m.w) := by
  have s := (WM.make_ok h).1
  obtain ⟨hnd, hltn, hls, hle, hmS, hmE, hr, hid, hlt, hcov⟩ := C18_own_starts_and_ends h
  have hlen := wm_len h
  obtain ⟨base, hb, hac, hw⟩ := s.weights
  have hbase : ∀ u v, DepIn m.n base u v → InputDep rows w (m.orig u) (m.orig v) := by
    rintro u v ⟨hu, hv, e⟩
    rw [hb v u hv hu] at e
    split at e
    · norm_num at e
    split at e
    · norm_num at e
    rw [zeroDiag_apply _ _ _ _ (hlt v hv)] at e
    split at e
    · norm_num at e
    next hne => exact ⟨hlt u hu, hlt v hv, fun h => hne h.symm, e⟩
  have hgetS : 0 < m.starts.length := WM.starts_pos h
  have h0S : m.starts.getD 0 0 ∈ m.starts := by
    rw [List.getD_eq_getElem?_getD, List.getElem?_eq_getElem hgetS]; exact List.getElem_mem _
  have h0E : m.ends.getD 0 0 ∈ m.ends := by
    rw [List.getD_eq_getElem?_getD, List.getElem?_eq_getElem (by omega)]; exact List.getElem_mem _
  have hup : ∀ u v, DepIn m.n base u v → ¬ (u ∈ m.starts ∧ v ∈ m.ends) → DepIn m.n m.w u v := by
    intro u v hd hn
    refine ⟨hd.1, hd.2.1, ((hw v u hd.2.1 hd.1).1 ?_).1.2 (TransGen.single hd)⟩
    rintro ⟨_, rfl, rfl⟩
    exact hn ⟨h0S, h0E⟩
  have hdisj : ∀ x ∈ m.starts, x ∉ m.ends := fun x h1 h2 => (List.nodup_append.1 hnd).2.2 x h1 x h2 rfl
  have hnoIn : ∀ u v, DepIn m.n base u v → v ∉ m.starts := by
    intro u v hd hm
    exact s.noIn v hm u (hup u v hd (fun h => hdisj v hm h.2))
  have hnoOut : ∀ u v, DepIn m.n base u v → u ∉ m.ends := by
    intro u v hd hm
    exact s.noOut u hm v (hup u v hd (fun h => hdisj u h.1 hm))
  have hdep : ∀ x, x < m.n → m.orig x ∈ starts ++ ends → x ∈ m.starts ++ m.ends := by
    intro x hx hm
    by_cases hxr : x < rows
    · rw [hid x hxr] at hm; exact (WM.depot_iff h x hxr).2 hm
    · exact hcov x (by omega) hx
  have hone : ∀ u v, DepIn m.n base u v → u ∈ m.starts ∨ v ∈ m.ends := by
    intro u v hb'
    rcases hd.1 _ _ (hbase u v hb') with h1 | h1
    · exact Or.inl ((List.mem_append.1 (hdep u hb'.1 (List.mem_append_left _ h1))).resolve_right (hnoOut u v hb'))
    · exact Or.inr ((List.mem_append.1 (hdep v hb'.2.1 (List.mem_append_right _ h1))).resolve_left (hnoIn u v hb'))
  have hall : ∀ u v, TransGen (DepIn m.n base) u v → u ∈ m.starts ∨ v ∈ m.ends := by
    intro u v ht
    induction ht with
    | single hb' => exact hone _ _ hb'
    | tail _ hb' ih =>
      rcases ih with ih | ih
      · exact Or.inl ih
      · exact absurd ih (hnoOut _ _ hb')
  intro u v hdv
  by_cases hx : m.starts.length = 1 ∧ v = m.ends.getD 0 0 ∧ u = m.starts.getD 0 0
  · exact Or.inl (hx.2.2 ▸ h0S)
  · exact hall u v (((hw v u hdv.2.1 hdv.1).1 hx).1.1 hdv.2.2)

end Mtsp
