import Verif.Props.TwoOpt
import Verif.Props.InitialResult
import Verif.Spec.Exchange

/-! C82: the improvement heuristic ends at a local optimum. -/

namespace Mtsp

variable {mode : Mode} {w : Weights} {deps : DepGraph} {P0 : Paths}

/-! ### a round without improvement changes nothing -/

/-- a step that reports no improvement has done nothing -/
def Quiet {α : Type} (f : TOState → α → TOState) : Prop := ∀ s x, (f s x).improved = false → f s x = s

theorem fold_quiet {α : Type} {f : TOState → α → TOState} (hf : Quiet f) : ∀ (l : List α) (s : TOState), (l.foldl f s).improved = false →
    l.foldl f s = s ∧ ∀ x ∈ l, f s x = s
  | [], s, _ => ⟨rfl, by simp⟩
  | a :: l, s, h => by
    obtain ⟨h1, h2⟩ := fold_quiet hf l (f s a) h
    rw [List.foldl_cons] at h ⊢
    rw [h1] at h ⊢
    have e := hf s a h
    rw [e] at h2
    exact ⟨e, fun x hx => by rcases List.mem_cons.1 hx with rfl | hx; exacts [e, h2 x hx]⟩

theorem quietJ (a1 a2 i u : Nat) : Quiet (toStepJ mode w deps a1 a2 i u) := by
  intro s j h
  rcases stepJ_cases (mode := mode) (w := w) (deps := deps) (a1 := a1) (a2 := a2) (i := i) (u := u) (j := j) (s := s) with e | ⟨_, _, e⟩
  · exact e
  · rw [e] at h; simp at h

theorem quietI (a1 a2 : Nat) : Quiet (toStepI mode w deps a1 a2) := by
  intro s i h
  unfold toStepI at h ⊢
  dsimp only at h ⊢
  split at h
  · next hc => rw [if_pos hc]
  · next hc => rw [if_neg hc]; exact (fold_quiet (quietJ _ _ _ _) _ _ h).1

theorem quietA2 (a1 : Nat) : Quiet (toStepA2 mode w deps a1) := fun _ _ h => (fold_quiet (quietI _ _) _ _ h).1

theorem quietA1 : Quiet (toStepA1 mode w deps) := fun _ _ h => (fold_quiet (quietA2 _) _ _ h).1

/-- After a round without improvement no exchange that the loops consider improves. -/
theorem quiet_round {A : Nat} {s : TOState} (h : (toRound mode w deps A s).improved = false) :
    toRound mode w deps A s = { s with improved := false } ∧
    ∀ a1 a2 i j, a1 < A → (getA2Range mode s.lens s.longest a1).1 ≤ a2 → a2 < (getA2Range mode s.lens s.longest a1).2 →
      1 ≤ i → i + 1 < (s.paths.getD a1 []).length → 1 ≤ j → (a1 = a2 → i < j) → j + 1 < (s.paths.getD a2 []).length →
      (a1 ≠ a2 → hasDeps deps (nodeAt s.paths a1 i) = false) →
      skipJ deps s.paths a1 a2 (nodeAt s.paths a1 i) (nodeAt s.paths a2 j) i j = false →
      overallImprovement mode s.lens s.longest a1 (swapGain w s.paths a1 i a2 j).1 a2 (swapGain w s.paths a1 i a2 j).2 ≤ 0 := by
  unfold toRound at h ⊢
  obtain ⟨h1, h2⟩ := fold_quiet quietA1 _ _ h
  refine ⟨h1, ?_⟩
  intro a1 a2 i j ha1 hr1 hr2 hi1 hi2 hj1 hij hj2 hfree hskip
  by_contra hpos
  push Not at hpos
  have e1 := h2 a1 (List.mem_range.2 ha1)
  unfold toStepA1 at e1
  dsimp only at e1
  obtain ⟨_, h3⟩ := fold_quiet (quietA2 a1) _ _ (congrArg TOState.improved e1)
  have e2 := h3 a2 (by rw [List.mem_range'_1]; omega)
  unfold toStepA2 at e2
  dsimp only at e2
  obtain ⟨_, h4⟩ := fold_quiet (quietI a1 a2) _ _ (congrArg TOState.improved e2)
  have e3 := h4 i (by rw [List.mem_range'_1]; omega)
  unfold toStepI at e3
  dsimp only at e3
  rw [if_neg (by rintro ⟨c1, c2⟩; rw [hfree c1] at c2; simp at c2)] at e3
  obtain ⟨_, h5⟩ := fold_quiet (quietJ a1 a2 i _) _ _ (congrArg TOState.improved e3)
  have e4 := h5 j (by
    rw [List.mem_range'_1]
    by_cases e : a1 = a2
    · rw [if_pos e]; have := hij e; omega
    · rw [if_neg e]; omega)
  unfold toStepJ at e4
  dsimp only at e4
  rw [if_neg (by rw [hskip]; simp), if_pos hpos] at e4
  have := congrArg TOState.improved e4
  simp at this

/-! ### what an exchange does to the objective -/

theorem swap_symm (P : Paths) (a1 i a2 j : Nat) (hi : i < (P.getD a1 []).length) (hj : j < (P.getD a2 []).length) (hne : a1 = a2 → i ≠ j) :
    swapNodes P a1 i a2 j = swapNodes P a2 j a1 i := by
  have hlen : (swapNodes P a1 i a2 j).length = (swapNodes P a2 j a1 i).length := by rw [swapNodes_length, swapNodes_length]
  apply List.ext_getElem hlen
  intro b h1 h2
  have hp : ∀ (Q : Paths) (hb : b < Q.length), Q[b] = Q.getD b [] := fun Q hb => by simp [List.getD_eq_getElem?_getD, hb]
  rw [hp _ h1, hp _ h2]
  apply List.ext_getElem (by rw [swapNodes_path_length, swapNodes_path_length])
  intro k h3 h4
  have hn : ∀ (Q : Paths) (hk : k < (Q.getD b []).length), (Q.getD b [])[k] = nodeAt Q b k := by
    intro Q hk
    unfold nodeAt
    rw [List.getD_eq_getElem?_getD (l := Q.getD b []), List.getElem?_eq_getElem hk]; rfl
  rw [hn _ h3, hn _ h4, nodeAt_swapNodes _ _ _ _ _ _ _ hi hj, nodeAt_swapNodes _ _ _ _ _ _ _ hj hi]
  by_cases c1 : b = a2 ∧ k = j
  · by_cases c2 : b = a1 ∧ k = i
    · exact absurd (c2.2.symm.trans c1.2) (hne (c2.1.symm.trans c1.1))
    · rw [if_pos c1, if_neg c2, if_pos c1]
  · simp [c1]

/-- an exchange that lowers the objective counts as an improvement -/
theorem gain_pos {s : TOState} (h : TOInv mode w P0 s) {a1 i a2 j : Nat}
    (ha1 : a1 < P0.length) (ha2 : a2 < P0.length) (hi1 : 1 ≤ i) (hi2 : i + 1 < (s.paths.getD a1 []).length)
    (hj1 : 1 ≤ j) (hj2 : j + 1 < (s.paths.getD a2 []).length) (hlt : a1 = a2 → i < j)
    (hobj : calcObjective mode (swapNodes s.paths a1 i a2 j) (fun _ => w) < calcObjective mode s.paths (fun _ => w)) :
    0 < overallImprovement mode s.lens s.longest a1 (swapGain w s.paths a1 i a2 j).1 a2 (swapGain w s.paths a1 i a2 j).2 := by
  have hc := fun b => costAt_swapNodes w s.paths a1 i a2 j b hi1 hi2 hj1 hj2 hlt
  set g := swapGain w s.paths a1 i a2 j with hg
  rw [calcObjective_eq, calcObjective_eq, swapNodes_length, h.shape.len] at hobj
  cases mode with
  | sum =>
    dsimp only [overallImprovement] at hobj ⊢
    have e1 : ((List.range P0.length).map fun b => costAt w s.paths b - (if b = a1 then g.1 else 0)).sum =
        ((List.range P0.length).map (costAt w s.paths)).sum + (- g.1) :=
      sum_map_update _ a1 ha1 _ _ _ (by simp; ring) (fun b hb => by simp [hb])
    have e2 : ((List.range P0.length).map (costAt w (swapNodes s.paths a1 i a2 j))).sum =
        ((List.range P0.length).map fun b => costAt w s.paths b - (if b = a1 then g.1 else 0)).sum + (- g.2) :=
      sum_map_update _ a2 ha2 _ _ _ (by rw [hc]; simp; ring) (fun b hb => by rw [hc]; simp [hb])
    rw [e2, e1] at hobj
    linarith
  | max =>
    obtain ⟨hl, hlg⟩ := h.info rfl
    dsimp only [overallImprovement] at hobj ⊢
    rw [h.lensLen]
    have hnew : (List.range P0.length).foldl (fun o a =>
        if s.lens.getD a 0 - (if a = a1 then g.1 else 0) - (if a = a2 then g.2 else 0) > o
        then s.lens.getD a 0 - (if a = a1 then g.1 else 0) - (if a = a2 then g.2 else 0) else o) 0 =
        (List.range P0.length).foldl (fun o a => max (costAt w (swapNodes s.paths a1 i a2 j) a) o) 0 := by
      rw [← foldl_if_max]
      apply foldl_congr_mem
      intro o a ha
      have ha := List.mem_range.1 ha
      rw [hl, getD_map_range _ _ _ ha, ← hc]
    rw [hnew, hl, getD_map_range _ _ _ hlg.1]
    obtain ⟨k1, k2, k3⟩ := foldl_max_spec (List.range P0.length) (costAt w (swapNodes s.paths a1 i a2 j)) 0
    obtain ⟨m1, m2, m3⟩ := foldl_max_spec (List.range P0.length) (costAt w s.paths) 0
    rcases m3 with m3 | ⟨b, hb, m3⟩
    · rw [m3] at hobj; linarith
    · rw [m3] at hobj
      have := hlg.2 b (List.mem_range.1 hb)
      linarith

/-- with objective "max" an exchange that leaves the longest path alone does not lower the objective -/
theorem swap_other {s : TOState} (h : TOInv .max w P0 s) {a1 i a2 j : Nat}
    (hi1 : 1 ≤ i) (hi2 : i + 1 < (s.paths.getD a1 []).length)
    (hj1 : 1 ≤ j) (hj2 : j + 1 < (s.paths.getD a2 []).length) (hlt : a1 = a2 → i < j) (h1 : a1 ≠ s.longest) (h2 : a2 ≠ s.longest) :
    calcObjective .max s.paths (fun _ => w) ≤ calcObjective .max (swapNodes s.paths a1 i a2 j) (fun _ => w) := by
  have hc := costAt_swapNodes w s.paths a1 i a2 j s.longest hi1 hi2 hj1 hj2 hlt
  rw [if_neg (Ne.symm h1), if_neg (Ne.symm h2)] at hc
  rw [calcObjective_eq, calcObjective_eq, swapNodes_length, h.shape.len]
  dsimp only
  obtain ⟨hl, hlg⟩ := h.info rfl
  obtain ⟨k1, k2, k3⟩ := foldl_max_spec (List.range P0.length) (costAt w (swapNodes s.paths a1 i a2 j)) 0
  obtain ⟨m1, m2, m3⟩ := foldl_max_spec (List.range P0.length) (costAt w s.paths) 0
  rcases m3 with m3 | ⟨b, hb, m3⟩
  · rw [m3]; exact k1
  · rw [m3]
    have e1 := hlg.2 b (List.mem_range.1 hb)
    have e2 := k2 _ (List.mem_range.2 hlg.1)
    linarith

/-! ### exchanges as the specification describes them -/

theorem nodeOn_nodeAt {P : Paths} {a k : Nat} (ha : a < P.length) (hk : k < (P.getD a []).length) : nodeOn P a k = some (nodeAt P a k) := by
  unfold nodeOn nodeAt
  rw [List.getD_eq_getElem?_getD (l := P.getD a []), List.getElem?_eq_getElem hk]
  simp only [List.getD_eq_getElem?_getD, List.getElem?_eq_getElem ha, Option.bind_some, Option.getD_some] at hk ⊢
  rw [List.getElem?_eq_getElem hk]

theorem nodeOn_isSome {P : Paths} {a k : Nat} (h : (nodeOn P a k).isSome) : a < P.length ∧ k < (P.getD a []).length := by
  unfold nodeOn at h
  cases ha : P[a]? with
  | none => rw [ha] at h; simp at h
  | some p =>
    rw [ha] at h
    refine ⟨(List.getElem?_eq_some_iff.1 ha).1, ?_⟩
    rw [getD_of_getElem? ha]
    by_contra hc
    rw [Option.bind_some, List.getElem?_eq_none (by omega)] at h
    simp at h

theorem nodeOn_ext {P Q : Paths} (hl : P.length = Q.length) (h : ∀ c k, nodeOn P c k = nodeOn Q c k) : P = Q := by
  apply List.ext_getElem hl
  intro c h1 h2
  apply List.ext_getElem?
  intro k
  have := h c k
  unfold nodeOn at this
  rwa [List.getElem?_eq_getElem h1, List.getElem?_eq_getElem h2] at this

theorem nodeOn_swapNodes {P : Paths} {a i b j : Nat} (ha : a < P.length) (hi : i < (P.getD a []).length) (hb : b < P.length)
    (hj : j < (P.getD b []).length) (c k : Nat) : nodeOn (swapNodes P a i b j) c k =
      if c = b ∧ k = j then nodeOn P a i else if c = a ∧ k = i then nodeOn P b j else nodeOn P c k := by
  by_cases hr : c < P.length ∧ k < (P.getD c []).length
  · rw [nodeOn_nodeAt (by rw [swapNodes_length]; exact hr.1) (by rw [swapNodes_path_length]; exact hr.2),
      nodeAt_swapNodes _ _ _ _ _ _ _ hi hj, nodeOn_nodeAt ha hi, nodeOn_nodeAt hb hj, nodeOn_nodeAt hr.1 hr.2]
    split
    · rfl
    · split <;> rfl
  · have e1 : nodeOn P c k = none := by
      by_contra hc
      exact hr (nodeOn_isSome (Option.isSome_iff_ne_none.2 hc))
    have e2 : nodeOn (swapNodes P a i b j) c k = none := by
      by_contra hc
      have := nodeOn_isSome (Option.isSome_iff_ne_none.2 hc)
      rw [swapNodes_length, swapNodes_path_length] at this
      exact hr this
    rw [e1, e2, if_neg, if_neg]
    · rintro ⟨rfl, rfl⟩; exact hr ⟨ha, hi⟩
    · rintro ⟨rfl, rfl⟩; exact hr ⟨hb, hj⟩

theorem exchanged_swap {P Q : Paths} (h : Exchanged P Q) : ∃ a i b j, a < P.length ∧ b < P.length ∧ a ≤ b ∧ (a = b → i < j) ∧
    1 ≤ i ∧ i + 1 < (P.getD a []).length ∧ 1 ≤ j ∧ j + 1 < (P.getD b []).length ∧ Q = swapNodes P a i b j := by
  obtain ⟨hl, a, i, b, j, hne, hi, hi', hj, hj', e1, e2, e3⟩ := h
  obtain ⟨ha, hi2⟩ := nodeOn_isSome hi'
  obtain ⟨hb, hj2⟩ := nodeOn_isSome hj'
  have hQ : Q = swapNodes P a i b j := by
    apply nodeOn_ext (by rw [hl, swapNodes_length])
    intro c k
    rw [nodeOn_swapNodes ha (by omega) hb (by omega)]
    by_cases c1 : c = b ∧ k = j
    · rw [if_pos c1, c1.1, c1.2, e2]
    · rw [if_neg c1]
      by_cases c2 : c = a ∧ k = i
      · rw [if_pos c2, c2.1, c2.2, e1]
      · rw [if_neg c2, e3 c k c2 c1]
  have hne' : a = b → i ≠ j := fun e => by rcases hne with h | h; exacts [absurd e h, h]
  by_cases hab : a < b ∨ (a = b ∧ i < j)
  · exact ⟨a, i, b, j, ha, hb, by omega, fun e => by omega, hi, hi2, hj, hj2, hQ⟩
  · refine ⟨b, j, a, i, hb, ha, by omega, fun e => ?_, hj, hj2, hi, hi2, ?_⟩
    · have := hne' e.symm; omega
    · rw [hQ]; exact swap_symm P a i b j (by omega) (by omega) hne'

/-! ### the rules for dependencies let all admissible exchanges through -/

section
variable {n : Nat} {D : Nat → Nat → Prop}

theorem skip_false_of_respects {P : Paths} (hdeps : DepsAre deps n D) (hlt : ∀ x ∈ P.flatten, x < n) (hnd : P.flatten.Nodup)
    (hfree : ∀ u, u < n → (∀ v, ¬ D u v ∧ ¬ D v u) → hasDeps deps u = false)
    (hT : Together D P) {a i b j : Nat} (ha : a < P.length) (hb : b < P.length) (hij : a = b → i < j)
    (hi : i < (P.getD a []).length) (hj : j < (P.getD b []).length) (hR : Respects D (swapNodes P a i b j)) :
    (a ≠ b → hasDeps deps (nodeAt P a i) = false) ∧ skipJ deps P a b (nodeAt P a i) (nodeAt P b j) i j = false := by
  have hne' : a = b → i ≠ j := fun e => by have := hij e; omega
  obtain ⟨q1, q2, q3⟩ := swap_pos (P := P) hi hj hne'
  have hnd' : (swapNodes P a i b j).flatten.Nodup := (swapNodes_perm P a i b j ha hb hi hj hne').nodup_iff.2 hnd
  have hRp := (respects_iff_pos D _).1 hR
  have rng : ∀ {c k}, InRange P c k → InRange (swapNodes P a i b j) c k := by
    rintro c k ⟨h1, h2⟩
    exact ⟨by rw [swapNodes_length]; exact h1, by rw [swapNodes_path_length]; exact h2⟩
  -- positions after the exchange
  have after : ∀ {u v c k c' l}, D u v → InRange (swapNodes P a i b j) c k → InRange (swapNodes P a i b j) c' l →
      nodeAt (swapNodes P a i b j) c k = u → nodeAt (swapNodes P a i b j) c' l = v → c = c' ∧ k < l := by
    intro u v c k c' l hd h1 h2 e1 e2
    obtain ⟨x, k', l', hx, hkl, hl', f1, f2⟩ := hRp u v hd
    obtain ⟨r1, r2⟩ := nodeAt_inj hnd' ⟨hx, by omega⟩ h1 (f1.trans e1.symm)
    obtain ⟨r3, r4⟩ := nodeAt_inj hnd' ⟨hx, hl'⟩ h2 (f2.trans e2.symm)
    omega
  have hIa : InRange P a i := ⟨ha, hi⟩
  have hIb : InRange P b j := ⟨hb, hj⟩
  -- between different paths only free nodes can be exchanged
  have free : a ≠ b → (∀ v, ¬ D (nodeAt P a i) v ∧ ¬ D v (nodeAt P a i)) ∧ (∀ v, ¬ D (nodeAt P b j) v ∧ ¬ D v (nodeAt P b j)) := by
    intro hab
    have key : ∀ {c k c' k' x y}, (c ≠ c') → InRange P c k → InRange P c' k' → (∀ d m, ¬ (d = c ∧ m = k) → ¬ (d = c' ∧ m = k') →
        nodeAt (swapNodes P a i b j) d m = nodeAt P d m) → nodeAt (swapNodes P a i b j) c' k' = nodeAt P c k → (D x y ∨ D y x) →
        x = nodeAt P c k → False := by
      intro c k c' k' x y hcc h1 h2 hoth hmv hd hx
      -- the partner's place before
      obtain ⟨m, l1, l2, g1, g2, g3, g4⟩ : ∃ m l1 l2, InRange P m l1 ∧ InRange P m l2 ∧ nodeAt P m l1 = x ∧ nodeAt P m l2 = y := by
        rcases hd with hd | hd
        · obtain ⟨m, l1, l2, g1, g2, g3, g4⟩ := hT x y hd; exact ⟨m, l1, l2, g1, g2, g3, g4⟩
        · obtain ⟨m, l1, l2, g1, g2, g3, g4⟩ := hT y x hd; exact ⟨m, l2, l1, g2, g1, g4, g3⟩
      obtain ⟨r1, r2⟩ := nodeAt_inj hnd g1 h1 (g3.trans hx)
      subst r1
      have hl2 : l2 ≠ k := by
        rintro rfl
        rw [r2] at g3
        have hxy : x = y := g3.symm.trans g4
        subst hxy
        have hd' : D x x := by rcases hd with h | h <;> exact h
        obtain ⟨z, k1, k2, _, hk, _, f1, f2⟩ := hRp x x hd'
        obtain ⟨_, e⟩ := nodeAt_inj hnd' ⟨by assumption, by omega⟩ ⟨by assumption, by assumption⟩ (f1.trans f2.symm)
        omega
      have e1 : nodeAt (swapNodes P a i b j) m l2 = y := by
        rw [hoth m l2 (by rintro ⟨_, h⟩; exact hl2 h) (by rintro ⟨h, _⟩; exact hcc h)]; exact g4
      have e2 : nodeAt (swapNodes P a i b j) c' k' = x := hmv.trans hx.symm
      rcases hd with hd | hd
      · exact hcc (after hd (rng h2) (rng g2) e2 e1).1.symm
      · exact hcc (after hd (rng g2) (rng h2) e1 e2).1
    refine ⟨fun v => ⟨fun hd => ?_, fun hd => ?_⟩, fun v => ⟨fun hd => ?_, fun hd => ?_⟩⟩
    · exact key hab hIa hIb q3 q2 (Or.inl hd) rfl
    · exact key hab hIa hIb q3 q2 (Or.inr hd) rfl
    · exact key (Ne.symm hab) hIb hIa (fun d m h1 h2 => q3 d m h2 h1) q1 (Or.inl hd) rfl
    · exact key (Ne.symm hab) hIb hIa (fun d m h1 h2 => q3 d m h2 h1) q1 (Or.inr hd) rfl
  refine ⟨fun hab => hfree _ (nodeAt_lt hlt hIa) (free hab).1, ?_⟩
  unfold skipJ
  by_cases hab : a = b
  · subst hab
    have hij' := hij rfl
    have hwb : wouldBreak deps P a (nodeAt P a i) (nodeAt P a j) i j = false := by
      unfold wouldBreak
      rw [List.any_eq_false]
      intro k hk
      rw [List.mem_range'_1] at hk
      have hk1 : InRange P a k := ⟨ha, by omega⟩
      have hk2 : InRange P a (k + 1) := ⟨ha, by omega⟩
      simp only [Bool.or_eq_true, not_or]
      constructor
      · intro harc
        have hd := (hdeps.arc _ _ (nodeAt_lt hlt hIa) (nodeAt_lt hlt hk2)).1 harc
        by_cases hkj : k + 1 = j
        · rw [hkj] at hd
          have := (after hd (rng hIb) (rng hIa) q2 q1).2
          omega
        · have := (after hd (rng hIb) (rng hk2) q2 (q3 a (k + 1) (by omega) (by omega))).2
          omega
      · intro harc
        have hd := (hdeps.arc _ _ (nodeAt_lt hlt hk1) (nodeAt_lt hlt hIb)).1 harc
        by_cases hki : k = i
        · rw [hki] at hd
          have := (after hd (rng hIb) (rng hIa) q2 q1).2
          omega
        · have := (after hd (rng hk1) (rng hIa) (q3 a k (by omega) (by omega)) q1).2
          omega
    simp [hwb]
  · have := hfree _ (nodeAt_lt hlt hIb) (free hab).2
    simp [hab, this]

end

/-! ### the theorem -/

/-- what the dependency queries of the code mean, converse of `DepsAre.free` -/
theorem hasDeps_free {n : Nat} {wd : Weights} : ∀ u, u < n → (∀ v, ¬ DepIn n wd u v ∧ ¬ DepIn n wd v u) → hasDeps (DepGraph.make n wd) u = false := by
  intro u hu h
  obtain ⟨_, _, h3, h4, _, _⟩ := C16_queries_agree n wd
  obtain ⟨lo, ho, _, hom⟩ := h3 u hu
  obtain ⟨li, hi, _, him⟩ := h4 u hu
  unfold hasDeps
  rw [ho, hi]
  have e1 : lo = [] := List.eq_nil_iff_forall_not_mem.2 fun v hv => (h v).1 ((hom v).1 hv)
  have e2 : li = [] := List.eq_nil_iff_forall_not_mem.2 fun v hv => (h v).2 ((him v).1 hv)
  simp [e1, e2, spanNonempty]

theorem toLoop_stopped : ∀ (t : Nat) (s : TOState), s.improved = true → TOInv mode w P0 s → 0 < (toLoop mode w deps P0.length t s).2 →
    ∃ s', TOInv mode w P0 s' ∧ (toRound mode w deps P0.length s').improved = false ∧
      (toLoop mode w deps P0.length t s).1 = toRound mode w deps P0.length s'
  | 0, s, _, _, h => by simp [toLoop] at h
  | t + 1, s, hi, hI, h => by
    simp only [toLoop, hi, if_true] at h ⊢
    by_cases h' : (toRound mode w deps P0.length s).improved = true
    · exact toLoop_stopped t _ h' (toRound_inv hI).1 h
    · rw [Bool.not_eq_true] at h'
      refine ⟨s, hI, h', ?_⟩
      cases t with
      | zero => rfl
      | succ t => simp [toLoop, h']

/-- **C82.** If the improvement heuristic is not cut off by the deadline, its result cannot be improved by exchanging two inner nodes: for
every exchange whose result respects the dependencies the objective is at least as large.  The given paths only have to keep dependent nodes
together. -/
theorem C82_local_optimum (mode : Mode) (w : Weights) {n : Nat} {wd : Weights} (hA : 0 < P0.length) (hlt : ∀ x ∈ P0.flatten, x < n)
    (hnd : P0.flatten.Nodup) (h0 : Grouped (DepIn n wd) P0) :
    ∃ K, ∀ t, K ≤ t → ∀ Q v v', Exchanged (twoOpt mode P0 w (DepGraph.make n wd) t).1.1 Q → Respects (DepIn n wd) Q →
      IsObjective mode w (twoOpt mode P0 w (DepGraph.make n wd) t).1.1 v → IsObjective mode w Q v' → v ≤ v' := by
  set deps := DepGraph.make n wd with hdeps
  obtain ⟨K, r, hK⟩ := C31_terminates mode w deps P0 hA
  refine ⟨K, ?_⟩
  intro t ht Q v v' hex hres hv hv'
  have eT := hK t ht
  have eK := hK (K + 1) (by omega)
  have hT := twoOpt_together (mode := mode) (w := w) (t := t) hA (hdeps ▸ depsAre_make n wd) hlt (grouped_iff.1 h0)
  obtain ⟨s, hI, hq, hs⟩ := toLoop_stopped (deps := deps) (K + 1) _ rfl (TOInv.init mode w P0 hA true) (by
    have := congrArg Prod.snd eK
    unfold twoOpt at this
    dsimp only at this
    rw [this]; omega)
  obtain ⟨e1, e2⟩ := quiet_round hq
  have hp : (twoOpt mode P0 w deps t).1.1 = s.paths := by
    have : (twoOpt mode P0 w deps t).1.1 = (twoOpt mode P0 w deps (K + 1)).1.1 := by rw [eT, eK]
    rw [this]
    show (toLoop mode w deps P0.length (K + 1) _).1.paths = s.paths
    rw [hs, e1]
  rw [hp] at hex hv hT
  have hvc : v = calcObjective mode s.paths (fun _ => w) := by
    have := isObjective_calc mode w s.paths
    cases mode with
    | sum => exact Eq.trans hv (Eq.symm this)
    | max => exact isMaxCost_unique hv this
  have hvc' : v' = calcObjective mode Q (fun _ => w) := by
    have := isObjective_calc mode w Q
    cases mode with
    | sum => exact Eq.trans hv' (Eq.symm this)
    | max => exact isMaxCost_unique hv' this
  rw [hvc, hvc']
  obtain ⟨a, i, b, j, ha, hb, hab, hij, hi1, hi2, hj1, hj2, rfl⟩ := exchanged_swap hex
  have hlt' : ∀ x ∈ s.paths.flatten, x < n := fun x hx => hlt x (hI.shape.perm.mem_iff.1 hx)
  have hnd' : s.paths.flatten.Nodup := hI.shape.perm.nodup_iff.2 hnd
  obtain ⟨hf, hsk⟩ := skip_false_of_respects (hdeps ▸ depsAre_make n wd : DepsAre deps n (DepIn n wd)) hlt' hnd' (hdeps ▸ hasDeps_free) hT ha hb hij (by omega) (by omega) hres
  rw [hI.shape.len] at ha hb
  by_contra hc
  push Not at hc
  have hg := gain_pos hI ha hb hi1 hi2 hj1 hj2 hij hc
  have hrange : (getA2Range mode s.lens s.longest a).1 ≤ b ∧ b < (getA2Range mode s.lens s.longest a).2 ∨
      (mode = .max ∧ a ≠ s.longest ∧ b ≠ s.longest) := by
    have := hI.lensLen
    cases mode with
    | sum => left; simp only [getA2Range]; omega
    | max =>
      simp only [getA2Range]
      by_cases c1 : a < s.longest
      · rw [if_pos c1]
        by_cases c2 : b = s.longest
        · left; dsimp only; omega
        · right; exact ⟨trivial, by omega, c2⟩
      · rw [if_neg c1]
        by_cases c2 : a = s.longest
        · rw [if_pos c2]; left; dsimp only; omega
        · right; exact ⟨trivial, c2, by omega⟩
  rcases hrange with ⟨r1, r2⟩ | ⟨rfl, r1, r2⟩
  · have := e2 a b i j ha r1 r2 hi1 hi2 hj1 hij hj2 hf hsk
    linarith
  · have := swap_other hI hi1 hi2 hj1 hj2 hij r1 r2
    linarith

/-! Non-vacuity: the paths of the instance of C28-C31 meet the hypotheses, the heuristic is not cut off, and its result has an exchange that
respects the dependency `2` before `3` (the objective is 8, after the exchange 16). -/

theorem toExW_dep {u v : Nat} (h : DepIn 9 toExW u v) : u = 2 ∧ v = 3 := by
  obtain ⟨_, _, h3⟩ := h
  unfold toExW at h3
  split at h3
  · next h => exact ⟨h.2, h.1⟩
  · split at h3
    · norm_num at h3
    · split at h3 <;> norm_num at h3

theorem toExW_respects {P : Paths} (h : ∃ p ∈ P, [2, 3] <:+: p) : Respects (DepIn 9 toExW) P := by
  intro u v hd
  obtain ⟨rfl, rfl⟩ := toExW_dep hd
  obtain ⟨p, hp, s, t, e⟩ := h
  refine ⟨p, hp, ?_⟩
  rw [before_iff_pos]
  refine ⟨s.length, s.length + 1, by omega, ?_, ?_, ?_⟩ <;> simp [← e]

example : Grouped (DepIn 9 toExW) [[0, 7, 2, 3, 6], [4, 5, 1, 8]] ∧ ([[0, 7, 2, 3, 6], [4, 5, 1, 8]] : Paths).flatten.Nodup ∧ DepIn 9 toExW 2 3 :=
  ⟨grouped_iff.2 <| respects_together (toExW_respects ⟨[0, 7, 2, 3, 6], by simp, [0, 7], [6], rfl⟩), by decide, by decide, by decide, by decide +kernel⟩

example : let r := twoOpt .sum [[0, 7, 2, 3, 6], [4, 5, 1, 8]] toExW (DepGraph.make 9 toExW) 7
    (decide (r.1 = ([[0, 1, 2, 3, 6], [4, 7, 5, 8]], 8)) && decide (0 < r.2)) = true := by decide +kernel

example : Exchanged [[0, 1, 2, 3, 6], [4, 7, 5, 8]] [[0, 7, 2, 3, 6], [4, 1, 5, 8]] ∧
    Respects (DepIn 9 toExW) [[0, 7, 2, 3, 6], [4, 1, 5, 8]] := by
  refine ⟨⟨rfl, 0, 1, 1, 1, by decide, by decide, by decide, by decide, by decide, by decide, by decide, ?_⟩,
    toExW_respects ⟨[0, 7, 2, 3, 6], by simp, [0, 7], [6], rfl⟩⟩
  intro c k h1 h2
  match c, k with
  | 0, 0 => rfl
  | 0, 1 => exact absurd ⟨rfl, rfl⟩ h1
  | 0, k + 2 => rfl
  | 1, 0 => rfl
  | 1, 1 => exact absurd ⟨rfl, rfl⟩ h2
  | 1, k + 2 => rfl
  | c + 2, k => rfl

end Mtsp
