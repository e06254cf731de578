import Verif.Model.Checked
import Verif.Props.TwoOpt

/-! The checked improvement heuristic never fails (lemmas for C83). -/

namespace Mtsp

theorem bind_ok {α β : Type} (x : α) (f : α → Except Err β) : (Except.ok x >>= f) = f x := rfl
theorem pure_ok {α : Type} (x : α) : (pure x : Except Err α) = .ok x := rfl

theorem rd_ok {α : Type} {l : List α} {i : Nat} (d : α) (h : i < l.length) : rd l i = .ok (l.getD i d) := by
  unfold rd; simp [List.getD_eq_getElem?_getD, h]

theorem rd2_ok {P : Paths} {a i : Nat} (ha : a < P.length) (hi : i < (P.getD a []).length) : rd2 P a i = .ok (nodeAt P a i) := by
  unfold rd2; rw [rd_ok [] ha, bind_ok, rd_ok 0 hi]; rfl

theorem wr_ok {α : Type} {l : List α} {i : Nat} (x : α) (h : i < l.length) : wr l i x = .ok (l.set i x) := by simp [wr, h]

theorem wt_ok {n : Nat} {u v : Nat} (w : Weights) (hu : u < n) (hv : v < n) : wt n w u v = .ok (w u v) := by simp [wt, hu, hv]

theorem foldlM_eq {α β : Type} {f : β → α → Except Err β} {g : β → α → β} (I : β → Prop) : ∀ (l : List α) (b : β), I b →
    (∀ b x, x ∈ l → I b → f b x = .ok (g b x) ∧ I (g b x)) → l.foldlM f b = .ok (l.foldl g b) ∧ I (l.foldl g b)
  | [], b, h0, _ => ⟨rfl, h0⟩
  | x :: l, b, h0, h => by
    obtain ⟨h1, h2⟩ := h b x List.mem_cons_self h0
    rw [List.foldlM_cons, h1, bind_ok, List.foldl_cons]
    exact foldlM_eq I l _ h2 fun b y hy => h b y (List.mem_cons_of_mem _ hy)

theorem anyM_ok {α : Type} {f : α → Except Err Bool} {g : α → Bool} : ∀ (l : List α), (∀ x ∈ l, f x = .ok (g x)) → l.anyM f = .ok (l.any g)
  | [], _ => rfl
  | x :: l, h => by
    rw [List.anyM_cons, h x List.mem_cons_self, bind_ok, List.any_cons]
    cases g x with
    | true => rfl
    | false => simpa using anyM_ok l fun y hy => h y (List.mem_cons_of_mem _ hy)

variable {n : Nat} {mode : Mode} {w : Weights} {deps : DepGraph} {P0 : Paths}

theorem calcPathLengthC_ok {p : List Nat} (hp : ∀ x ∈ p, x < n) : calcPathLengthC n p w = .ok (calcPathLength p w) := by
  unfold calcPathLengthC calcPathLength
  refine (foldlM_eq (fun _ => True) _ _ trivial ?_).1
  intro b i hi _
  rw [List.mem_range'_1] at hi
  have hm : ∀ k, k < p.length → p.getD k 0 < n := by
    intro k hk
    refine hp _ ?_
    rw [List.getD_eq_getElem?_getD, List.getElem?_eq_getElem hk]; exact List.getElem_mem _
  rw [rd_ok 0 (show i - 1 < p.length by omega), bind_ok, rd_ok 0 (show i < p.length by omega), bind_ok,
    wt_ok _ (hm _ (by omega)) (hm _ (by omega))]
  exact ⟨rfl, trivial⟩

theorem path_mem {P : Paths} (h : ∀ x ∈ P.flatten, x < n) (a : Nat) : ∀ x ∈ P.getD a [], x < n := by
  intro x hx
  rw [List.getD_eq_getElem?_getD] at hx
  cases ha : P[a]? with
  | none => rw [ha] at hx; simp at hx
  | some p => rw [ha] at hx; exact h x (List.mem_flatten.2 ⟨p, List.mem_of_getElem? ha, hx⟩)

theorem calcObjectiveC_ok {P : Paths} (h : ∀ x ∈ P.flatten, x < n) : calcObjectiveC n mode P w = .ok (calcObjective mode P fun _ => w) := by
  unfold calcObjectiveC calcObjective
  refine (foldlM_eq (fun _ => True) _ _ trivial ?_).1
  intro b a ha _
  rw [rd_ok [] (List.mem_range.1 ha), bind_ok, calcPathLengthC_ok (path_mem h a), bind_ok]
  exact ⟨rfl, trivial⟩

theorem pathsInfoInitC_ok {P : Paths} (h : ∀ x ∈ P.flatten, x < n) : pathsInfoInitC n mode P w = .ok (pathsInfoInit mode P w) := by
  cases mode with
  | sum => rfl
  | max =>
    unfold pathsInfoInitC pathsInfoInit
    refine (foldlM_eq (fun b => b.1.length = P.length ∧ (b.2 < P.length ∨ b.2 = 0)) _ _ (by simp) ?_).1
    rintro b a ha ⟨h1, h2⟩
    have ha := List.mem_range.1 ha
    have hs : ∀ x, (b.1.set a x).length = P.length := fun x => by rw [List.length_set, h1]
    rw [rd_ok [] ha, bind_ok, calcPathLengthC_ok (path_mem h a), bind_ok, wr_ok _ (by omega), bind_ok,
      rd_ok 0 (by rw [hs]; exact ha), bind_ok, rd_ok 0 (by rw [hs]; omega), bind_ok]
    refine ⟨rfl, hs _, ?_⟩
    dsimp only
    split
    · exact Or.inl ha
    · exact h2

theorem overallImprovementC_ok {lens : List ℚ} {longest : Nat} (h : longest < lens.length) (a1 : Nat) (i1 : ℚ) (a2 : Nat) (i2 : ℚ) :
    overallImprovementC mode lens longest a1 i1 a2 i2 = .ok (overallImprovement mode lens longest a1 i1 a2 i2) := by
  cases mode with
  | sum => rfl
  | max =>
    unfold overallImprovementC overallImprovement
    dsimp only
    rw [rd_ok 0 h, bind_ok, (foldlM_eq (g := fun o a => if lens.getD a 0 - (if a = a1 then i1 else 0) - (if a = a2 then i2 else 0) > o
        then lens.getD a 0 - (if a = a1 then i1 else 0) - (if a = a2 then i2 else 0) else o) (fun _ => True) _ _ trivial ?_).1, bind_ok, pure_ok]
    intro b a ha _
    rw [rd_ok 0 (List.mem_range.1 ha), bind_ok]
    exact ⟨rfl, trivial⟩

theorem applyImprovementC_ok {lens : List ℚ} {longest a1 a2 : Nat} (h1 : a1 < lens.length) (h2 : a2 < lens.length) (i1 i2 : ℚ) :
    applyImprovementC mode lens longest a1 i1 a2 i2 = .ok (applyImprovement mode lens longest a1 i1 a2 i2) := by
  cases mode with
  | sum => rfl
  | max =>
    unfold applyImprovementC applyImprovement
    dsimp only
    rw [rd_ok 0 h1, bind_ok, wr_ok _ h1, bind_ok, rd_ok 0 (by rw [List.length_set]; exact h2), bind_ok,
      wr_ok _ (by rw [List.length_set]; exact h2), bind_ok]
    generalize hl : (lens.set a1 (lens.getD a1 0 - i1)).set a2 ((lens.set a1 (lens.getD a1 0 - i1)).getD a2 0 - i2) = lens2
    have hlen : lens2.length = lens.length := by rw [← hl, List.length_set, List.length_set]
    rw [(foldlM_eq (g := fun l a => if lens2.getD a 0 > lens2.getD l 0 then a else l) (fun l => l < lens2.length) _ _ (by omega) ?_).1, bind_ok, pure_ok]
    intro b a ha hb
    rw [List.mem_range'_1] at ha
    rw [rd_ok 0 (by omega), bind_ok, rd_ok 0 hb, bind_ok]
    refine ⟨rfl, ?_⟩
    split <;> omega

theorem hasDepsC_ok {u : Nat} (hi : u < deps.inSpans.length) (ho : u < deps.outSpans.length) : hasDepsC deps u = .ok (hasDeps deps u) := by
  have h1 : deps.getIncomingSpan u = .ok ((deps.incoming.drop deps.inSpans[u].1).take (deps.inSpans[u].2 - deps.inSpans[u].1)) := by
    simp [DepGraph.getIncomingSpan, getSpan, hi]
  have h2 : deps.getOutgoingSpan u = .ok ((deps.outgoing.drop deps.outSpans[u].1).take (deps.outSpans[u].2 - deps.outSpans[u].1)) := by
    simp [DepGraph.getOutgoingSpan, getSpan, ho]
  unfold hasDepsC hasDeps
  rw [h1, h2, bind_ok]
  simp only [spanNonempty]
  split
  · next h => rw [h]; rfl
  · next h =>
    rw [bind_ok, pure_ok]
    rw [Bool.not_eq_true] at h
    rw [h, Bool.false_or]

/-- the graph is one for `n` nodes -/
structure DepGraph.Sized (deps : DepGraph) (n : Nat) : Prop where
  size : deps.n = n
  inLen : deps.inSpans.length = n
  outLen : deps.outSpans.length = n

theorem spanFold_length (n : Nat) (f : Nat → Nat → Bool) : ∀ (l : List Nat) (b : List Nat × List (Nat × Nat)),
    (l.foldl (spanStep n f) b).2.length = b.2.length + l.length
  | [], b => rfl
  | x :: l, b => by
    rw [List.foldl_cons, spanFold_length n f l]
    simp [spanStep]; omega

theorem sized_make (n : Nat) (w : Weights) : (DepGraph.make n w).Sized n :=
  ⟨rfl, by simp [DepGraph.make, spanFold_length], by simp [DepGraph.make, spanFold_length]⟩

section step
variable {s : TOState} {a1 a2 i j u : Nat}

theorem wouldBreakC_ok (hd : deps.Sized n) {P : Paths} (hn : ∀ x ∈ P.flatten, x < n) {v : Nat} (ha : a1 < P.length) (hj : j < (P.getD a1 []).length)
    (hu : u < n) (hv : v < n) : wouldBreakC deps P a1 u v i j = .ok (wouldBreak deps P a1 u v i j) := by
  unfold wouldBreakC wouldBreak
  refine anyM_ok _ ?_
  intro k hk
  rw [List.mem_range'_1] at hk
  have k1 : InRange P a1 k := ⟨ha, by omega⟩
  have k2 : InRange P a1 (k + 1) := ⟨ha, by omega⟩
  rw [rd2_ok k2.1 k2.2, bind_ok]
  unfold hasArcC
  rw [if_pos (by rw [hd.size]; exact ⟨hu, nodeAt_lt hn k2⟩), bind_ok, rd2_ok k1.1 k1.2, bind_ok]
  cases deps.hasArc u (nodeAt P a1 (k + 1)) with
  | true => rfl
  | false =>
    rw [if_neg (by simp), if_pos (by rw [hd.size]; exact ⟨nodeAt_lt hn k1, hv⟩)]; simp

theorem skipJC_ok (hd : deps.Sized n) {P : Paths} (hn : ∀ x ∈ P.flatten, x < n) {v : Nat} (ha : a1 < P.length) (hj : a1 = a2 → j < (P.getD a1 []).length)
    (hu : u < n) (hv : v < n) : skipJC deps P a1 a2 u v i j = .ok (skipJ deps P a1 a2 u v i j) := by
  unfold skipJC skipJ
  by_cases h1 : deps.isEmpty = true
  · simp [h1]
  · rw [if_neg h1]
    by_cases h2 : a1 = a2
    · rw [if_neg (by simpa using h2), wouldBreakC_ok hd hn ha (hj h2) hu hv]; simp [h1, h2]
    · rw [if_pos h2, hasDepsC_ok (by rw [hd.inLen]; exact hv) (by rw [hd.outLen]; exact hv)]; simp [h1, h2]

theorem swapGainC_ok {P : Paths} (hn : ∀ x ∈ P.flatten, x < n) (ha1 : a1 < P.length) (ha2 : a2 < P.length) (hi1 : 1 ≤ i)
    (hi2 : i + 1 < (P.getD a1 []).length) (hj1 : 1 ≤ j) (hj2 : j + 1 < (P.getD a2 []).length) :
    swapGainC n w P a1 i a2 j = .ok (swapGain w P a1 i a2 j) := by
  have r : ∀ {a k}, a < P.length → k < (P.getD a []).length → nodeAt P a k < n := fun h1 h2 => nodeAt_lt hn ⟨h1, h2⟩
  unfold swapGainC swapGain
  by_cases hc : a1 = a2 ∧ j = i + 1
  · rw [if_pos hc, if_pos hc]
    obtain ⟨rfl, rfl⟩ := hc
    have m1 := r ha1 (show i - 1 < _ by omega)
    have m2 := r ha1 (show i < _ by omega)
    have m3 := r ha1 (show i + 1 < _ by omega)
    have m4 := r ha1 (show i + 2 < _ by omega)
    rw [rd2_ok ha1 (by omega), bind_ok, rd2_ok ha1 (by omega), bind_ok, rd2_ok ha1 (by omega), bind_ok, rd2_ok ha1 (by omega), bind_ok]
    simp only [wt_ok w m1 m2, wt_ok w m2 m3, wt_ok w m3 m4, wt_ok w m1 m3, wt_ok w m3 m2, wt_ok w m2 m4, bind_ok, pure_ok]
  · rw [if_neg hc, if_neg hc]
    have m1 := r ha1 (show i - 1 < _ by omega)
    have m2 := r ha1 (show i < _ by omega)
    have m3 := r ha1 (show i + 1 < _ by omega)
    have m4 := r ha2 (show j - 1 < _ by omega)
    have m5 := r ha2 (show j < _ by omega)
    have m6 := r ha2 (show j + 1 < _ by omega)
    rw [rd2_ok ha1 (by omega), bind_ok, rd2_ok ha1 (by omega), bind_ok, rd2_ok ha1 (by omega), bind_ok,
      rd2_ok ha2 (by omega), bind_ok, rd2_ok ha2 (by omega), bind_ok, rd2_ok ha2 (by omega), bind_ok]
    simp only [wt_ok w m1 m2, wt_ok w m2 m3, wt_ok w m1 m5, wt_ok w m5 m3, wt_ok w m4 m5, wt_ok w m5 m6, wt_ok w m4 m2, wt_ok w m2 m6, bind_ok, pure_ok]

theorem setNode_set {P : Paths} {a k v : Nat} (ha : a < P.length) : P.set a ((P.getD a []).set k v) = setNode P a k v := by
  unfold setNode
  rw [List.modify_eq_set_getElem?]
  simp [List.getD_eq_getElem?_getD, ha]

theorem swapNodesC_ok {P : Paths} (ha1 : a1 < P.length) (ha2 : a2 < P.length) (hi : i < (P.getD a1 []).length) (hj : j < (P.getD a2 []).length) :
    swapNodesC P a1 i a2 j = .ok (swapNodes P a1 i a2 j) := by
  unfold swapNodesC swapNodes
  rw [rd2_ok ha1 hi, bind_ok, rd2_ok ha2 hj, bind_ok, rd_ok [] ha1, bind_ok, wr_ok _ hi, bind_ok, wr_ok _ ha1, bind_ok, setNode_set ha1]
  have hl : (setNode P a1 i (nodeAt P a2 j)).length = P.length := by unfold setNode; rw [List.length_modify]
  have hp : ((setNode P a1 i (nodeAt P a2 j)).getD a2 []).length = (P.getD a2 []).length := by
    unfold setNode
    simp only [List.getD_eq_getElem?_getD, List.getElem?_modify]
    split
    · cases P[a2]? <;> simp
    · simp
  rw [rd_ok [] (by omega), bind_ok, wr_ok _ (by omega), bind_ok, wr_ok _ (by omega), setNode_set (by omega)]

theorem toStepJC_ok (hd : deps.Sized n) (hI : TOInv mode w P0 s) (hn : ∀ x ∈ P0.flatten, x < n) (hv : Visit P0 deps a1 a2 i u) (hu : u < n)
    (hj1 : 1 ≤ j) (hj2 : j + 1 < (P0.getD a2 []).length) :
    toStepJC n mode w deps a1 a2 i u s j = .ok (toStepJ mode w deps a1 a2 i u s j) := by
  have hn' : ∀ x ∈ s.paths.flatten, x < n := fun x hx => hn x (hI.shape.perm.mem_iff.1 hx)
  have ha1 : a1 < s.paths.length := by rw [hI.shape.len]; exact hv.h1
  have ha2 : a2 < s.paths.length := by rw [hI.shape.len]; exact hv.h2
  have hi2 : i + 1 < (s.paths.getD a1 []).length := by rw [hI.shape.plen]; exact hv.i2
  have hj2' : j + 1 < (s.paths.getD a2 []).length := by rw [hI.shape.plen]; exact hj2
  have l1 : a1 < s.lens.length := by rw [hI.lensLen]; exact hv.h1
  have l2 : a2 < s.lens.length := by rw [hI.lensLen]; exact hv.h2
  have l3 : s.longest < s.lens.length := by rw [hI.lensLen]; exact hI.longest
  have hvn : nodeAt s.paths a2 j < n := nodeAt_lt hn' ⟨ha2, by omega⟩
  unfold toStepJC toStepJ
  rw [rd2_ok ha2 (by omega), bind_ok, skipJC_ok hd hn' ha1 (fun e => by rw [e]; omega) hu hvn, bind_ok]
  dsimp only
  by_cases hs : skipJ deps s.paths a1 a2 u (nodeAt s.paths a2 j) i j = true
  · rw [if_pos hs, if_pos hs]; rfl
  · rw [if_neg hs, if_neg hs, swapGainC_ok hn' ha1 ha2 hv.i1 hi2 hj1 hj2', bind_ok, overallImprovementC_ok l3, bind_ok]
    by_cases hp : overallImprovement mode s.lens s.longest a1 (swapGain w s.paths a1 i a2 j).1 a2 (swapGain w s.paths a1 i a2 j).2 > 0
    · rw [if_pos hp, if_pos hp, swapNodesC_ok ha1 ha2 (by omega) (by omega), bind_ok, applyImprovementC_ok l1 l2, bind_ok]; rfl
    · rw [if_neg hp, if_neg hp]; rfl

theorem toStepJ_inv (hI : TOInv mode w P0 s) (hv : Visit P0 deps a1 a2 i u) (hj1 : 1 ≤ j) (hlt : a1 = a2 → i < j) (hj2 : j + 1 < (P0.getD a2 []).length) :
    TOInv mode w P0 (toStepJ mode w deps a1 a2 i u s j) := by
  rcases stepJ_cases (mode := mode) (w := w) (deps := deps) (a1 := a1) (a2 := a2) (i := i) (u := u) (j := j) (s := s) with e | ⟨_, hpos, e⟩
  · rw [e]; exact hI
  · rw [e]
    exact hI.swap hv.h1 hv.h2 hv.i1 (by rw [hI.shape.plen]; exact hv.i2) hj1 (by rw [hI.shape.plen]; exact hj2) hlt hpos

theorem toStepIC_ok (hd : deps.Sized n) (hn : ∀ x ∈ P0.flatten, x < n) (hI : TOInv mode w P0 s) (h1 : a1 < P0.length) (h2 : a2 < P0.length)
    (hi1 : 1 ≤ i) (hi2 : i + 1 < (P0.getD a1 []).length) (hne : ∀ a < P0.length, P0.getD a [] ≠ []) :
    toStepIC n mode w deps a1 a2 s i = .ok (toStepI mode w deps a1 a2 s i) ∧ TOInv mode w P0 (toStepI mode w deps a1 a2 s i) := by
  have hn' : ∀ x ∈ s.paths.flatten, x < n := fun x hx => hn x (hI.shape.perm.mem_iff.1 hx)
  have ha1 : a1 < s.paths.length := by rw [hI.shape.len]; exact h1
  have ha2 : a2 < s.paths.length := by rw [hI.shape.len]; exact h2
  have hi2' : i + 1 < (s.paths.getD a1 []).length := by rw [hI.shape.plen]; exact hi2
  have hu : nodeAt s.paths a1 i < n := nodeAt_lt hn' ⟨ha1, by omega⟩
  have hl2 : (s.paths.getD a2 []).length ≠ 0 := by rw [hI.shape.plen]; simpa using hne a2 h2
  unfold toStepIC toStepI
  rw [rd2_ok ha1 (by omega), bind_ok]
  dsimp only
  have hcond : (if a1 ≠ a2 then hasDepsC deps (nodeAt s.paths a1 i) else .ok false) = .ok (decide (a1 ≠ a2 ∧ hasDeps deps (nodeAt s.paths a1 i) = true)) := by
    by_cases e : a1 = a2
    · simp [e]
    · rw [if_pos e, hasDepsC_ok (by rw [hd.inLen]; exact hu) (by rw [hd.outLen]; exact hu)]; simp [e]
  rw [hcond, bind_ok]
  by_cases hc : a1 ≠ a2 ∧ hasDeps deps (nodeAt s.paths a1 i) = true
  · rw [if_pos (by simpa using hc), if_pos hc]; exact ⟨rfl, hI⟩
  · rw [if_neg (by simpa using hc), if_neg hc, rd_ok [] ha2, bind_ok]
    unfold pred
    rw [if_neg hl2, bind_ok]
    have hv : Visit P0 deps a1 a2 i (nodeAt s.paths a1 i) := ⟨h1, h2, hi1, hi2, fun e => by
      rw [← Bool.not_eq_true]; exact fun h => hc ⟨e, h⟩⟩
    have hpl := hI.shape.plen a2
    refine foldlM_eq (TOInv mode w P0) _ _ hI ?_
    intro b j hj hb
    rw [List.mem_range'_1, hpl] at hj
    have hj' : 1 ≤ j ∧ (a1 = a2 → i < j) := by
      by_cases e : a1 = a2
      · rw [if_pos e] at hj; exact ⟨by omega, fun _ => by omega⟩
      · rw [if_neg e] at hj; exact ⟨by omega, fun h => absurd h e⟩
    exact ⟨toStepJC_ok hd hb hn hv hu hj'.1 (by omega), toStepJ_inv hb hv hj'.1 hj'.2 (by omega)⟩

theorem toRoundC_ok (hd : deps.Sized n) (hn : ∀ x ∈ P0.flatten, x < n) (hI : TOInv mode w P0 s) (hne : ∀ a < P0.length, P0.getD a [] ≠ []) :
    toRoundC n mode w deps P0.length s = .ok (toRound mode w deps P0.length s) ∧ TOInv mode w P0 (toRound mode w deps P0.length s) := by
  unfold toRoundC toRound
  refine foldlM_eq (TOInv mode w P0) _ _ ⟨hI.shape, hI.lensLen, hI.longest, hI.info, hI.obj⟩ ?_
  intro s a1 ha1 hI
  have ha1 := List.mem_range.1 ha1
  have hr := a2range_lt hI a1
  unfold toStepA1C toStepA1
  refine foldlM_eq (TOInv mode w P0) _ _ hI ?_
  intro s a2 ha2 hI
  rw [List.mem_range'_1] at ha2
  have ha2 : a2 < P0.length := by omega
  unfold toStepA2C toStepA2
  have hl : (s.paths.getD a1 []).length ≠ 0 := by rw [hI.shape.plen]; simpa using hne a1 ha1
  have hpl := hI.shape.plen a1
  rw [rd_ok [] (by rw [hI.shape.len]; exact ha1), bind_ok]
  unfold pred
  rw [if_neg hl, bind_ok]
  refine foldlM_eq (TOInv mode w P0) _ _ hI ?_
  intro s i hi hI
  rw [List.mem_range'_1, hpl] at hi
  exact toStepIC_ok hd hn hI ha1 ha2 (by omega) (by omega) hne

theorem toLoopC_ok (hd : deps.Sized n) (hn : ∀ x ∈ P0.flatten, x < n) (hne : ∀ a < P0.length, P0.getD a [] ≠ []) : ∀ (t : Nat) (s : TOState), TOInv mode w P0 s →
    toLoopC n mode w deps P0.length t s = .ok (toLoop mode w deps P0.length t s)
  | 0, s, _ => rfl
  | t + 1, s, hI => by
    unfold toLoopC toLoop
    split
    · obtain ⟨h1, h2⟩ := toRoundC_ok hd hn hI hne
      rw [h1, bind_ok]
      exact toLoopC_ok hd hn hne t _ h2
    · rfl

end step

theorem toLoop_nil {t : Nat} {s : TOState} : toLoopC n mode w deps 0 t s = .ok (toLoop mode w deps 0 t s) := by
  induction t generalizing s with
  | zero => rfl
  | succ t ih =>
    unfold toLoopC toLoop
    split
    · have : toRoundC n mode w deps 0 s = .ok (toRound mode w deps 0 s) := rfl
      rw [this, bind_ok, ih]
    · rfl

theorem twoOptC_ok (hd : deps.Sized n) (hn : ∀ x ∈ P0.flatten, x < n) (hne : ∀ p ∈ P0, p ≠ []) (t : Nat) :
    twoOptC n mode P0 w deps t = .ok (twoOpt mode P0 w deps t) := by
  unfold twoOptC twoOpt
  rw [pathsInfoInitC_ok hn, bind_ok]
  dsimp only
  by_cases hA : P0.length = 0
  · rw [hA, toLoop_nil, bind_ok]; rfl
  · rw [toLoopC_ok hd hn ?_ t _ (TOInv.init mode w P0 (by omega) true), bind_ok]
    · rfl
    · intro a ha
      refine hne _ ?_
      rw [List.getD_eq_getElem?_getD, List.getElem?_eq_getElem ha]
      exact List.getElem_mem _

end Mtsp
