import Verif.Proof.DoublesRound
import Verif.Proof.TwoOpt

/-! With integral weights of moderate size no operation of the heuristics rounds. -/

namespace Mtsp

/-- an integer of absolute value at most `b` -/
structure Small (b q : ℚ) : Prop where
  int : ∃ z : ℤ, q = z
  le : |q| ≤ b

theorem Small.zero {b : ℚ} (h : 0 ≤ b) : Small b 0 := ⟨⟨0, by simp⟩, by simpa using h⟩

theorem Small.mono {b c q : ℚ} (h : Small b q) (hbc : b ≤ c) : Small c q := ⟨h.int, le_trans h.le hbc⟩

theorem Small.nonneg {b q : ℚ} (h : Small b q) : 0 ≤ b := le_trans (abs_nonneg _) h.le

theorem Small.add {b c p q : ℚ} (h : Small b p) (k : Small c q) : Small (b + c) (p + q) := by
  obtain ⟨⟨x, rfl⟩, h2⟩ := h
  obtain ⟨⟨y, rfl⟩, k2⟩ := k
  exact ⟨⟨x + y, by push_cast; rfl⟩, le_trans (abs_add_le _ _) (add_le_add h2 k2)⟩

theorem Small.sub {b c p q : ℚ} (h : Small b p) (k : Small c q) : Small (b + c) (p - q) := by
  obtain ⟨⟨x, rfl⟩, h2⟩ := h
  obtain ⟨⟨y, rfl⟩, k2⟩ := k
  exact ⟨⟨x - y, by push_cast; rfl⟩, le_trans (abs_sub _ _) (add_le_add h2 k2)⟩

theorem Small.max {b p q : ℚ} (h : Small b p) (k : Small b q) : Small b (max p q) := by
  rcases max_choice p q with e | e <;> rw [e] <;> assumption

theorem Rounding.exact {fl : ℚ → ℚ} (h : Rounding fl) {b q : ℚ} (hq : Small b q) (hb : b ≤ 2 ^ 53) : fl q = q := by
  obtain ⟨⟨z, rfl⟩, h2⟩ := hq
  exact h.int z (le_trans h2 hb)

/-- integral weights between the first `n` nodes, of absolute value at most 2^31 -/
def SmallW (n : Nat) (w : Weights) : Prop := ∀ i j, i < n → j < n → Small (2 ^ 31) (w i j)

theorem foldl_fl_sum {α : Type} {fl : ℚ → ℚ} (h : Rounding fl) (f c : α → ℚ) (l : List α) (hf : ∀ x ∈ l, Small (c x) (f x)) :
    ∀ (b o : ℚ), Small b o → b + (l.map c).sum ≤ 2 ^ 53 →
      l.foldl (fun o x => fl (o + f x)) o = l.foldl (fun o x => o + f x) o ∧
      Small (b + (l.map c).sum) (l.foldl (fun o x => o + f x) o) := by
  induction l with
  | nil => intro b o ho hb; exact ⟨rfl, by simpa using ho⟩
  | cons x l ih =>
    intro b o ho hb
    have hx := hf x (by simp)
    have hnn : 0 ≤ (l.map c).sum := List.sum_nonneg (by
      intro y hy
      obtain ⟨z, hz, rfl⟩ := List.mem_map.1 hy
      exact (hf z (List.mem_cons_of_mem _ hz)).nonneg)
    simp only [List.map_cons, List.sum_cons] at hb ⊢
    have hs := ho.add hx
    have e : fl (o + f x) = o + f x := h.exact hs (by linarith)
    simp only [List.foldl_cons, e]
    rw [← add_assoc]
    exact ih (fun y hy => hf y (List.mem_cons_of_mem _ hy)) (b + c x) _ hs (by rw [add_assoc]; exact hb)

theorem getD_lt {n : Nat} {p : List Nat} (hp : ∀ x ∈ p, x < n) {i : Nat} (hi : i < p.length) : p.getD i 0 < n := by
  rw [List.getD_eq_getElem?_getD, List.getElem?_eq_getElem hi]
  exact hp _ (List.getElem_mem _)

theorem calcPathLengthF_eq {fl : ℚ → ℚ} (h : Rounding fl) {n : Nat} {w : Weights} (hw : SmallW n w) {p : List Nat}
    (hp : ∀ x ∈ p, x < n) (hl : (p.length : ℚ) ≤ 2 ^ 19) :
    calcPathLengthF fl p w = calcPathLength p w ∧ Small (2 ^ 31 * p.length) (calcPathLength p w) := by
  unfold calcPathLengthF calcPathLength
  have hsum : ((List.range' 1 (p.length - 1)).map fun _ => (2 ^ 31 : ℚ)).sum ≤ 2 ^ 31 * p.length := by
    rw [List.map_const', List.sum_replicate, nsmul_eq_mul, mul_comm, List.length_range']
    refine mul_le_mul_of_nonneg_left ?_ (by norm_num)
    exact_mod_cast Nat.sub_le _ _
  obtain ⟨h1, h2⟩ := foldl_fl_sum h (fun i => w (p.getD (i - 1) 0) (p.getD i 0)) (fun _ => 2 ^ 31) (List.range' 1 (p.length - 1))
    (by
      intro i hi
      rw [List.mem_range'_1] at hi
      exact hw _ _ (getD_lt hp (by omega)) (getD_lt hp (by omega))) 0 0 (Small.zero (le_refl _)) (by
      rw [zero_add]; refine le_trans hsum ?_; nlinarith)
  refine ⟨h1, h2.mono ?_⟩
  rw [zero_add]; exact hsum

theorem length_getD_le (P : Paths) (a : Nat) : (P.getD a []).length ≤ P.flatten.length := by
  induction P generalizing a with
  | nil => simp
  | cons p P ih =>
    cases a with
    | zero => simp
    | succ a => have := ih a; simp only [List.getD_cons_succ, List.flatten_cons, List.length_append]; omega

theorem getD_mem_or (P : Paths) (a : Nat) : P.getD a [] ∈ P ∨ P.getD a [] = [] := by
  by_cases h : a < P.length
  · left; rw [List.getD_eq_getElem?_getD, List.getElem?_eq_getElem h]; exact List.getElem_mem _
  · right; rw [List.getD_eq_getElem?_getD, List.getElem?_eq_none (by omega)]; rfl

/-- paths through the first `n` nodes with at most 2^19 nodes in total -/
structure FitPaths (n : Nat) (P : Paths) : Prop where
  lt : ∀ x ∈ P.flatten, x < n
  len : (P.flatten.length : ℚ) ≤ 2 ^ 19

theorem FitPaths.path {n : Nat} {P : Paths} (h : FitPaths n P) (a : Nat) :
    (∀ x ∈ P.getD a [], x < n) ∧ ((P.getD a []).length : ℚ) ≤ 2 ^ 19 := by
  refine ⟨?_, le_trans (by exact_mod_cast length_getD_le P a) h.len⟩
  intro x hx
  rcases getD_mem_or P a with hm | hm
  · exact h.lt x (List.mem_flatten.2 ⟨_, hm, hx⟩)
  · rw [hm] at hx; simp at hx

theorem FitPaths.node {n : Nat} {P : Paths} (h : FitPaths n P) {a i : Nat} (hi : i < (P.getD a []).length) : nodeAt P a i < n :=
  getD_lt (h.path a).1 hi

theorem sum_lengths (P : Paths) : ((List.range P.length).map fun a => (2 ^ 31 * ((P.getD a []).length : ℚ))).sum =
    2 ^ 31 * (P.flatten.length : ℚ) := by
  induction P with
  | nil => simp
  | cons p P ih =>
    rw [List.length_cons, List.range_succ_eq_map, List.map_cons, List.sum_cons, List.map_map]
    have : ((fun a => (2 ^ 31 * (((p :: P).getD a []).length : ℚ))) ∘ Nat.succ) = fun a => (2 ^ 31 * ((P.getD a []).length : ℚ)) := by
      funext a; simp
    rw [this, ih]
    simp only [List.getD_cons_zero, List.flatten_cons, List.length_append]
    push_cast; ring

theorem foldl_max_small {α : Type} (f : α → ℚ) (b : ℚ) (l : List α) (hf : ∀ x ∈ l, Small b (f x)) (o : ℚ) (ho : Small b o) :
    Small b (l.foldl (fun o x => max (f x) o) o) := by
  induction l generalizing o with
  | nil => exact ho
  | cons x l ih => exact ih (fun y hy => hf y (List.mem_cons_of_mem _ hy)) _ ((hf x (by simp)).max ho)

theorem calcObjectiveF_eq {fl : ℚ → ℚ} (h : Rounding fl) {n : Nat} {w : Weights} (hw : SmallW n w) {P : Paths}
    (hP : FitPaths n P) (mode : Mode) :
    calcObjectiveF fl mode P (fun _ => w) = calcObjective mode P (fun _ => w) ∧
    Small (2 ^ 31 * (P.flatten.length : ℚ)) (calcObjective mode P fun _ => w) := by
  have hL : ∀ a, calcPathLengthF fl (P.getD a []) w = calcPathLength (P.getD a []) w := fun a =>
    (calcPathLengthF_eq h hw (hP.path a).1 (hP.path a).2).1
  have hS : ∀ a, Small (2 ^ 31 * ((P.getD a []).length : ℚ)) (calcPathLength (P.getD a []) w) := fun a =>
    (calcPathLengthF_eq h hw (hP.path a).1 (hP.path a).2).2
  cases mode with
  | sum =>
    simp only [calcObjectiveF, calcObjective, hL]
    obtain ⟨h1, h2⟩ := foldl_fl_sum h (fun a => calcPathLength (P.getD a []) w) (fun a => 2 ^ 31 * ((P.getD a []).length : ℚ))
      (List.range P.length) (fun a _ => hS a) 0 0 (Small.zero (le_refl _)) (by
        rw [sum_lengths, zero_add]; have := hP.len; nlinarith)
    rw [sum_lengths, zero_add] at h2
    exact ⟨h1, h2⟩
  | max =>
    simp only [calcObjectiveF, calcObjective, hL, true_and]
    refine foldl_max_small _ _ _ (fun a _ => (hS a).mono ?_) 0 (Small.zero (by positivity))
    refine mul_le_mul_of_nonneg_left ?_ (by norm_num)
    exact_mod_cast length_getD_le P a

/-! ### 2-opt -/

theorem costAt_small {n : Nat} {w : Weights} (hw : SmallW n w) {P : Paths} (hP : FitPaths n P) (a : Nat) :
    Small (2 ^ 50) (costAt w P a) := by
  have := (calcPathLengthF_eq roundDouble_rounding hw (hP.path a).1 (hP.path a).2).2
  rw [calcPathLength_eq] at this
  refine this.mono ?_
  have := (hP.path a).2
  nlinarith

theorem swapGain_small {fl : ℚ → ℚ} (h : Rounding fl) {n : Nat} {w : Weights} (hw : SmallW n w) {P : Paths} (hP : FitPaths n P)
    {a1 i a2 j : Nat} (hi2 : i + 1 < (P.getD a1 []).length) (hj2 : j + 1 < (P.getD a2 []).length) :
    swapGainF fl w P a1 i a2 j = swapGain w P a1 i a2 j ∧ Small (2 ^ 34) (swapGain w P a1 i a2 j).1 ∧
    Small (2 ^ 34) (swapGain w P a1 i a2 j).2 := by
  unfold swapGainF swapGain
  split
  · next hc =>
    obtain ⟨rfl, rfl⟩ := hc
    have n0 := hP.node (a := a1) (i := i - 1) (by omega)
    have n1 := hP.node (a := a1) (i := i) (by omega)
    have n2 := hP.node (a := a1) (i := i + 1) (by omega)
    have n3 := hP.node (a := a1) (i := i + 2) (by omega)
    have s1 := (hw _ _ n0 n1).add (hw _ _ n1 n2)
    have s2 := s1.add (hw _ _ n2 n3)
    have s3 := s2.sub (hw _ _ n0 n2)
    have s4 := s3.sub (hw _ _ n2 n1)
    have s5 := s4.sub (hw _ _ n1 n3)
    rw [h.exact s1 (by norm_num), h.exact s2 (by norm_num), h.exact s3 (by norm_num), h.exact s4 (by norm_num),
      h.exact s5 (by norm_num)]
    exact ⟨rfl, s5.mono (by norm_num), Small.zero (by norm_num)⟩
  · have n0 := hP.node (a := a1) (i := i - 1) (by omega)
    have n1 := hP.node (a := a1) (i := i) (by omega)
    have n2 := hP.node (a := a1) (i := i + 1) (by omega)
    have m0 := hP.node (a := a2) (i := j - 1) (by omega)
    have m1 := hP.node (a := a2) (i := j) (by omega)
    have m2 := hP.node (a := a2) (i := j + 1) (by omega)
    have s1 := (hw _ _ n0 n1).add (hw _ _ n1 n2)
    have s2 := s1.sub (hw _ _ n0 m1)
    have s3 := s2.sub (hw _ _ m1 n2)
    have u1 := (hw _ _ m0 m1).add (hw _ _ m1 m2)
    have u2 := u1.sub (hw _ _ m0 n1)
    have u3 := u2.sub (hw _ _ n1 m2)
    rw [h.exact s1 (by norm_num), h.exact s2 (by norm_num), h.exact s3 (by norm_num), h.exact u1 (by norm_num),
      h.exact u2 (by norm_num), h.exact u3 (by norm_num)]
    exact ⟨rfl, s3.mono (by norm_num), u3.mono (by norm_num)⟩

theorem newLengthF_eq {fl : ℚ → ℚ} (h : Rounding fl) {l x y : ℚ} (hl : Small (2 ^ 50) l) (hx : Small (2 ^ 34) x)
    (hy : Small (2 ^ 34) y) (a a1 a2 : Nat) :
    newLengthF fl l a a1 x a2 y = l - (if a = a1 then x else 0) - (if a = a2 then y else 0) ∧
    Small (2 ^ 51) (l - (if a = a1 then x else 0) - (if a = a2 then y else 0)) := by
  unfold newLengthF
  have s1 := hl.sub hx
  have s2 := s1.sub hy
  have s3 := hl.sub hy
  dsimp only
  split_ifs
  · rw [h.exact s1 (by norm_num), h.exact s2 (by norm_num)]; exact ⟨rfl, s2.mono (by norm_num)⟩
  · rw [h.exact s3 (by norm_num)]; exact ⟨by ring, by simpa using s3.mono (by norm_num)⟩
  · rw [h.exact s1 (by norm_num)]; exact ⟨by ring, by simpa using s1.mono (by norm_num)⟩
  · exact ⟨by ring, by simpa using hl.mono (by norm_num)⟩

theorem foldl_gt_small {α : Type} (f : α → ℚ) (b : ℚ) (l : List α) (hf : ∀ x ∈ l, Small b (f x)) (o : ℚ) (ho : Small b o) :
    Small b (l.foldl (fun o x => if f x > o then f x else o) o) := by
  induction l generalizing o with
  | nil => exact ho
  | cons x l ih =>
    rw [List.foldl_cons]
    refine ih (fun y hy => hf y (List.mem_cons_of_mem _ hy)) _ ?_
    split
    · exact hf x (by simp)
    · exact ho

theorem overallImprovementF_eq {fl : ℚ → ℚ} (h : Rounding fl) {mode : Mode} {lens : List ℚ} {longest a1 a2 : Nat} {x y : ℚ}
    (hl : mode = .max → ∀ a, Small (2 ^ 50) (lens.getD a 0)) (hx : Small (2 ^ 34) x) (hy : Small (2 ^ 34) y) :
    overallImprovementF fl mode lens longest a1 x a2 y = overallImprovement mode lens longest a1 x a2 y := by
  cases mode with
  | sum => exact h.exact (hx.add hy) (by norm_num)
  | max =>
    have hl := hl rfl
    unfold overallImprovementF overallImprovement
    dsimp only
    have e : ∀ a, newLengthF fl (lens.getD a 0) a a1 x a2 y =
        lens.getD a 0 - (if a = a1 then x else 0) - (if a = a2 then y else 0) := fun a => (newLengthF_eq h (hl a) hx hy a a1 a2).1
    simp only [e]
    refine h.exact ((hl longest).sub (foldl_gt_small _ (2 ^ 51) _ (fun a _ => (newLengthF_eq h (hl a) hx hy a a1 a2).2) 0
      (Small.zero (by norm_num)))) (by norm_num)

theorem getD_set_small {b : ℚ} {lens : List ℚ} (hl : ∀ a, Small b (lens.getD a 0)) {c : Nat} {v : ℚ} (hv : Small b v) (a : Nat) :
    Small b ((lens.set c v).getD a 0) := by
  rw [List.getD_eq_getElem?_getD, List.getElem?_set]
  split
  · split
    · exact hv
    · exact Small.zero hv.nonneg
  · rw [← List.getD_eq_getElem?_getD]; exact hl a

theorem applyImprovementF_eq {fl : ℚ → ℚ} (h : Rounding fl) {mode : Mode} {lens : List ℚ} {longest a1 a2 : Nat} {x y : ℚ}
    (hl : mode = .max → ∀ a, Small (2 ^ 50) (lens.getD a 0)) (hx : Small (2 ^ 34) x) (hy : Small (2 ^ 34) y) :
    applyImprovementF fl mode lens longest a1 x a2 y = applyImprovement mode lens longest a1 x a2 y := by
  cases mode with
  | sum => rfl
  | max =>
    have hl := hl rfl
    unfold applyImprovementF applyImprovement
    dsimp only
    have s1 := (hl a1).sub hx
    rw [h.exact s1 (by norm_num)]
    have hl1 : ∀ a, Small (2 ^ 50 + 2 ^ 34) ((lens.set a1 (lens.getD a1 0 - x)).getD a 0) :=
      getD_set_small (fun a => (hl a).mono (by norm_num)) s1
    rw [h.exact ((hl1 a2).sub hy) (by norm_num)]

theorem foldl_eq_inv {α β : Type} (l : List α) (f g : β → α → β) (x : β) (I : β → Prop) (h0 : I x)
    (hs : ∀ b, ∀ a ∈ l, I b → f b a = g b a ∧ I (g b a)) : l.foldl f x = l.foldl g x ∧ I (l.foldl g x) := by
  induction l generalizing x with
  | nil => exact ⟨rfl, h0⟩
  | cons a l ih =>
    obtain ⟨h1, h2⟩ := hs x a (by simp) h0
    rw [List.foldl_cons, List.foldl_cons, h1]
    exact ih _ h2 (fun b c hc => hs b c (List.mem_cons_of_mem _ hc))

theorem FitPaths.shape {n : Nat} {P0 P : Paths} (h : FitPaths n P0) (hs : SameShape P0 P) : FitPaths n P :=
  ⟨fun x hx => h.lt x (hs.perm.mem_iff.1 hx), by rw [hs.perm.length_eq]; exact h.len⟩

theorem lens_small {n : Nat} {mode : Mode} {w : Weights} (hw : SmallW n w) {P0 : Paths} (hP : FitPaths n P0) {s : TOState}
    (hs : TOInv mode w P0 s) (hm : mode = .max) (a : Nat) : Small (2 ^ 50) (s.lens.getD a 0) := by
  rw [(hs.info hm).1]
  by_cases ha : a < P0.length
  · rw [getD_map_range _ _ _ ha]; exact costAt_small hw (hP.shape hs.shape) a
  · rw [List.getD_eq_getElem?_getD, List.getElem?_eq_none (by simpa using ha)]; exact Small.zero (by norm_num)

theorem toStepJF_eq {fl : ℚ → ℚ} (h : Rounding fl) {n : Nat} {mode : Mode} {w : Weights} (hw : SmallW n w) {P0 : Paths}
    (hP : FitPaths n P0) {deps : DepGraph} {a1 a2 i u j : Nat} {s : TOState} (hs : TOInv mode w P0 s)
    (ha1 : a1 < P0.length) (ha2 : a2 < P0.length) (hi1 : 1 ≤ i) (hi2 : i + 1 < (P0.getD a1 []).length)
    (hj1 : 1 ≤ j) (hj2 : j + 1 < (P0.getD a2 []).length) (hlt : a1 = a2 → i < j) :
    toStepJF fl mode w deps a1 a2 i u s j = toStepJ mode w deps a1 a2 i u s j ∧
    TOInv mode w P0 (toStepJ mode w deps a1 a2 i u s j) := by
  have hi2' : i + 1 < (s.paths.getD a1 []).length := by rw [hs.shape.plen]; exact hi2
  have hj2' : j + 1 < (s.paths.getD a2 []).length := by rw [hs.shape.plen]; exact hj2
  have hP' := hP.shape hs.shape
  obtain ⟨g1, g2, g3⟩ := swapGain_small h hw hP' hi2' hj2'
  have hl := lens_small hw hP hs
  unfold toStepJF toStepJ
  dsimp only
  split
  · exact ⟨rfl, hs⟩
  rw [g1, overallImprovementF_eq h hl g2 g3, applyImprovementF_eq h hl g2 g3]
  split
  · next hpos =>
    have hsw := hs.swap (b := true) ha1 ha2 hi1 hi2' hj1 hj2' hlt hpos
    refine ⟨?_, hsw⟩
    congr 1
    have ho := hsw.obj
    dsimp only at ho
    rw [ho]
    have k1 := (calcObjectiveF_eq h hw hP mode).2
    have k2 := (calcObjectiveF_eq h hw (hP.shape hsw.shape) mode).2
    refine h.exact (k1.sub k2) ?_
    have := hP.len
    have := (hP.shape hsw.shape).len
    nlinarith
  · exact ⟨rfl, hs⟩

theorem toRoundF_eq {fl : ℚ → ℚ} (h : Rounding fl) {n : Nat} {mode : Mode} {w : Weights} (hw : SmallW n w) {P0 : Paths}
    (hP : FitPaths n P0) {deps : DepGraph} {s : TOState} (hs : TOInv mode w P0 s) :
    toRoundF fl mode w deps P0.length s = toRound mode w deps P0.length s ∧ TOInv mode w P0 (toRound mode w deps P0.length s) := by
  unfold toRoundF toRound
  refine foldl_eq_inv _ _ _ _ (TOInv mode w P0) ⟨hs.shape, hs.lensLen, hs.longest, hs.info, hs.obj⟩ ?_
  intro s a1 ha1 hs
  have ha1 : a1 < P0.length := List.mem_range.1 ha1
  unfold toStepA1F toStepA1
  have hr := a2range_lt hs a1
  refine foldl_eq_inv _ _ _ _ (TOInv mode w P0) hs ?_
  intro s a2 ha2 hs
  rw [List.mem_range'_1] at ha2
  have ha2 : a2 < P0.length := by omega
  unfold toStepA2F toStepA2
  refine foldl_eq_inv _ _ _ _ (TOInv mode w P0) hs ?_
  intro s' i hi hs'
  rw [List.mem_range'_1] at hi
  rw [hs.shape.plen] at hi
  unfold toStepIF toStepI
  dsimp only
  split
  · exact ⟨rfl, hs'⟩
  rw [hs'.shape.plen]
  refine foldl_eq_inv _ _ _ _ (TOInv mode w P0) hs' ?_
  intro s'' j hj hs''
  rw [List.mem_range'_1] at hj
  refine toStepJF_eq h hw hP hs'' ha1 ha2 hi.1 (by omega) ?_ ?_ ?_
  · split at hj <;> omega
  · by_cases e : a1 = a2
    · rw [if_pos e] at hj; omega
    · rw [if_neg e] at hj; omega
  · intro e; rw [if_pos e] at hj; omega

theorem toLoopF_eq {fl : ℚ → ℚ} (h : Rounding fl) {n : Nat} {mode : Mode} {w : Weights} (hw : SmallW n w) {P0 : Paths}
    (hP : FitPaths n P0) {deps : DepGraph} (t : Nat) {s : TOState} (hs : TOInv mode w P0 s) :
    toLoopF fl mode w deps P0.length t s = toLoop mode w deps P0.length t s := by
  induction t generalizing s with
  | zero => rfl
  | succ t ih =>
    simp only [toLoopF, toLoop]
    obtain ⟨h1, h2⟩ := toRoundF_eq h hw hP (deps := deps) hs
    rw [h1, ih h2]

theorem twoOptF_eq {fl : ℚ → ℚ} (h : Rounding fl) {n : Nat} {mode : Mode} {w : Weights} (hw : SmallW n w) {P : Paths}
    (hP : FitPaths n P) (deps : DepGraph) (t : Nat) : twoOptF fl mode P w deps t = twoOpt mode P w deps t := by
  have hinfo : pathsInfoInitF fl mode P w = pathsInfoInit mode P w := by
    cases mode with
    | sum => rfl
    | max =>
      unfold pathsInfoInitF pathsInfoInit
      have hL : ∀ a, calcPathLengthF fl (P.getD a []) w = calcPathLength (P.getD a []) w := fun a =>
        (calcPathLengthF_eq h hw (hP.path a).1 (hP.path a).2).1
      simp only [hL]
  unfold twoOptF twoOpt
  dsimp only
  rw [hinfo]
  rcases Nat.eq_zero_or_pos P.length with h0 | h0
  · have : P = [] := List.length_eq_zero_iff.1 h0
    subst this
    have key : ∀ (t : Nat) (s : TOState), toLoopF fl mode w deps ([] : Paths).length t s = toLoop mode w deps ([] : Paths).length t s := by
      intro t
      induction t with
      | zero => intro s; rfl
      | succ t ih => intro s; simp only [toLoopF, toLoop, ih]; rfl
    rw [key]
  · rw [toLoopF_eq h hw hP t (TOInv.init mode w P h0 true)]

/-! ### nearest insertion -/

theorem niLoop_congr {σ : Type} (starts ends : List Nat) (step stepF : σ → Nat → Except Err σ) (P : Nat → σ → Prop) (N : Nat)
    (hstep : ∀ k s n, P k s → k < N → n < N → stepF s n = step s n ∧ ∀ s', step s n = .ok s' → P (k + 1) s')
    (hmono : ∀ k s, P k s → P (k + 1) s) :
    ∀ (l : List Nat) (t k : Nat) (s : σ), (∀ n ∈ l, n < N) → k + l.length ≤ N → P k s →
      niLoop starts ends stepF l t s = niLoop starts ends step l t s ∧
      ∀ s' t', niLoop starts ends step l t s = .ok (some s', t') → P N s' := by
  have hN : ∀ d k s, P k s → P (k + d) s := by
    intro d
    induction d with
    | zero => intro k s h; exact h
    | succ d ih => intro k s h; exact hmono _ _ (ih k s h)
  intro l
  induction l with
  | nil =>
    intro t k s _ hk hP
    refine ⟨rfl, ?_⟩
    intro s' t' e
    simp only [niLoop, Except.ok.injEq, Prod.mk.injEq, Option.some.injEq] at e
    rw [← e.1, show N = k + (N - k) by simp at hk; omega]
    exact hN _ _ _ hP
  | cons n l ih =>
    intro t k s hl hk hP
    have hl' : ∀ n ∈ l, n < N := fun x hx => hl x (List.mem_cons_of_mem _ hx)
    simp only [List.length_cons] at hk
    cases t with
    | zero => exact ⟨rfl, by simp [niLoop]⟩
    | succ t =>
      simp only [niLoop]
      split
      · exact ih t k s hl' (by omega) hP
      · obtain ⟨e, hok⟩ := hstep k s n hP (by omega) (hl n (by simp))
        rw [e]
        cases hs : step s n with
        | error err => exact ⟨rfl, by simp⟩
        | ok s1 => exact ih t (k + 1) s1 hl' (by omega) (hok s1 hs)

theorem insert_nodes {N : Nat} {c : NICore} (hc : ∀ a, ∀ x ∈ c.paths.getD a [], x < N) {n : Nat} (hn : n < N) (comp a i : Nat) :
    ∀ b, ∀ x ∈ (c.insert comp a i n).paths.getD b [], x < N := by
  intro b x hx
  simp only [NICore.insert] at hx
  rw [List.getD_eq_getElem?_getD, List.getElem?_modify] at hx
  cases hb : c.paths[b]? with
  | none => rw [hb] at hx; simp at hx
  | some p =>
    have hp : ∀ y ∈ p, y < N := by
      have := hc b
      rw [List.getD_eq_getElem?_getD, hb] at this
      exact this
    rw [hb] at hx
    simp only [Option.map_eq_map, Option.map_some, Option.getD_some] at hx
    split at hx
    · rw [(insertAt_perm _ _ _).mem_iff] at hx
      rcases List.mem_cons.1 hx with rfl | hx
      · exact hn
      · exact hp x hx
    · exact hp x hx

theorem foldl_best_congr {α β : Type} {f g : α → ℚ} {u v : α → β} (l : List α) (h : ∀ x ∈ l, f x = g x ∧ u x = v x) (b : ℚ × Option β) :
    l.foldl (fun (b : ℚ × Option β) x => if f x < b.1 then (f x, some (u x)) else b) b =
    l.foldl (fun (b : ℚ × Option β) x => if g x < b.1 then (g x, some (v x)) else b) b := by
  refine foldl_congr_mem l _ _ b ?_
  intro b a ha
  rw [(h a ha).1, (h a ha).2]

/-- the state of the construction after `k` insertions (Sum) -/
def NISumSmall (N A k : Nat) (s : NISum) : Prop :=
  (∀ a, ∀ x ∈ s.core.paths.getD a [], x < N) ∧ Small (2 ^ 31 * (A + 3 * k)) s.objective

theorem candidate_nodes {N A : Nat} {c : NICore} (hc : ∀ a, ∀ x ∈ c.paths.getD a [], x < N) {cp a i : Nat}
    (h : (a, i) ∈ niCandidates A c cp) : (c.paths.getD a []).getD (i - 1) 0 < N ∧ (c.paths.getD a []).getD i 0 < N := by
  have := ((mem_niCandidates A c cp a i).1 h).2.2
  exact ⟨getD_lt (hc a) (by omega), getD_lt (hc a) this⟩

theorem niDeltaF_eq {fl : ℚ → ℚ} (h : Rounding fl) {N : Nat} {w : Weights} (hw : SmallW N w) {p : List Nat} {i n : Nat}
    (h1 : p.getD (i - 1) 0 < N) (h2 : p.getD i 0 < N) (hn : n < N) :
    niDeltaF fl w p i n = niDelta w p i n ∧ Small (2 ^ 31 * 3) (niDelta w p i n) := by
  have s1 := (hw _ _ h1 hn).add (hw _ _ hn h2)
  have s2 := s1.sub (hw _ _ h1 h2)
  unfold niDeltaF niDelta
  rw [h.exact s1 (by norm_num), h.exact s2 (by norm_num)]
  exact ⟨rfl, s2.mono (by norm_num)⟩

theorem niSumStepF_eq {fl : ℚ → ℚ} (h : Rounding fl) {N A : Nat} {W : Nat → Weights} (hw : ∀ a, SmallW N (W a)) (hA : A ≤ N)
    (hN : N ≤ 2 ^ 19) (comp : Nat → Nat) (k : Nat) (s : NISum) (n : Nat) (hs : NISumSmall N A k s) (hk : k < N) (hn : n < N) :
    niSumStepF fl A W comp s n = niSumStep A W comp s n ∧
    ∀ s', niSumStep A W comp s n = .ok s' → NISumSmall N A (k + 1) s' := by
  have hd : ∀ ai ∈ niCandidates A s.core (comp n),
      niDeltaF fl (W ai.1) (s.core.paths.getD ai.1 []) ai.2 n = niDelta (W ai.1) (s.core.paths.getD ai.1 []) ai.2 n ∧
      Small (2 ^ 31 * 3) (niDelta (W ai.1) (s.core.paths.getD ai.1 []) ai.2 n) := by
    rintro ⟨a, i⟩ hai
    obtain ⟨h1, h2⟩ := candidate_nodes hs.1 hai
    exact niDeltaF_eq h (hw a) h1 h2 hn
  unfold niSumStepF niSumStep
  dsimp only
  have e := foldl_best_congr (u := id) (v := id) (niCandidates A s.core (comp n)) (fun x hx => ⟨(hd x hx).1, rfl⟩) (dblMax, none)
  simp only [id] at e
  rw [e]
  have hb := foldl_best (fun ai : Nat × Nat => niDelta (W ai.1) (s.core.paths.getD ai.1 []) ai.2 n) id
    (niCandidates A s.core (comp n)) dblMax
  simp only [id] at hb
  rcases hb with ⟨hr, _⟩ | ⟨⟨a, i⟩, hm, hr, _⟩
  · rw [hr]; exact ⟨rfl, by simp⟩
  · rw [hr]
    dsimp only
    have hsm := hs.2.add (hd _ hm).2
    have kA : ((A : ℚ)) ≤ 2 ^ 19 := by exact_mod_cast hA.trans hN
    have kk : ((k : ℚ)) + 1 ≤ 2 ^ 19 := by exact_mod_cast (show k + 1 ≤ N by omega).trans hN
    rw [h.exact hsm (by nlinarith)]
    refine ⟨rfl, ?_⟩
    intro s' e
    simp only [Except.ok.injEq] at e
    subst e
    refine ⟨insert_nodes hs.1 hn _ _ _, hsm.mono ?_⟩
    push_cast; nlinarith

/-- the state of the construction after `k` insertions (Max) -/
def NIMaxSmall (N k : Nat) (s : NIMax) : Prop :=
  (∀ a, ∀ x ∈ s.core.paths.getD a [], x < N) ∧ ∀ a, Small (2 ^ 31 * (1 + 3 * k)) (s.lens.getD a 0)

theorem niPotential_small {A : Nat} {lens : List ℚ} {longest : Nat} {pot b : ℚ} (hl : ∀ a, Small b (lens.getD a 0)) (hp : Small b pot) :
    Small b (niPotential A lens longest pot).1 := by
  unfold niPotential
  refine foldl_inv (List.range A) _ (pot, longest) (fun r : ℚ × Nat => Small b r.1) hp ?_
  intro r a _ hr
  split
  · exact hr
  · split
    · exact hl a
    · exact hr

theorem niMaxCandF_eq {fl : ℚ → ℚ} (h : Rounding fl) {N A : Nat} {W : Nat → Weights} (hw : ∀ a, SmallW N (W a))
    (hN : N ≤ 2 ^ 19) {k : Nat} {s : NIMax} {n a i : Nat} (hs : NIMaxSmall N k s) (hk : k < N) (hn : n < N)
    (h1 : (s.core.paths.getD a []).getD (i - 1) 0 < N) (h2 : (s.core.paths.getD a []).getD i 0 < N) :
    niMaxCandF fl A W s n (a, i) = niMaxCand A W s n (a, i) ∧
    Small (2 ^ 31 * (1 + 3 * (k + 1))) (niMaxCand A W s n (a, i)).2.1 := by
  have kk : ((k : ℚ)) + 1 ≤ 2 ^ 19 := by exact_mod_cast (show k + 1 ≤ N by omega).trans hN
  have s1 := (hw a _ _ h1 hn).add (hw a _ _ hn h2)
  have s2 := s1.sub (hw a _ _ h1 h2)
  have s3 := s2.add (hs.2 a)
  have s4 : Small (2 ^ 31 * (1 + 3 * (k + 1))) _ := s3.mono (by nlinarith)
  have s5 := s4.sub (hs.2 s.longest)
  unfold niMaxCandF niMaxCand
  dsimp only
  rw [h.exact s1 (by norm_num), h.exact s2 (by norm_num), h.exact s4 (by nlinarith)]
  split
  · have s6 := (niPotential_small (A := A) (longest := s.longest)
      (fun a => (hs.2 a).mono (show _ ≤ 2 ^ 31 * (1 + 3 * ((k : ℚ) + 1)) by nlinarith)) s4).sub (hs.2 s.longest)
    rw [h.exact s6 (by nlinarith)]
    exact ⟨rfl, s4⟩
  · rw [h.exact s5 (by nlinarith)]
    exact ⟨rfl, s4⟩

theorem niMaxStepF_eq {fl : ℚ → ℚ} (h : Rounding fl) {N A : Nat} {W : Nat → Weights} (hw : ∀ a, SmallW N (W a))
    (hN : N ≤ 2 ^ 19) (comp : Nat → Nat) (k : Nat) (s : NIMax) (n : Nat) (hs : NIMaxSmall N k s) (hk : k < N) (hn : n < N) :
    niMaxStepF fl A W comp s n = niMaxStep A W comp s n ∧
    ∀ s', niMaxStep A W comp s n = .ok s' → NIMaxSmall N (k + 1) s' := by
  have hd : ∀ ai ∈ niCandidates A s.core (comp n), niMaxCandF fl A W s n ai = niMaxCand A W s n ai ∧
      Small (2 ^ 31 * (1 + 3 * (k + 1))) (niMaxCand A W s n ai).2.1 := by
    rintro ⟨a, i⟩ hai
    obtain ⟨h1, h2⟩ := candidate_nodes hs.1 hai
    exact niMaxCandF_eq h hw hN hs hk hn h1 h2
  unfold niMaxStepF niMaxStep
  dsimp only
  rw [foldl_best_congr (niCandidates A s.core (comp n)) (fun x hx => ⟨congrArg (·.1) (hd x hx).1, by rw [(hd x hx).1]⟩) (dblMax, none)]
  rcases foldl_best (fun ai : Nat × Nat => (niMaxCand A W s n ai).1) (fun ai => (ai, (niMaxCand A W s n ai).2))
    (niCandidates A s.core (comp n)) dblMax with ⟨hr, _⟩ | ⟨⟨a, i⟩, hm, hr, _⟩
  · rw [hr]; exact ⟨rfl, by simp⟩
  · rw [hr]
    dsimp only
    refine ⟨rfl, ?_⟩
    intro s' e
    simp only [Except.ok.injEq] at e
    subst e
    refine ⟨insert_nodes hs.1 hn _ _ _, ?_⟩
    dsimp only
    push_cast
    exact getD_set_small (fun a => (hs.2 a).mono (by nlinarith)) (hd _ hm).2

end Mtsp
