import Verif.Proof.TwoOpt
import Mathlib.Data.Finset.Card
import Mathlib.Data.List.Permutation

/-! C28–C31: improvement heuristic.  `A > 0` is the code's own precondition (assert, Heuristics.cpp:402). -/

namespace Mtsp
open Relation

variable {mode : Mode} {w : Weights} {deps : DepGraph} {P0 : Paths} {t : Nat}

theorem twoOpt_inv (hA : 0 < P0.length) : ∃ s, TOInv mode w P0 s ∧ (twoOpt mode P0 w deps t).1 = (s.paths, s.impSum) ∧
    calcObjective mode s.paths (fun _ => w) ≤ calcObjective mode P0 (fun _ => w) := by
  obtain ⟨h1, h2⟩ := toLoop_inv (deps := deps) t _ (TOInv.init mode w P0 hA true)
  exact ⟨_, h1, rfl, h2⟩

theorem getElem?_of_getD {P : Paths} {a : Nat} (ha : a < P.length) : P[a]? = some (P.getD a []) := by
  simp [List.getD_eq_getElem?_getD, ha]

theorem getD_of_getElem? {P : Paths} {a : Nat} {p : List Nat} (h : P[a]? = some p) : P.getD a [] = p := by
  simp [List.getD_eq_getElem?_getD, h]

/-- **C28.** The number of paths, every path's length, first and last node and the multiset of all nodes
stay the same, whatever the deadline. -/
theorem C28_only_inner_nodes_exchanged (hA : 0 < P0.length) :
    (twoOpt mode P0 w deps t).1.1.length = P0.length ∧
    (∀ (a : Nat) (p : List Nat), P0[a]? = some p → ∃ q, (twoOpt mode P0 w deps t).1.1[a]? = some q ∧ q.length = p.length ∧
      q.head? = p.head? ∧ q.getLast? = p.getLast?) ∧
    (twoOpt mode P0 w deps t).1.1.flatten.Perm P0.flatten := by
  obtain ⟨s, hi, e, _⟩ := twoOpt_inv (mode := mode) (w := w) (deps := deps) (t := t) hA
  rw [e]
  refine ⟨hi.shape.len, ?_, hi.shape.perm⟩
  intro a p hp
  have ha : a < s.paths.length := by rw [hi.shape.len]; exact (List.getElem?_eq_some_iff.1 hp).1
  refine ⟨_, getElem?_of_getD ha, ?_, ?_, ?_⟩
  · rw [hi.shape.plen, getD_of_getElem? hp]
  · rw [(hi.shape.ends a).1, getD_of_getElem? hp]
  · rw [(hi.shape.ends a).2, getD_of_getElem? hp]

/-- C28, consequence: a cover by paths stays a cover by paths. -/
theorem C28_cover_preserved {n : Nat} {starts ends : List Nat} (hA : 0 < P0.length) (h : IsCover n starts ends P0) :
    IsCover n starts ends (twoOpt mode P0 w deps t).1.1 := by
  obtain ⟨h1, h2, h3⟩ := C28_only_inner_nodes_exchanged (mode := mode) (w := w) (deps := deps) (t := t) hA
  refine ⟨h1.trans h.len, ?_, ?_, h3.trans h.perm⟩
  · intro a p hp
    have ha : a < P0.length := by rw [← h1]; exact (List.getElem?_eq_some_iff.1 hp).1
    obtain ⟨q, hq, _, e, _⟩ := h2 a _ (getElem?_of_getD ha)
    rw [hp] at hq; simp at hq; subst hq
    rw [e]; exact h.head a _ (getElem?_of_getD ha)
  · intro a p hp
    have ha : a < P0.length := by rw [← h1]; exact (List.getElem?_eq_some_iff.1 hp).1
    obtain ⟨q, hq, _, _, e⟩ := h2 a _ (getElem?_of_getD ha)
    rw [hp] at hq; simp at hq; subst hq
    rw [e]; exact h.last a _ (getElem?_of_getD ha)

/-- **C29.** The reported improvement is exactly the old objective minus the new objective, and it is
never negative.  (`calcObjective` is characterised by C23.) -/
theorem C29_improvement_exact (hA : 0 < P0.length) :
    (twoOpt mode P0 w deps t).1.2 =
      calcObjective mode P0 (fun _ => w) - calcObjective mode (twoOpt mode P0 w deps t).1.1 (fun _ => w) ∧
    0 ≤ (twoOpt mode P0 w deps t).1.2 := by
  obtain ⟨s, hi, e, hle⟩ := twoOpt_inv (mode := mode) (w := w) (deps := deps) (t := t) hA
  rw [e]
  refine ⟨hi.obj, ?_⟩
  have := hi.obj
  dsimp only
  rw [this]; linarith

/-! ### termination -/

def unflat : List Nat → List Nat → Paths
  | [], _ => []
  | n :: ns, l => l.take n :: unflat ns (l.drop n)

theorem unflat_flatten (P : Paths) : unflat (P.map List.length) P.flatten = P := by
  induction P with
  | nil => rfl
  | cons p P ih => simp [unflat, ih]

def objectives (mode : Mode) (w : Weights) (P0 : Paths) : Finset ℚ :=
  (P0.flatten.permutations.map fun l => calcObjective mode (unflat (P0.map List.length) l) (fun _ => w)).toFinset

theorem SameShape.mem_objectives {P : Paths} (h : SameShape P0 P) :
    calcObjective mode P (fun _ => w) ∈ objectives mode w P0 := by
  unfold objectives
  rw [List.mem_toFinset, List.mem_map]
  refine ⟨P.flatten, List.mem_permutations.2 h.perm, ?_⟩
  have : P0.map List.length = P.map List.length := by
    apply List.ext_getElem
    · simp [h.len]
    · intro k hk hk'
      have := h.plen k
      rw [List.getD_eq_getElem?_getD, List.getD_eq_getElem?_getD, List.getElem?_eq_getElem (by simpa using hk'),
        List.getElem?_eq_getElem (by simpa using hk)] at this
      simpa using this.symm
  rw [this, unflat_flatten]

theorem toLoop_terminates (n : Nat) : ∀ s, TOInv mode w P0 s →
    ((objectives mode w P0).filter (· < calcObjective mode s.paths (fun _ => w))).card ≤ n →
    ∃ K s', ∀ t, K ≤ t → toLoop mode w deps P0.length t s = (s', t - K) := by
  induction n with
  | zero =>
    intro s h hc
    by_cases hi : s.improved = true
    · have hr := toRound_inv (deps := deps) h
      have hni : (toRound mode w deps P0.length s).improved = false := by
        by_contra hcon
        have hlt := hr.2.2 (by simpa using hcon)
        have : calcObjective mode (toRound mode w deps P0.length s).paths (fun _ => w) ∈
            (objectives mode w P0).filter (· < calcObjective mode s.paths (fun _ => w)) :=
          Finset.mem_filter.2 ⟨hr.1.shape.mem_objectives, hlt⟩
        have := Finset.card_pos.2 ⟨_, this⟩
        omega
      refine ⟨1, toRound mode w deps P0.length s, ?_⟩
      intro t ht
      obtain ⟨t, rfl⟩ : ∃ k, t = k + 1 := ⟨t - 1, by omega⟩
      simp only [toLoop, hi, if_true, Nat.add_sub_cancel]
      cases t with
      | zero => rfl
      | succ t => simp [toLoop, hni]
    · refine ⟨0, s, ?_⟩
      intro t _
      cases t with
      | zero => rfl
      | succ t => simp [toLoop, hi]
  | succ n ih =>
    intro s h hc
    by_cases hi : s.improved = true
    · have hr := toRound_inv (deps := deps) h
      by_cases himp : (toRound mode w deps P0.length s).improved = true
      · have hlt := hr.2.2 himp
        have hss : (objectives mode w P0).filter (· < calcObjective mode (toRound mode w deps P0.length s).paths (fun _ => w)) ⊂
            (objectives mode w P0).filter (· < calcObjective mode s.paths (fun _ => w)) := by
          rw [Finset.ssubset_iff_of_subset]
          · refine ⟨calcObjective mode (toRound mode w deps P0.length s).paths (fun _ => w),
              Finset.mem_filter.2 ⟨hr.1.shape.mem_objectives, hlt⟩, ?_⟩
            intro hm
            exact lt_irrefl _ (Finset.mem_filter.1 hm).2
          · intro x hx
            obtain ⟨h1, h2⟩ := Finset.mem_filter.1 hx
            exact Finset.mem_filter.2 ⟨h1, lt_trans h2 hlt⟩
        obtain ⟨K, s', hk⟩ := ih _ hr.1 (by have := Finset.card_lt_card hss; omega)
        refine ⟨K + 1, s', ?_⟩
        intro t ht
        obtain ⟨t, rfl⟩ : ∃ k, t = k + 1 := ⟨t - 1, by omega⟩
        simp only [toLoop, hi, if_true]
        rw [hk t (by omega)]; simp
      · refine ⟨1, toRound mode w deps P0.length s, ?_⟩
        intro t ht
        obtain ⟨t, rfl⟩ : ∃ k, t = k + 1 := ⟨t - 1, by omega⟩
        simp only [toLoop, hi, if_true, Nat.add_sub_cancel]
        cases t with
        | zero => rfl
        | succ t => simp [toLoop, himp]
    · refine ⟨0, s, ?_⟩
      intro t _
      cases t with
      | zero => rfl
      | succ t => simp [toLoop, hi]

/-- **C31.** The improvement loop ends by itself: there is a number `K` such that, for every deadline
that allows at least `K` rounds, exactly `K` rounds are started and the result is the same. -/
theorem C31_terminates (mode : Mode) (w : Weights) (deps : DepGraph) (P0 : Paths) (hA : 0 < P0.length) :
    ∃ (K : Nat) (r : Paths × ℚ), ∀ t, K ≤ t → twoOpt mode P0 w deps t = (r, t - K) := by
  obtain ⟨K, s', h⟩ := toLoop_terminates (mode := mode) (w := w) (deps := deps) (P0 := P0) _ _ (TOInv.init mode w P0 hA true) (le_refl _)
  refine ⟨K, (s'.paths, s'.impSum), ?_⟩
  intro t ht
  unfold twoOpt
  dsimp only
  rw [h t ht]

/-! ### dependencies -/

theorem before_iff_pos (p : List Nat) (u v : Nat) :
    Before p u v ↔ ∃ k l, k < l ∧ l < p.length ∧ p.getD k 0 = u ∧ p.getD l 0 = v := by
  constructor
  · rintro ⟨l1, l2, l3, rfl⟩
    refine ⟨l1.length, l1.length + 1 + l2.length, by omega, by simp; omega, ?_, ?_⟩
    · simp [List.getD_eq_getElem?_getD]
    · have : l1 ++ u :: l2 ++ v :: l3 = (l1 ++ u :: l2) ++ v :: l3 := rfl
      rw [List.getD_eq_getElem?_getD, List.getElem?_append_right (by simp; omega)]
      have : l1.length + 1 + l2.length - (l1 ++ u :: l2).length = 0 := by simp; omega
      rw [this]; rfl
  · rintro ⟨k, l, hkl, hl, rfl, rfl⟩
    rw [before_iff_sublist]
    have hk : k < p.length := by omega
    have e1 : p.getD k 0 = p[k] := by simp [List.getD_eq_getElem?_getD, hk]
    have e2 : p.getD l 0 = p[l] := by simp [List.getD_eq_getElem?_getD, hl]
    rw [e1, e2]
    have h1 : [p[k]].Sublist (p.take (k + 1)) := List.singleton_sublist.2 (by
      rw [List.take_succ_eq_append_getElem hk]; exact List.mem_append_right _ (List.mem_singleton.2 rfl))
    have h2 : [p[l]].Sublist (p.drop (k + 1)) := List.singleton_sublist.2 (by
      rw [List.mem_iff_getElem]
      refine ⟨l - (k + 1), by simp; omega, ?_⟩
      simp [show k + 1 + (l - (k + 1)) = l by omega])
    have := h1.append h2
    rwa [List.take_append_drop] at this

theorem getD_mem {p : List Nat} {k : Nat} (h : k < p.length) : p.getD k 0 ∈ p := by
  rw [List.getD_eq_getElem?_getD, List.getElem?_eq_getElem h]; exact List.getElem_mem _

theorem getD_inj {p : List Nat} (hn : p.Nodup) {k l : Nat} (h1 : k < p.length) (h2 : l < p.length)
    (he : p.getD k 0 = p.getD l 0) : k = l := by
  rw [List.getD_eq_getElem?_getD, List.getD_eq_getElem?_getD, List.getElem?_eq_getElem h1, List.getElem?_eq_getElem h2] at he
  exact (hn.getElem_inj_iff).1 (by simpa using he)

/-- positions on the paths -/
def InRange (P : Paths) (a k : Nat) : Prop := a < P.length ∧ k < (P.getD a []).length

theorem mem_flatten_nodeAt {P : Paths} {a k : Nat} (h : InRange P a k) : nodeAt P a k ∈ P.flatten := by
  refine List.mem_flatten.2 ⟨P.getD a [], ?_, ?_⟩
  · exact List.mem_of_getElem? (getElem?_of_getD h.1)
  · exact getD_mem h.2

theorem nodeAt_inj {P : Paths} (hn : P.flatten.Nodup) {a b k l : Nat} (h1 : InRange P a k) (h2 : InRange P b l)
    (he : nodeAt P a k = nodeAt P b l) : a = b ∧ k = l := by
  obtain ⟨n1, n2⟩ := List.nodup_flatten.1 hn
  have hm1 : nodeAt P a k ∈ P.getD a [] := getD_mem h1.2
  have hm2 : nodeAt P b l ∈ P.getD b [] := getD_mem h2.2
  have hab : a = b := by
    by_contra hne
    have key : ∀ a b, a < b → a < P.length → b < P.length → ∀ x, x ∈ P.getD a [] → x ∈ P.getD b [] → False := by
      intro a b hab ha hb x hx hx'
      have := List.pairwise_iff_getElem.1 n2 a b ha hb hab
      simp only [List.getD_eq_getElem?_getD, ha, hb, getElem?_pos, Option.getD_some] at hx hx'
      exact this hx hx'
    rcases Nat.lt_or_gt_of_ne hne with h | h
    · exact key a b h h1.1 h2.1 _ hm1 (he ▸ hm2)
    · exact key b a h h2.1 h1.1 _ hm2 (he ▸ hm1)
  subst hab
  refine ⟨rfl, ?_⟩
  have hnp : (P.getD a []).Nodup := n1 _ (List.mem_of_getElem? (getElem?_of_getD h1.1))
  exact getD_inj hnp h1.2 h2.2 he

theorem respects_iff_pos (D : Nat → Nat → Prop) (P : Paths) : Respects D P ↔
    ∀ u v, D u v → ∃ a k l, a < P.length ∧ k < l ∧ l < (P.getD a []).length ∧ nodeAt P a k = u ∧ nodeAt P a l = v := by
  unfold Respects
  refine forall_congr' fun u => forall_congr' fun v => imp_congr_right fun _ => ?_
  constructor
  · rintro ⟨p, hp, hb⟩
    obtain ⟨a, ha⟩ := List.mem_iff_getElem?.1 hp
    obtain ⟨k, l, h1, h2, h3, h4⟩ := (before_iff_pos p u v).1 hb
    refine ⟨a, k, l, (List.getElem?_eq_some_iff.1 ha).1, h1, ?_⟩
    unfold nodeAt
    rw [getD_of_getElem? ha]; exact ⟨h2, h3, h4⟩
  · rintro ⟨a, k, l, ha, h1, h2, h3, h4⟩
    exact ⟨P.getD a [], List.mem_of_getElem? (getElem?_of_getD ha), (before_iff_pos _ u v).2 ⟨k, l, h1, h2, h3, h4⟩⟩

/-- both nodes of each dependency on the same path, in any order -/
def Together (D : Nat → Nat → Prop) (P : Paths) : Prop :=
  ∀ u v, D u v → ∃ a k l, InRange P a k ∧ InRange P a l ∧ nodeAt P a k = u ∧ nodeAt P a l = v

theorem grouped_iff {D : Nat → Nat → Prop} {P : Paths} : Grouped D P ↔ Together D P := by
  constructor
  · intro h u v huv
    obtain ⟨p, hp, hu, hv⟩ := h u v huv
    obtain ⟨a, ha⟩ := List.mem_iff_getElem?.1 hp
    obtain ⟨k, hk⟩ := List.mem_iff_getElem?.1 hu
    obtain ⟨l, hl⟩ := List.mem_iff_getElem?.1 hv
    have ha' := (List.getElem?_eq_some_iff.1 ha).1
    have hk' := (List.getElem?_eq_some_iff.1 hk).1
    have hl' := (List.getElem?_eq_some_iff.1 hl).1
    have e : P.getD a [] = p := by rw [List.getD_eq_getElem?_getD, ha]; rfl
    refine ⟨a, k, l, ⟨ha', by rw [e]; exact hk'⟩, ⟨ha', by rw [e]; exact hl'⟩, ?_, ?_⟩
    · unfold nodeAt; rw [e, List.getD_eq_getElem?_getD, hk]; rfl
    · unfold nodeAt; rw [e, List.getD_eq_getElem?_getD, hl]; rfl
  · intro h u v huv
    obtain ⟨a, k, l, ⟨h1, h2⟩, ⟨_, h3⟩, rfl, rfl⟩ := h u v huv
    refine ⟨P.getD a [], List.mem_of_getElem? (getElem?_of_getD h1), ?_, ?_⟩
    · unfold nodeAt; exact getD_mem h2
    · unfold nodeAt; exact getD_mem h3

/-- what the dependency queries of the code mean -/
structure DepsAre (deps : DepGraph) (n : Nat) (D : Nat → Nat → Prop) : Prop where
  arc : ∀ u v, u < n → v < n → (deps.hasArc u v = true ↔ D u v)
  free : ∀ u, u < n → hasDeps deps u = false → ∀ v, ¬ D u v ∧ ¬ D v u
  empty : deps.isEmpty = true → ∀ u v, ¬ D u v

theorem depsAre_make (n : Nat) (wd : Weights) : DepsAre (DepGraph.make n wd) n (DepIn n wd) := by
  obtain ⟨_, _, h3, h4, h5, h6⟩ := C16_queries_agree n wd
  refine ⟨h5, ?_, fun h => h6.1 h⟩
  intro u hu hf v
  obtain ⟨lo, ho, _, hom⟩ := h3 u hu
  obtain ⟨li, hi, _, him⟩ := h4 u hu
  unfold hasDeps at hf
  rw [ho, hi] at hf
  simp only [spanNonempty, Bool.or_eq_false_iff, Bool.not_eq_false', List.isEmpty_iff] at hf
  refine ⟨fun hd => ?_, fun hd => ?_⟩
  · have := (hom v).2 hd; rw [hf.2] at this; simp at this
  · have := (him v).2 hd; rw [hf.1] at this; simp at this

section Deps
variable {n : Nat} {D : Nat → Nat → Prop}

/-- positions after a swap -/
theorem swap_pos {P : Paths} {a1 i a2 j : Nat} (hi : i < (P.getD a1 []).length) (hj : j < (P.getD a2 []).length)
    (hne : a1 = a2 → i ≠ j) :
    nodeAt (swapNodes P a1 i a2 j) a1 i = nodeAt P a2 j ∧ nodeAt (swapNodes P a1 i a2 j) a2 j = nodeAt P a1 i ∧
    ∀ b k, ¬ (b = a1 ∧ k = i) → ¬ (b = a2 ∧ k = j) → nodeAt (swapNodes P a1 i a2 j) b k = nodeAt P b k := by
  refine ⟨?_, ?_, ?_⟩
  · rw [nodeAt_swapNodes _ _ _ _ _ _ _ hi hj, if_neg, if_pos ⟨rfl, rfl⟩]
    rintro ⟨h1, h2⟩; exact hne h1 h2
  · rw [nodeAt_swapNodes _ _ _ _ _ _ _ hi hj, if_pos ⟨rfl, rfl⟩]
  · intro b k h1 h2
    rw [nodeAt_swapNodes _ _ _ _ _ _ _ hi hj, if_neg h2, if_neg h1]

/-- exchanging two nodes without dependencies keeps everything about dependencies -/
theorem swap_free_together {P : Paths} {a1 i a2 j : Nat} (ha1 : a1 < P.length) (ha2 : a2 < P.length)
    (hi : i < (P.getD a1 []).length) (hj : j < (P.getD a2 []).length)
    (hne : a1 ≠ a2) (f1 : ∀ v, ¬ D (nodeAt P a1 i) v ∧ ¬ D v (nodeAt P a1 i))
    (f2 : ∀ v, ¬ D (nodeAt P a2 j) v ∧ ¬ D v (nodeAt P a2 j)) {a k l u v : Nat} (hd : D u v)
    (hu : nodeAt P a k = u) (hv : nodeAt P a l = v) :
    nodeAt (swapNodes P a1 i a2 j) a k = u ∧ nodeAt (swapNodes P a1 i a2 j) a l = v := by
  obtain ⟨_, _, h3⟩ := swap_pos hi hj (fun e => absurd e hne)
  constructor
  · rw [h3, hu]
    · rintro ⟨rfl, rfl⟩; exact (f1 v).1 (hu ▸ hd)
    · rintro ⟨rfl, rfl⟩; exact (f2 v).1 (hu ▸ hd)
  · rw [h3, hv]
    · rintro ⟨rfl, rfl⟩; exact (f1 u).2 (hv ▸ hd)
    · rintro ⟨rfl, rfl⟩; exact (f2 u).2 (hv ▸ hd)

theorem nodeAt_lt {P : Paths} (hn : ∀ x ∈ P.flatten, x < n) {a k : Nat} (h : InRange P a k) : nodeAt P a k < n :=
  hn _ (mem_flatten_nodeAt h)

theorem twoOpt_together (hA : 0 < P0.length) (hdeps : DepsAre deps n D)
    (hlt : ∀ x ∈ P0.flatten, x < n) (h0 : Together D P0) : Together D (twoOpt mode P0 w deps t).1.1 := by
  have key : ∀ t s, TOInv mode w P0 s → Together D s.paths →
      Together D (toLoop mode w deps P0.length t s).1.paths := by
    intro t
    induction t with
    | zero => intro s _ h; exact h
    | succ t ih =>
      intro s hs hT
      simp only [toLoop]
      split
      swap
      · exact hT
      refine ih _ (toRound_inv hs).1 ?_
      unfold toRound
      refine (round_inv mode w deps P0 (fun s => TOInv mode w P0 s ∧ Together D s.paths)
        (fun a1 a2 i u j s => (TOInv mode w P0 s ∧ Together D s.paths) ∧
          (a1 ≠ a2 → ∀ v, ¬ D (nodeAt s.paths a1 i) v ∧ ¬ D v (nodeAt s.paths a1 i)))
        (fun s h => h.1) ?_ ?_ (fun _ _ _ _ _ _ _ h => h.1) P0.length (le_refl _) { s with improved := false }
        ⟨⟨hs.shape, hs.lensLen, hs.longest, hs.info, hs.obj⟩, hT⟩).2
      · intro a1 a2 i s hI hv
        refine ⟨hI, fun hne v => ?_⟩
        refine hdeps.free _ (nodeAt_lt (fun x hx => hlt x (hI.1.shape.perm.mem_iff.1 hx)) ⟨?_, ?_⟩) (hv.free hne) v
        · rw [hI.1.shape.len]; exact hv.h1
        · rw [hI.1.shape.plen]; have := hv.i2; omega
      · rintro a1 a2 i u j s hv hj1 hlt' hj2 ⟨⟨hI, hT⟩, hfree⟩
        rcases stepJ_cases (mode := mode) (w := w) (deps := deps) (a1 := a1) (a2 := a2) (i := i) (u := u) (j := j) (s := s)
          with e | ⟨hsk, hpos, e⟩
        · rw [e]; exact ⟨⟨hI, hT⟩, hfree⟩
        rw [e]
        have hi2 : i + 1 < (s.paths.getD a1 []).length := by rw [hI.shape.plen]; exact hv.i2
        have hj2' : j + 1 < (s.paths.getD a2 []).length := by rw [hI.shape.plen]; exact hj2
        have ha1 : a1 < s.paths.length := by rw [hI.shape.len]; exact hv.h1
        have ha2 : a2 < s.paths.length := by rw [hI.shape.len]; exact hv.h2
        have hI' := hI.swap (b := true) hv.h1 hv.h2 hv.i1 hi2 hj1 hj2' hlt' hpos
        have hnlt : ∀ x ∈ s.paths.flatten, x < n := fun x hx => hlt x (hI.shape.perm.mem_iff.1 hx)
        have hne' : a1 = a2 → i ≠ j := fun e => by have := hlt' e; omega
        obtain ⟨q1, q2, q3⟩ := swap_pos (P := s.paths) (by omega) (by omega) hne'
        by_cases ha : a1 = a2
        · subst ha
          refine ⟨⟨hI', ?_⟩, fun h => absurd rfl h⟩
          intro x y hd
          obtain ⟨a, k, l, hk, hl, rfl, rfl⟩ := hT x y hd
          dsimp only
          have pos : ∀ k, InRange s.paths a k → ∃ k', InRange (swapNodes s.paths a1 i a1 j) a k' ∧
              nodeAt (swapNodes s.paths a1 i a1 j) a k' = nodeAt s.paths a k := by
            intro k hk
            have ir : ∀ k', k' < (s.paths.getD a []).length → InRange (swapNodes s.paths a1 i a1 j) a k' := by
              intro k' h'; exact ⟨by rw [swapNodes_length]; exact hk.1, by rw [swapNodes_path_length]; exact h'⟩
            by_cases h1 : a = a1 ∧ k = i
            · obtain ⟨rfl, rfl⟩ := h1; exact ⟨j, ir j (by omega), q2⟩
            · by_cases h2 : a = a1 ∧ k = j
              · obtain ⟨rfl, rfl⟩ := h2; exact ⟨i, ir i (by omega), q1⟩
              · exact ⟨k, ir k hk.2, q3 a k h1 h2⟩
          obtain ⟨k', hk', e1⟩ := pos k hk
          obtain ⟨l', hl', e2⟩ := pos l hl
          exact ⟨a, k', l', hk', hl', e1, e2⟩
        · have f1 := hfree ha
          have f2 : ∀ v, ¬ D (nodeAt s.paths a2 j) v ∧ ¬ D v (nodeAt s.paths a2 j) := by
            unfold skipJ at hsk
            by_cases hem : deps.isEmpty = true
            · intro v; exact ⟨hdeps.empty hem _ _, hdeps.empty hem _ _⟩
            · have : hasDeps deps (nodeAt s.paths a2 j) = false := by
                simpa [hem, ha] using hsk
              exact hdeps.free _ (nodeAt_lt hnlt ⟨ha2, by omega⟩) this
          refine ⟨⟨hI', ?_⟩, fun _ => ?_⟩
          · intro x y hd
            obtain ⟨a, k, l, hk, hl, hx, hy⟩ := hT x y hd
            obtain ⟨e1, e2⟩ := swap_free_together ha1 ha2 (by omega) (by omega) ha f1 f2 hd hx hy
            refine ⟨a, k, l, ?_, ?_, e1, e2⟩
            · exact ⟨by rw [swapNodes_length]; exact hk.1, by rw [swapNodes_path_length]; exact hk.2⟩
            · exact ⟨by rw [swapNodes_length]; exact hl.1, by rw [swapNodes_path_length]; exact hl.2⟩
          · dsimp only; rw [q1]; exact f2
  exact key t _ (TOInv.init mode w P0 hA true) h0

/-- The two nodes of a dependency stay on the same agent's path. -/
theorem twoOpt_keeps_groups (hA : 0 < P0.length) (hdeps : DepsAre deps n D)
    (hlt : ∀ x ∈ P0.flatten, x < n) (h0 : Grouped D P0) : Grouped D (twoOpt mode P0 w deps t).1.1 :=
  grouped_iff.2 (twoOpt_together hA hdeps hlt (grouped_iff.1 h0))

theorem respects_together {P : Paths} (h : Respects D P) : Together D P := by
  intro u v hd
  obtain ⟨a, k, l, ha, hkl, hl, hu, hv⟩ := (respects_iff_pos D P).1 h u v hd
  exact ⟨a, k, l, ⟨ha, by omega⟩, ⟨ha, hl⟩, hu, hv⟩

/-- a swap inside a path for which no arc leaves position `i` towards `(i, j]` and no arc enters position
`j` from `[i, j)` keeps all dependencies -/
theorem swap_same_respects {P : Paths} {a1 i j : Nat} (hij : i < j)
    (hj : j < (P.getD a1 []).length)
    (c1 : ∀ l, i < l → l < j → ¬ D (nodeAt P a1 i) (nodeAt P a1 l))
    (c2 : ∀ k, i ≤ k → k < j → ¬ D (nodeAt P a1 k) (nodeAt P a1 j)) (h : Respects D P) :
    Respects D (swapNodes P a1 i a1 j) := by
  rw [respects_iff_pos] at h ⊢
  obtain ⟨q1, q2, q3⟩ := swap_pos (P := P) (a1 := a1) (i := i) (a2 := a1) (j := j) (by omega) hj (fun _ => by omega)
  intro u v hd
  obtain ⟨a, k, l, ha, hkl, hl, rfl, rfl⟩ := h u v hd
  rw [swapNodes_length]
  by_cases haa : a = a1
  swap
  · refine ⟨a, k, l, ha, hkl, by rw [swapNodes_path_length]; exact hl, ?_, ?_⟩
    · exact q3 a k (fun h => haa h.1) (fun h => haa h.1)
    · exact q3 a l (fun h => haa h.1) (fun h => haa h.1)
  subst haa
  by_cases hki : k = i
  · subst hki
    by_cases hlj : l = j
    · subst hlj; exact absurd hd (c2 k (le_refl _) hij)
    · by_cases hlt : l < j
      · exact absurd hd (c1 l hkl hlt)
      · exact ⟨a, j, l, ha, by omega, by rw [swapNodes_path_length]; exact hl, q2, q3 a l (by omega) (by omega)⟩
  · by_cases hkj : k = j
    · subst hkj
      exact ⟨a, i, l, ha, by omega, by rw [swapNodes_path_length]; exact hl, q1, q3 a l (by omega) (by omega)⟩
    · by_cases hli : l = i
      · subst hli
        exact ⟨a, k, j, ha, by omega, by rw [swapNodes_path_length]; exact hj, q3 a k (by omega) (by omega), q2⟩
      · by_cases hlj : l = j
        · subst hlj
          have hk : k < i := by
            by_contra hc
            exact c2 k (by omega) hkl hd
          exact ⟨a, k, i, ha, hk, by rw [swapNodes_path_length]; omega, q3 a k (by omega) (by omega), q1⟩
        · exact ⟨a, k, l, ha, hkl, by rw [swapNodes_path_length]; exact hl, q3 a k (by omega) (by omega), q3 a l (by omega) (by omega)⟩

/-- order on paths of at most three inner nodes -/
theorem twoOpt_short (hA : 0 < P0.length) (hdeps : DepsAre deps n D)
    (hlt : ∀ x ∈ P0.flatten, x < n) (hnd : P0.flatten.Nodup) (hshort : ∀ p ∈ P0, p.length ≤ 5)
    (h0 : Respects D P0) : Respects D (twoOpt mode P0 w deps t).1.1 := by
  have key : ∀ t s, TOInv mode w P0 s → Respects D s.paths →
      Respects D (toLoop mode w deps P0.length t s).1.paths := by
    intro t
    induction t with
    | zero => intro s _ h; exact h
    | succ t ih =>
      intro s hs hT
      simp only [toLoop]
      split
      swap
      · exact hT
      refine ih _ (toRound_inv hs).1 ?_
      unfold toRound
      refine (round_inv mode w deps P0 (fun s => TOInv mode w P0 s ∧ Respects D s.paths)
        (fun a1 a2 i u j s => (TOInv mode w P0 s ∧ Respects D s.paths) ∧
          (a1 ≠ a2 → ∀ v, ¬ D (nodeAt s.paths a1 i) v ∧ ¬ D v (nodeAt s.paths a1 i)) ∧
          (a1 = a2 → nodeAt s.paths a1 i = u ∨ ∃ j0, i < j0 ∧ j0 < j ∧
            ∀ k, i < k → k ≤ j0 → ¬ D (nodeAt s.paths a1 i) (nodeAt s.paths a1 k)))
        (fun s h => h.1) ?_ ?_ (fun _ _ _ _ _ _ _ h => h.1) P0.length (le_refl _) { s with improved := false }
        ⟨⟨hs.shape, hs.lensLen, hs.longest, hs.info, hs.obj⟩, hT⟩).2
      · intro a1 a2 i s hI hv
        refine ⟨hI, fun hne v => ?_, fun _ => Or.inl rfl⟩
        refine hdeps.free _ (nodeAt_lt (fun x hx => hlt x (hI.1.shape.perm.mem_iff.1 hx)) ⟨?_, ?_⟩) (hv.free hne) v
        · rw [hI.1.shape.len]; exact hv.h1
        · rw [hI.1.shape.plen]; have := hv.i2; omega
      · rintro a1 a2 i u j s hv hj1 hlt' hj2 ⟨⟨hI, hT⟩, hfree, hstale⟩
        rcases stepJ_cases (mode := mode) (w := w) (deps := deps) (a1 := a1) (a2 := a2) (i := i) (u := u) (j := j) (s := s)
          with e | ⟨hsk, hpos, e⟩
        · rw [e]
          refine ⟨⟨hI, hT⟩, hfree, fun ha => ?_⟩
          rcases hstale ha with h | ⟨j0, h1, h2, h3⟩
          · exact Or.inl h
          · exact Or.inr ⟨j0, h1, by omega, h3⟩
        rw [e]
        have hi2 : i + 1 < (s.paths.getD a1 []).length := by rw [hI.shape.plen]; exact hv.i2
        have hj2' : j + 1 < (s.paths.getD a2 []).length := by rw [hI.shape.plen]; exact hj2
        have ha1 : a1 < s.paths.length := by rw [hI.shape.len]; exact hv.h1
        have ha2 : a2 < s.paths.length := by rw [hI.shape.len]; exact hv.h2
        have hI' := hI.swap (b := true) hv.h1 hv.h2 hv.i1 hi2 hj1 hj2' hlt' hpos
        have hnlt : ∀ x ∈ s.paths.flatten, x < n := fun x hx => hlt x (hI.shape.perm.mem_iff.1 hx)
        have hnds : s.paths.flatten.Nodup := hI.shape.perm.nodup_iff.2 hnd
        have hne' : a1 = a2 → i ≠ j := fun e => by have := hlt' e; omega
        obtain ⟨q1, q2, q3⟩ := swap_pos (P := s.paths) (by omega) (by omega) hne'
        by_cases ha : a1 = a2
        · subst ha
          have hij := hlt' rfl
          -- no arc backwards
          have hback : ∀ k l, k < l → l < (s.paths.getD a1 []).length → ¬ D (nodeAt s.paths a1 l) (nodeAt s.paths a1 k) := by
            intro k l hkl hl hd
            obtain ⟨b, k', l', hb, hkl', hl', e1, e2⟩ := (respects_iff_pos D s.paths).1 hT _ _ hd
            obtain ⟨_, r1⟩ := nodeAt_inj hnds ⟨hb, by omega⟩ ⟨ha1, hl⟩ e1
            obtain ⟨_, r2⟩ := nodeAt_inj hnds ⟨hb, hl'⟩ ⟨ha1, by omega⟩ e2
            omega
          have hlen5 : (s.paths.getD a1 []).length ≤ 5 := by
            rw [hI.shape.plen]
            exact hshort _ (List.mem_of_getElem? (getElem?_of_getD hv.h1))
          -- what the check guarantees
          have hchk : (∀ k, i ≤ k → k < j → ¬ D u (nodeAt s.paths a1 (k + 1)) ∧ ¬ D (nodeAt s.paths a1 k) (nodeAt s.paths a1 j)) ∨
              (∀ x y, ¬ D x y) := by
            by_cases hem : deps.isEmpty = true
            · exact Or.inr (hdeps.empty hem)
            left
            have hwb : wouldBreak deps s.paths a1 u (nodeAt s.paths a1 j) i j = false := by
              simpa [skipJ, hem] using hsk
            unfold wouldBreak at hwb
            rw [List.any_eq_false] at hwb
            intro k hk1 hk2
            have := hwb k (by rw [List.mem_range'_1]; omega)
            simp only [Bool.or_eq_true, not_or] at this
            have hk : nodeAt s.paths a1 k < n := nodeAt_lt hnlt ⟨ha1, by omega⟩
            have hk' : nodeAt s.paths a1 (k + 1) < n := nodeAt_lt hnlt ⟨ha1, by omega⟩
            have hjn : nodeAt s.paths a1 j < n := nodeAt_lt hnlt ⟨ha1, by omega⟩
            refine ⟨fun hd => ?_, fun hd => this.2 ((hdeps.arc _ _ hk hjn).2 hd)⟩
            by_cases hun : u < n
            · exact this.1 ((hdeps.arc _ _ hun hk').2 hd)
            · -- `u` is a node of some path
              obtain ⟨b, k', l', hb, hkl', hl', e1, e2⟩ := (respects_iff_pos D s.paths).1 hT _ _ hd
              exact hun (e1 ▸ nodeAt_lt hnlt ⟨hb, by omega⟩)
          have c2 : ∀ k, i ≤ k → k < j → ¬ D (nodeAt s.paths a1 k) (nodeAt s.paths a1 j) := by
            intro k h1 h2
            rcases hchk with h | h
            · exact (h k h1 h2).2
            · exact h _ _
          have c1 : ∀ l, i < l → l < j → ¬ D (nodeAt s.paths a1 i) (nodeAt s.paths a1 l) := by
            intro l h1 h2
            rcases hchk with h | h
            · rcases hstale rfl with hu | ⟨j0, g1, g2, g3⟩
              · have := (h (l - 1) (by omega) (by omega)).1
                rw [hu]; rwa [show l - 1 + 1 = l by omega] at this
              · have := hv.i1
                exact g3 l h1 (by omega)
            · exact h _ _
          refine ⟨⟨hI', swap_same_respects hij (by omega) c1 c2 hT⟩, fun h => absurd rfl h, fun _ => Or.inr ⟨j, hij, by omega, ?_⟩⟩
          intro k hk1 hk2
          dsimp only
          rw [q1]
          by_cases hkj : k = j
          · rw [hkj, q2]; exact hback i j hij (by omega)
          · rw [q3 a1 k (by omega) (by omega)]; exact hback k j (by omega) (by omega)
        · have f1 := hfree ha
          have f2 : ∀ v, ¬ D (nodeAt s.paths a2 j) v ∧ ¬ D v (nodeAt s.paths a2 j) := by
            unfold skipJ at hsk
            by_cases hem : deps.isEmpty = true
            · intro v; exact ⟨hdeps.empty hem _ _, hdeps.empty hem _ _⟩
            · have : hasDeps deps (nodeAt s.paths a2 j) = false := by
                simpa [hem, ha] using hsk
              exact hdeps.free _ (nodeAt_lt hnlt ⟨ha2, by omega⟩) this
          refine ⟨⟨hI', ?_⟩, fun _ => ?_, fun h => absurd h ha⟩
          · rw [respects_iff_pos] at hT ⊢
            intro x y hd
            obtain ⟨a, k, l, hak, hkl, hl, hx, hy⟩ := hT x y hd
            obtain ⟨e1, e2⟩ := swap_free_together ha1 ha2 (by omega) (by omega) ha f1 f2 hd hx hy
            exact ⟨a, k, l, by rw [swapNodes_length]; exact hak, hkl, by rw [swapNodes_path_length]; exact hl, e1, e2⟩
          · dsimp only; rw [q1]; exact f2
  exact key t _ (TOInv.init mode w P0 hA true) h0

/-- order at starts and ends -/
theorem twoOpt_start_end (hA : 0 < P0.length) (hdeps : DepsAre deps n D)
    (hlt : ∀ x ∈ P0.flatten, x < n) (hnd : P0.flatten.Nodup) (h0 : Grouped D P0)
    {u v : Nat} (hne : u ≠ v) (hd : D u v) (huv : (∃ p ∈ P0, p.head? = some u) ∨ (∃ p ∈ P0, p.getLast? = some v)) :
    ∃ p ∈ (twoOpt mode P0 w deps t).1.1, Before p u v := by
  have hT := twoOpt_together (mode := mode) (w := w) (t := t) hA hdeps hlt (grouped_iff.1 h0) u v hd
  obtain ⟨c1, c2, c3⟩ := C28_only_inner_nodes_exchanged (mode := mode) (w := w) (deps := deps) (t := t) hA
  generalize (twoOpt mode P0 w deps t).1.1 = P at *
  have hndP : P.flatten.Nodup := c3.nodup_iff.2 hnd
  obtain ⟨a, k, l, hk, hl, hu, hv⟩ := hT
  refine ⟨P.getD a [], List.mem_of_getElem? (getElem?_of_getD hk.1), (before_iff_pos _ u v).2 ⟨k, l, ?_, hl.2, hu, hv⟩⟩
  have hkl : k ≠ l := by rintro rfl; exact hne (hu.symm.trans hv)
  rcases huv with ⟨p, hp, hh⟩ | ⟨p, hp, hh⟩
  · obtain ⟨b, hb⟩ := List.mem_iff_getElem?.1 hp
    obtain ⟨q, hq, _, e, _⟩ := c2 b p hb
    have hbl : b < P.length := (List.getElem?_eq_some_iff.1 hq).1
    have hq' := getD_of_getElem? hq
    have hpos : 0 < q.length := by
      cases q with
      | nil => rw [hh] at e; simp at e
      | cons => simp
    have h0' : nodeAt P b 0 = u := by
      have := head?_eq_nodeAt P b (by rw [hq']; exact hpos)
      rw [hq', e, hh] at this; simpa using this.symm
    obtain ⟨_, r⟩ := nodeAt_inj hndP hk ⟨hbl, by rw [hq']; exact hpos⟩ (hu.trans h0'.symm)
    omega
  · obtain ⟨b, hb⟩ := List.mem_iff_getElem?.1 hp
    obtain ⟨q, hq, _, _, e⟩ := c2 b p hb
    have hbl : b < P.length := (List.getElem?_eq_some_iff.1 hq).1
    have hq' := getD_of_getElem? hq
    have hpos : 0 < q.length := by
      cases q with
      | nil => rw [hh] at e; simp at e
      | cons => simp
    have h0' : nodeAt P b (q.length - 1) = v := by
      unfold nodeAt
      rw [hq']
      rw [hh, List.getLast?_eq_getElem?] at e
      rw [List.getD_eq_getElem?_getD, e]; rfl
    obtain ⟨r0, r⟩ := nodeAt_inj hndP hl ⟨hbl, by rw [hq']; omega⟩ (hv.trans h0'.symm)
    have := hk.2
    rw [r0, hq'] at this
    omega

end Deps

section Main
variable {mode : Mode} {w wd : Weights} {P0 : Paths} {n t : Nat}

/-- **C30, first half.** The two nodes of a dependency stay on the same agent's path.  (`wd` are the weights with the flags, `w`
those that are used for the lengths; in the program both are the same.) -/
theorem C30_dependent_nodes_stay_together (hA : 0 < P0.length) (hlt : ∀ x ∈ P0.flatten, x < n) (h0 : Grouped (DepIn n wd) P0) :
    Grouped (DepIn n wd) (twoOpt mode P0 w (DepGraph.make n wd) t).1.1 :=
  twoOpt_keeps_groups hA (depsAre_make n wd) hlt h0

/-- **C30 (partial), order.** Dependencies that the given paths respect are respected by the improved
paths, if no path has more than three inner nodes.  For longer paths the order can be lost, because the
code goes on comparing with the node it read before the first exchange: `C30_refuted`. -/
theorem C30_short_paths_partial (hA : 0 < P0.length) (hlt : ∀ x ∈ P0.flatten, x < n) (hnd : P0.flatten.Nodup) (hshort : ∀ p ∈ P0, p.length ≤ 5)
    (h0 : Respects (DepIn n wd) P0) : Respects (DepIn n wd) (twoOpt mode P0 w (DepGraph.make n wd) t).1.1 :=
  twoOpt_short hA (depsAre_make n wd) hlt hnd hshort h0

/-- **C30, second half for starts and ends.** A dependency from a path's first node or into a path's last
node is respected by the improved paths, for paths of any length, if its nodes are on the same given path (in any order),
and so are those of the other dependencies. -/
theorem C30_start_end_order (hA : 0 < P0.length) (hlt : ∀ x ∈ P0.flatten, x < n) (hnd : P0.flatten.Nodup) (h0 : Grouped (DepIn n wd) P0)
    {u v : Nat} (hne : u ≠ v) (hd : DepIn n wd u v) (huv : (∃ p ∈ P0, p.head? = some u) ∨ (∃ p ∈ P0, p.getLast? = some v)) :
    ∃ p ∈ (twoOpt mode P0 w (DepGraph.make n wd) t).1.1, Before p u v :=
  twoOpt_start_end hA (depsAre_make n wd) hlt hnd h0 hne hd huv

end Main

/-! ### C30 is false in full -/

/-- six nodes, start 0, end 5, node 2 before node 3; every arc costs 1, but the arc from 0 to 1 costs 10 -/
def c30W : Weights := fun v u => if v = 3 ∧ u = 2 then -1 else if v = 0 ∧ u = 1 then 10 else 1

/-- **C30 is false in full**: here the given paths are feasible and the improved paths are not. -/
theorem C30_refuted : ∃ (rows : Nat) (w : Weights) (starts ends : List Nat) (m : WM) (P : Paths) (t : Nat),
    WM.make rows rows w starts ends = .ok m ∧ Feasible m.n m.starts m.ends (DepIn m.n m.w) P ∧
    ¬ Respects (DepIn m.n m.w) (twoOpt .sum P m.w m.deps t).1.1 := by
  have key : testOk (WM.make 6 6 c30W [0] [5]) (fun m =>
      decide (m.n = 6 ∧ m.starts = [0] ∧ m.ends = [5] ∧ m.w 3 2 = -1 ∧
        (twoOpt .sum [[0, 1, 2, 3, 4, 5]] m.w m.deps 5).1.1 = [[0, 4, 1, 3, 2, 5]] ∧
        (∀ u ∈ List.range 6, ∀ v ∈ List.range 6, m.w v u = -1 → u < v))) = true := by decide +kernel
  obtain ⟨m, hm, k⟩ := testOk_iff key
  obtain ⟨hn, hs, he, hw, hr, hd⟩ := of_decide_eq_true k
  refine ⟨6, c30W, [0], [5], m, [[0, 1, 2, 3, 4, 5]], 5, hm, ⟨⟨by simp [hs], ?_, ?_, ?_⟩, ?_⟩, ?_⟩
  · intro a p hp
    have := (List.getElem?_eq_some_iff.1 hp).1
    have ha : a = 0 := by simpa using this
    subst ha; simp at hp; subst hp; simp [hs]
  · intro a p hp
    have := (List.getElem?_eq_some_iff.1 hp).1
    have ha : a = 0 := by simpa using this
    subst ha; simp at hp; subst hp; simp [he]
  · rw [hn]; exact List.Perm.refl _
  · rintro u v ⟨hu, hv, h⟩
    rw [hn] at hu hv
    have hlt := hd u (List.mem_range.2 hu) v (List.mem_range.2 hv) h
    refine ⟨_, List.mem_singleton.2 rfl, ?_⟩
    rw [before_iff_pos]
    have e : ∀ x, x < 6 → [0, 1, 2, 3, 4, 5].getD x 0 = x := by decide
    exact ⟨u, v, hlt, hv, e u hu, e v hv⟩
  · intro h
    rw [hr] at h
    obtain ⟨p, hp, hb⟩ := h 2 3 ⟨by omega, by omega, hw⟩
    rw [List.mem_singleton.1 hp, before_iff_idxOf (by decide)] at hb
    revert hb; decide

/-! Non-vacuity: two agents, a dependency, an exchange between the paths and one inside a path. -/

def toExW : Weights := fun v u => if v = 3 ∧ u = 2 then -1 else if v = 0 ∧ u = 1 then 1 else
  if v = 4 ∧ u = 7 then 1 else 5

example : testOk (WM.make 9 9 toExW [0, 4] [6, 8]) (fun m =>
    decide (m.n = 9 ∧ m.w 3 2 = -1 ∧ (twoOpt .sum [[0, 7, 2, 3, 6], [4, 5, 1, 8]] m.w m.deps 7).1 = ([[0, 1, 2, 3, 6], [4, 7, 5, 8]], 8))) = true := by
  decide +kernel

example : testOk (WM.make 9 9 toExW [0, 4] [6, 8]) (fun m =>
    decide ((twoOpt .max [[0, 7, 2, 3, 6], [4, 5, 1, 8]] m.w m.deps 7).1 = ([[0, 1, 2, 3, 6], [4, 5, 7, 8]], 4))) = true := by
  decide +kernel

end Mtsp
