import Verif.Proof.Queue

/-! Properties C06–C10 of the branch-and-cut queue, for all legal histories of operations by any number
of threads, and for every heap implementation meeting the C++ standard's contract (`libstdcxx` is one). -/

namespace Mtsp

variable {H : HeapImpl} {n : Nat} {tr : QTrace} {s : QState}

/-- C10: nodes handed out so far together with the nodes still queued are exactly the nodes pushed so
far (before `ClearAll`), each exactly once and with unchanged data. -/
theorem C10_no_node_lost_or_duplicated (h : QReach H n tr s) :
    (poppedNodes tr ++ s.heap).Perm (pushedNodes tr) := (reach_abs h).perm

/-- C06: `GetLowerBound` succeeds and returns the minimum over all nodes still queued (pushed, not yet
handed out) and all nodes threads are working on, `-DBL_MAX` if there are none. -/
theorem C06_lower_bound_is_minimum (h : QReach H n tr s) (q : List SData)
    (hq : (poppedNodes tr ++ q).Perm (pushedNodes tr)) :
    ∃ v, (s.step H .getLowerBound).1 = .ok (.bound v) ∧
      IsQueueBound (q.map (·.lb) ++ boundsInWork tr n) v := by
  obtain ⟨v, hv, hb⟩ := calcLB_spec s (reach_inv h)
  refine ⟨v, by simp [QState.step, hv, Except.map], ?_⟩
  unfold QState.allBounds at hb
  rw [(reach_abs h).inWork] at hb
  refine hb.perm (List.Perm.append_right _ (List.Perm.map _ ?_))
  exact (List.perm_append_left_iff _).1 ((reach_abs h).perm.trans hq.symm)

/-- C07: a node handed out by `Pop` is at least as good as every node that stays queued. -/
theorem C07_pop_hands_out_best (h : QReach H n tr s) (t : Nat) (d : SData)
    (hd : (s.step H (.pop t)).1 = .ok (.node d)) (q : List SData)
    (hq : (poppedNodes tr ++ d :: q).Perm (pushedNodes tr)) : ∀ y ∈ q, d.lb ≤ y.lb := by
  have hi := reach_inv h
  have ha := reach_abs h
  simp only [QState.step] at hd
  by_cases ht : t < s.workedOn.length
  swap
  · unfold QState.pop at hd; rw [if_pos (by omega)] at hd; simp at hd
  rcases pop_cases H s t hi ht with ⟨_, _, _, e⟩ | ⟨_, e⟩ | ⟨hc, d', r, l, hh, hp, hheap, hbest, e⟩
  · rw [e] at hd; simp at hd
  · rw [e] at hd; simp at hd
  · rw [e] at hd
    simp only [Except.ok.injEq, QOut.node.injEq] at hd
    subst hd
    intro y hy
    have h1 : (d' :: q).Perm s.heap := (List.perm_append_left_iff _).1 (hq.trans ha.perm.symm)
    rw [hh] at h1
    have h2 : q.Perm l := (List.perm_cons d').1 h1
    exact hbest y (hp.mem_iff.2 (h2.mem_iff.1 hy))

/-- helper for C08 -/
theorem IsQueueBound.mono {l m : List ℚ} {v w : ℚ} (hl : IsQueueBound l v) (hm : IsQueueBound m w)
    (hr : ∀ x ∈ m, -dblMax ≤ x) (hne : l ≠ [] → m ≠ []) (h : l ≠ [] → ∀ x ∈ m, v ≤ x) : v ≤ w := by
  rcases hl with ⟨e, rfl⟩ | ⟨h1, h2⟩
  · rcases hm with ⟨_, rfl⟩ | ⟨h1', _⟩
    · exact le_refl _
    · exact hr _ h1'
  · have hl0 : l ≠ [] := List.ne_nil_of_mem h1
    rcases hm with ⟨e, _⟩ | ⟨h1', _⟩
    · exact absurd e (hne hl0)
    · exact h hl0 _ h1'

theorem allBounds_range {s : QState} (h : QInv s) : ∀ x ∈ s.allBounds, -dblMax ≤ x := by
  intro x hx
  simp only [QState.allBounds, List.mem_append, List.mem_map, List.mem_filterMap, id] at hx
  rcases hx with ⟨d, hd, rfl⟩ | ⟨a, ha, rfl⟩
  · exact (h.rangeH d hd).1
  · exact (h.rangeW x ha).1

theorem pushNodes_mono (H : HeapImpl) (s : QState) (v : ℚ) (nodes : List SData) (h : QInv s)
    (hv : ∀ d ∈ nodes, d.lb = v) (hr : -dblMax ≤ v ∧ v < dblMax)
    {a b : ℚ} (ha : IsQueueBound s.allBounds a) (hb : IsQueueBound (s.pushNodes H v nodes).2.allBounds b) :
    a ≤ b := by
  have hi' := pushNodes_inv H s v nodes h (fun d hd => by rw [hv d hd]; exact hr)
  revert hb hi'
  obtain ⟨lb, hlb, hq⟩ := calcLB_spec s h
  have hlba := hq.unique ha
  subst hlba
  unfold QState.pushNodes
  rw [hlb]
  split
  · intro hb hi'; exact (ha.unique hb).le
  · split
    · exact fun hb hi' => (ha.unique hb).le
    · next _ e =>
      simp only [Except.ok.injEq] at e; subst e
      split
      · intro hb hi'; exact (ha.unique hb).le
      · next hlt =>
        intro hb hi'
        push Not at hlt
        refine ha.mono hb (allBounds_range hi') ?_ ?_
        · intro hne hnil
          simp only [QState.allBounds, List.append_eq_nil_iff, List.map_eq_nil_iff] at hnil
          obtain ⟨e1, e2⟩ := hnil
          have hp := pushFold_perm H nodes s.heap
          rw [e1] at hp
          have hp2 := hp.symm.eq_nil
          simp only [List.append_eq_nil_iff] at hp2
          exact hne (by simp only [QState.allBounds, hp2.1, e2]; rfl)
        · intro hne x hx
          simp only [QState.allBounds, List.mem_append, List.mem_map] at hx
          have hall : ∀ w ∈ s.allBounds, lb ≤ w := by
            rcases ha with ⟨e, _⟩ | ⟨_, h2⟩
            · exact absurd e hne
            · exact h2
          rcases hx with ⟨d, hd, rfl⟩ | hx
          · rcases List.mem_append.1 ((pushFold_perm H nodes s.heap).mem_iff.1 hd) with hd | hd
            · exact hall _ (by simp only [QState.allBounds, List.mem_append, List.mem_map]; exact Or.inl ⟨d, hd, rfl⟩)
            · rw [hv d hd]; exact hlt
          · exact hall _ (by simp only [QState.allBounds, List.mem_append]; exact Or.inr hx)

theorem filterMap_set_mem {w : List (Option ℚ)} {t : Nat} {p : Option ℚ} {x : ℚ}
    (h : x ∈ (w.set t p).filterMap id) : x ∈ w.filterMap id ∨ p = some x := by
  simp only [List.mem_filterMap, id] at h
  obtain ⟨a, ha, rfl⟩ := h
  rcases mem_set_cases ha with h | h
  · left; simp only [List.mem_filterMap, id]; exact ⟨_, h, rfl⟩
  · right; exact h.symm

/-- C08: no operation lowers `GetLowerBound`, except the completion of the last node in work when nothing
is queued, after which the bound is `-DBL_MAX`. -/
theorem C08_lower_bound_monotone (h : QReach H n tr s) (op : QOp) (hl : s.Legal op) (v w : ℚ)
    (hv : (s.step H .getLowerBound).1 = .ok (.bound v))
    (hw : ((s.step H op).2.step H .getLowerBound).1 = .ok (.bound w)) :
    v ≤ w ∨ ((∃ t, op = .done t) ∧ (pushedNodes tr).Perm (poppedNodes tr) ∧
        boundsInWork (tr ++ [(op, (s.step H op).1)]) n = [] ∧ w = -dblMax) := by
  have hi := reach_inv h
  have ha := reach_abs h
  have hi' := step_inv H s op hi hl
  have ha' := reach_abs (QReach.step tr s op h hl)
  obtain ⟨v', hv', hbv⟩ := calcLB_spec s hi
  obtain ⟨w', hw', hbw⟩ := calcLB_spec _ hi'
  simp only [QState.step, hv', Except.map, Except.ok.injEq, QOut.bound.injEq] at hv
  have hw2 : w' = w := by
    have : ((s.step H op).2.step H .getLowerBound).1 = (Except.ok (.bound w') : Except Err QOut) := by
      show ((s.step H op).2.calcLB.map QOut.bound) = _
      rw [hw']; rfl
    rw [this] at hw; simpa using hw
  subst hv; subst hw2
  cases op with
  | getLowerBound => left; exact (hbv.unique hbw).le
  | clearAll => left; exact (hbv.unique hbw).le
  | pushResult x =>
    left; exact pushNodes_mono H s x _ hi (by simp) hl hbv hbw
  | push x f0 f1 =>
    left; exact pushNodes_mono H s x _ hi (by simp) hl hbv hbw
  | pushBranch x f0 f1 var rec0 =>
    left; exact pushNodes_mono H s x _ hi (by simp [branchNodes]) hl hbv hbw
  | pop t =>
    left
    simp only [QState.step] at hbw hi'
    by_cases ht : t < s.workedOn.length
    swap
    · have : s.pop H t = (.error (.logic "Wrong threadId"), s) := by
        unfold QState.pop; rw [if_pos (by omega)]
      rw [this] at hbw; exact (hbv.unique hbw).le
    rcases pop_cases H s t hi ht with ⟨_, _, _, e⟩ | ⟨_, e⟩ | ⟨hc, d, r, l, hh, hp, hheap, hbest, e⟩
    · rw [e] at hbw; exact (hbv.unique hbw).le
    · rw [e] at hbw; exact (hbv.unique hbw).le
    · rw [e] at hbw hi'
      have hnone : s.workedOn[t]? = some none := hl (by simp [ht])
      refine hbv.mono hbw (allBounds_range hi') ?_ ?_
      · intro _ hnil
        simp only [QState.allBounds, List.append_eq_nil_iff] at hnil
        have hmem : some d.lb ∈ s.workedOn.set t (some d.lb) := List.mem_set ht _
        have : d.lb ∈ (s.workedOn.set t (some d.lb)).filterMap id := by
          simp only [List.mem_filterMap, id]; exact ⟨_, hmem, rfl⟩
        rw [hnil.2] at this; simp at this
      · intro hne x hx
        have hall : ∀ w ∈ s.allBounds, v' ≤ w := by
          rcases hbv with ⟨e, _⟩ | ⟨_, h2⟩
          · exact absurd e hne
          · exact h2
        simp only [QState.allBounds, List.mem_append, List.mem_map] at hx
        rcases hx with ⟨y, hy, rfl⟩ | hx
        · exact hall _ (by simp only [QState.allBounds, List.mem_append, List.mem_map]
                           exact Or.inl ⟨y, by rw [hh]; exact List.mem_cons_of_mem _ (hp.mem_iff.1 hy), rfl⟩)
        · rcases filterMap_set_mem hx with hx | hx
          · exact hall _ (by simp only [QState.allBounds, List.mem_append]; exact Or.inr hx)
          · simp at hx; subst hx
            exact hall _ (by simp only [QState.allBounds, List.mem_append, List.mem_map]
                             exact Or.inl ⟨d, by rw [hh]; simp, rfl⟩)
  | updateCurrentLowerBound t x =>
    left
    simp only [QState.step, QState.updateCurrentLowerBound] at hbw hi'
    split at hbw
    · exact (hbv.unique hbw).le
    · exact (hbv.unique hbw).le
    · next o hw0 =>
      split at hbw
      · exact (hbv.unique hbw).le
      · next hlt =>
        rw [hw0] at hi'
        simp only [hlt, if_false] at hi'
        push Not at hlt
        have htl : t < s.workedOn.length := by rw [List.getElem?_eq_some_iff] at hw0; exact hw0.1
        refine hbv.mono hbw (allBounds_range hi') ?_ ?_
        · intro _ hnil
          simp only [QState.allBounds, List.append_eq_nil_iff] at hnil
          have : x ∈ (s.workedOn.set t (some x)).filterMap id := by
            simp only [List.mem_filterMap, id]; exact ⟨_, List.mem_set htl _, rfl⟩
          rw [hnil.2] at this; simp at this
        · intro hne y hy
          have hall : ∀ w ∈ s.allBounds, v' ≤ w := by
            rcases hbv with ⟨e, _⟩ | ⟨_, h2⟩
            · exact absurd e hne
            · exact h2
          simp only [QState.allBounds, List.mem_append] at hy
          rcases hy with hy | hy
          · exact hall _ (by simp only [QState.allBounds, List.mem_append]; exact Or.inl hy)
          · rcases filterMap_set_mem hy with hy | hy
            · exact hall _ (by simp only [QState.allBounds, List.mem_append]; exact Or.inr hy)
            · simp at hy; subst hy
              refine le_trans (hall o ?_) hlt
              simp only [QState.allBounds, List.mem_append, List.mem_filterMap, id]
              exact Or.inr ⟨some o, List.mem_of_getElem? hw0, rfl⟩
  | done t =>
    simp only [QState.step, QState.notifyDone] at hbw hi' ha' ⊢
    split at hbw
    · left; exact (hbv.unique hbw).le
    · left; exact (hbv.unique hbw).le
    · next o hw0 =>
      rw [hw0] at hi' ha'
      simp only at hi' ha'
      simp only
      by_cases hnil : ({ s with workedOn := s.workedOn.set t none, count := s.count - 1 } : QState).allBounds = []
      · right
        have hw1 : w' = -dblMax := by
          rcases hbw with ⟨_, e⟩ | ⟨e, _⟩
          · exact e
          · rw [hnil] at e; simp at e
        simp only [QState.allBounds, List.append_eq_nil_iff, List.map_eq_nil_iff] at hnil
        refine ⟨⟨t, rfl⟩, ?_, ?_, hw1⟩
        · have := ha.perm; rw [hnil.1] at this; simpa using this.symm
        · rw [← ha'.inWork]; exact hnil.2
      · left
        refine hbv.mono hbw (allBounds_range hi') (fun _ => hnil) ?_
        intro hne y hy
        have hall : ∀ w ∈ s.allBounds, v' ≤ w := by
          rcases hbv with ⟨e, _⟩ | ⟨_, h2⟩
          · exact absurd e hne
          · exact h2
        simp only [QState.allBounds, List.mem_append] at hy
        rcases hy with hy | hy
        · exact hall _ (by simp only [QState.allBounds, List.mem_append]; exact Or.inl hy)
        · rcases filterMap_set_mem hy with hy | hy
          · exact hall _ (by simp only [QState.allBounds, List.mem_append]; exact Or.inr hy)
          · simp at hy

/-- The three kinds of push and the bound they submit. -/
inductive IsPush : QOp → ℚ → Prop
  | result (v) : IsPush (.pushResult v) v
  | push (v f0 f1) : IsPush (.push v f0 f1) v
  | branch (v f0 f1 var rec0) : IsPush (.pushBranch v f0 f1 var rec0) v

/-- C09: before `ClearAll` a push fails exactly when its bound is below `GetLowerBound`, and a failed push
changes nothing. -/
theorem C09_push_refused_iff_below_bound (h : QReach H n tr s) (hc : ∀ e ∈ tr, isClear e = false)
    (op : QOp) (v : ℚ) (hp : IsPush op v) (b : ℚ) (hb : (s.step H .getLowerBound).1 = .ok (.bound b)) :
    ((s.step H op).1 = .error (.logic "cannot push smaller lower bound") ↔ v < b) ∧
    ((s.step H op).1 = .ok .unit ↔ b ≤ v) ∧
    (v < b → (s.step H op).2 = s) := by
  have hi := reach_inv h
  have hcl : s.cleared = false := by
    rw [(reach_abs h).cleared, List.any_eq_false]; intro e he; simp [hc e he]
  obtain ⟨b', hb', _⟩ := calcLB_spec s hi
  simp only [QState.step, hb', Except.map, Except.ok.injEq, QOut.bound.injEq] at hb
  subst hb
  have key : ∀ nodes,
      ((s.pushNodes H v nodes).1 = .error (.logic "cannot push smaller lower bound") ↔ v < b') ∧
      ((s.pushNodes H v nodes).1 = .ok .unit ↔ b' ≤ v) ∧ (v < b' → (s.pushNodes H v nodes).2 = s) := by
    intro nodes
    unfold QState.pushNodes
    simp only [hcl, Bool.false_eq_true, if_false, hb']
    by_cases hlt : v < b'
    · simp [hlt]
    · simp only [hlt, if_false, reduceCtorEq, true_iff, true_and, false_imp_iff, and_true]
      push Not at hlt; exact hlt
  cases hp with
  | result v => exact key _
  | push v f0 f1 => exact key _
  | branch v f0 f1 var rec0 => exact key _

/-- C09: once `ClearAll` has been called, every push succeeds without effect and every `Pop` returns
nothing (unless the thread id is wrong). -/
theorem C09_cleared_queue_ignores_pushes (h : QReach H n tr s) (hc : ∃ e ∈ tr, isClear e = true) :
    (∀ op v, IsPush op v → s.step H op = (.ok .unit, s)) ∧
    (∀ t, t < n → s.step H (.pop t) = (.ok .nothing, s)) := by
  have hcl : s.cleared = true := by
    rw [(reach_abs h).cleared, List.any_eq_true]; exact hc
  constructor
  · intro op v hp
    cases hp <;> simp [QState.step, QState.pushResult, QState.push, QState.pushBranch, QState.pushNodes, hcl]
  · intro t ht
    have : t < s.workedOn.length := by rw [(reach_abs h).len]; exact ht
    simp only [QState.step, QState.pop]
    rw [if_neg (by omega)]
    simp [hcl]

/-- C09: `UpdateCurrentLowerBound` fails exactly when the thread holds no node or the bound would
decrease, and a failed call changes nothing. -/
theorem C09_update_refused_iff (h : QReach H n tr s) (t : Nat) (ht : t < n) (v : ℚ) :
    ((∃ e, (s.step H (.updateCurrentLowerBound t v)).1 = .error e) ↔
      holding tr t = none ∨ ∃ w, holding tr t = some w ∧ v < w) ∧
    ((∃ e, (s.step H (.updateCurrentLowerBound t v)).1 = .error e) →
      (s.step H (.updateCurrentLowerBound t v)).2 = s) := by
  have hh := (reach_abs h).hold t ht
  simp only [QState.step, QState.updateCurrentLowerBound, hh]
  cases holding tr t with
  | none => simp
  | some w =>
    simp only [reduceCtorEq, Option.some.injEq, false_or, exists_eq_left']
    by_cases hlt : v < w <;> simp [hlt]

/-- C09: `ClearAll` is not undone by anything. -/
theorem C09_cleared_forever (op : QOp) (hc : s.cleared = true) : (s.step H op).2.cleared = true := by
  cases op <;>
    simp only [QState.step, QState.pop, QState.clearAll, QState.updateCurrentLowerBound, QState.pushResult,
      QState.push, QState.pushBranch, QState.pushNodes, QState.notifyDone] <;>
    (repeat' split) <;> exact hc

/-! ### non-vacuity: a concrete history with libstdc++'s heap, two threads, five pushes -/

/-- state and trace after a list of operations -/
def runQ (H : HeapImpl) (s : QState) (ops : List QOp) : QState × QTrace :=
  ops.foldl (fun p op => ((p.1.step H op).2, p.2 ++ [(op, (p.1.step H op).1)])) (s, [])

def demoOps : List QOp :=
  [.push 0 [] [], .pop 1, .updateCurrentLowerBound 1 3, .pushBranch 3 [] [] 7 [8, 9], .push 5 [1] [],
   .pop 0, .pushResult 4, .done 1, .getLowerBound]

example : (runQ libstdcxx { workedOn := [none, none] } demoOps).2.map Prod.snd =
    [.ok .unit, .ok (.node { lb := 0 }), .ok .unit, .ok .unit, .ok .unit,
     .ok (.node { lb := 3, fixed0 := [7] }), .ok .unit, .ok .unit, .ok (.bound 3)] := by
  decide +kernel

/-- every prefix of this history is legal, so the theorems apply to it -/
example : ∃ tr s, QReach libstdcxx 2 tr s ∧ s.heap.length = 3 ∧ boundsInWork tr 2 = [3] := by
  have rng : ∀ v : ℚ, (-dblMax ≤ v ∧ v < dblMax) → -dblMax ≤ v ∧ v < dblMax := fun _ h => h
  have h0 := QReach.init (H := libstdcxx) (n := 2) _ rfl
  have h1 := h0.step _ _ (.push 0 [] []) (rng 0 (by decide +kernel))
  have h2 := h1.step _ _ (.pop 1) (fun _ => by decide +kernel)
  have h3 := h2.step _ _ (.updateCurrentLowerBound 1 3) (rng 3 (by decide +kernel))
  have h4 := h3.step _ _ (.pushBranch 3 [] [] 7 [8, 9]) (rng 3 (by decide +kernel))
  have h5 := h4.step _ _ (.push 5 [1] []) (rng 5 (by decide +kernel))
  exact ⟨_, _, h5, by decide +kernel, by decide +kernel⟩

end Mtsp
