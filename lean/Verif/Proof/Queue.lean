import Verif.Proof.Heap
import Verif.Spec.Queue

/-! Invariant of the queue. -/

namespace Mtsp

/-- number of threads with a node -/
def activeCount (w : List (Option ℚ)) : Nat := w.countP Option.isSome

structure QInv (s : QState) : Prop where
  heap : IsHeap s.heap
  count : s.count = activeCount s.workedOn
  rangeH : ∀ d ∈ s.heap, -dblMax ≤ d.lb ∧ d.lb < dblMax
  rangeW : ∀ v, some v ∈ s.workedOn → -dblMax ≤ v ∧ v < dblMax

/-- all bounds the queue knows of -/
def QState.allBounds (s : QState) : List ℚ := s.heap.map (·.lb) ++ s.workedOn.filterMap id

theorem minElement_spec (o : Option ℚ) (os : List (Option ℚ)) :
    ∃ b, minElement (o :: os) = some b ∧ b ∈ o :: os ∧ ∀ c ∈ o :: os, valueOrMax b ≤ valueOrMax c := by
  refine ⟨_, rfl, ?_⟩
  induction os generalizing o with
  | nil => simp
  | cons a os ih =>
    simp only [List.foldl_cons]
    obtain ⟨h1, h2⟩ := ih (if valueOrMax a < valueOrMax o then a else o)
    constructor
    · rcases List.mem_cons.1 h1 with h | h
      · rw [h]; split <;> simp
      · simp [h]
    · intro c hc
      rcases List.mem_cons.1 hc with rfl | hc
      · refine le_trans (h2 _ (List.mem_cons_self)) ?_
        split
        · next h => exact h.le
        · exact le_refl _
      · rcases List.mem_cons.1 hc with rfl | hc
        · refine le_trans (h2 _ (List.mem_cons_self)) ?_
          split
          · exact le_refl _
          · next h => push Not at h; exact h
        · exact h2 c (List.mem_cons_of_mem _ hc)

theorem activeCount_zero {w : List (Option ℚ)} (h : activeCount w = 0) : w.filterMap id = [] := by
  unfold activeCount at h
  rw [List.countP_eq_zero] at h
  rw [List.filterMap_eq_nil_iff]
  intro a ha
  have := h a ha
  cases a with
  | none => rfl
  | some v => simp at this

theorem activeCount_pos {w : List (Option ℚ)} (h : 0 < activeCount w) : ∃ v, some v ∈ w := by
  unfold activeCount at h
  rw [List.countP_pos_iff] at h
  obtain ⟨a, ha, hs⟩ := h
  obtain ⟨v, rfl⟩ := Option.isSome_iff_exists.1 hs
  exact ⟨v, ha⟩

theorem calcLB_spec (s : QState) (h : QInv s) : ∃ v, s.calcLB = .ok v ∧ IsQueueBound s.allBounds v := by
  unfold QState.calcLB
  by_cases h0 : s.heap = [] ∧ s.count = 0
  · rw [if_pos h0]
    refine ⟨_, rfl, Or.inl ⟨?_, rfl⟩⟩
    simp only [QState.allBounds, h0.1, List.map_nil, List.nil_append]
    exact activeCount_zero (by rw [← h.count]; exact h0.2)
  rw [if_neg h0]
  by_cases hc : s.count = 0
  · have hne : s.heap ≠ [] := fun e => h0 ⟨e, hc⟩
    obtain ⟨x, l, hx⟩ := List.exists_cons_of_ne_nil hne
    have hw := activeCount_zero (w := s.workedOn) (by rw [← h.count]; exact hc)
    simp only [hc, if_true, hx]
    have hlt : x.lb < dblMax := (h.rangeH x (by rw [hx]; simp)).2
    rw [min_eq_left hlt.le]
    refine ⟨_, rfl, Or.inr ⟨?_, ?_⟩⟩
    · simp [QState.allBounds, hx]
    · intro w hmem
      simp only [QState.allBounds, hw, List.append_nil, List.mem_map] at hmem
      obtain ⟨y, hy, rfl⟩ := hmem
      exact heap_front_min (hx ▸ h.heap) y (hx ▸ hy)
  · simp only [hc, if_false]
    obtain ⟨v, hv⟩ := activeCount_pos (w := s.workedOn) (by rw [← h.count]; omega)
    obtain ⟨o, os, hw⟩ := List.exists_cons_of_ne_nil (List.ne_nil_of_mem hv)
    obtain ⟨b, hb, hbm, hbl⟩ := minElement_spec o os
    rw [hw, hb]
    have hvb := hbl _ (hw ▸ hv)
    cases b with
    | none =>
      exfalso
      have := (h.rangeW v hv).2
      simp only [valueOrMax, Option.getD_none, Option.getD_some] at hvb
      linarith
    | some b =>
      simp only
      have hbW : ∀ w, some w ∈ s.workedOn → b ≤ w := by
        intro w hmem
        have := hbl _ (hw ▸ hmem)
        simpa [valueOrMax] using this
      have hbmem : b ∈ s.workedOn.filterMap id := by
        rw [List.mem_filterMap]; exact ⟨some b, hw ▸ hbm, rfl⟩
      rcases hh : s.heap with _ | ⟨x, l⟩
      · have hblt := (h.rangeW b (hw ▸ hbm)).2
        simp only [min_eq_right hblt.le]
        refine ⟨_, rfl, Or.inr ⟨by simp only [QState.allBounds, hh, List.map_nil, List.nil_append]; exact hbmem, ?_⟩⟩
        intro w hmem
        simp only [QState.allBounds, hh, List.map_nil, List.nil_append, List.mem_filterMap, id] at hmem
        obtain ⟨a, ha, rfl⟩ := hmem
        exact hbW w ha
      · simp only
        have hxl := heap_front_min (hh ▸ h.heap)
        refine ⟨_, rfl, Or.inr ⟨?_, ?_⟩⟩
        · rcases le_total x.lb b with hle | hle
          · rw [min_eq_left hle]; simp [QState.allBounds, hh]
          · rw [min_eq_right hle]; simp only [QState.allBounds, List.mem_append]; right; exact hbmem
        · intro w hmem
          simp only [QState.allBounds, hh, List.mem_append, List.mem_map, List.mem_filterMap, id] at hmem
          rcases hmem with ⟨y, hy, rfl⟩ | ⟨a, ha, rfl⟩
          · exact le_trans (min_le_left _ _) (hxl y hy)
          · exact le_trans (min_le_right _ _) (hbW w ha)

theorem IsQueueBound.perm {l m : List ℚ} {v : ℚ} (hp : l.Perm m) (h : IsQueueBound l v) : IsQueueBound m v := by
  rcases h with ⟨rfl, rfl⟩ | ⟨h1, h2⟩
  · left; exact ⟨by simpa using hp.symm, rfl⟩
  · right; exact ⟨hp.mem_iff.1 h1, fun w hw => h2 w (hp.mem_iff.2 hw)⟩

theorem IsQueueBound.unique {l : List ℚ} {v w : ℚ} (h : IsQueueBound l v) (h' : IsQueueBound l w) : v = w := by
  rcases h with ⟨e, rfl⟩ | ⟨h1, h2⟩ <;> rcases h' with ⟨e', rfl⟩ | ⟨h1', h2'⟩
  · rfl
  · subst e; simp at h1'
  · subst e'; simp at h1
  · exact le_antisymm (h2 _ h1') (h2' _ h1)

theorem activeCount_set (w : List (Option ℚ)) (t : Nat) (o p : Option ℚ) (ht : w[t]? = some o) :
    activeCount (w.set t p) + o.isSome.toNat = activeCount w + p.isSome.toNat := by
  unfold activeCount
  induction w generalizing t with
  | nil => simp at ht
  | cons a w ih =>
    cases t with
    | zero =>
      simp at ht; subst ht
      simp only [List.set_cons_zero, List.countP_cons]
      cases a <;> cases p <;> simp
    | succ t =>
      simp only [List.getElem?_cons_succ] at ht
      have := ih t ht
      simp only [List.set_cons_succ, List.countP_cons]
      omega

theorem mem_set_cases {w : List (Option ℚ)} {t : Nat} {p x : Option ℚ} (h : x ∈ w.set t p) : x ∈ w ∨ x = p := by
  exact List.mem_or_eq_of_mem_set h

theorem pushFold_heap (H : HeapImpl) (nodes h : List SData) (hh : IsHeap h) :
    IsHeap (nodes.foldl (fun h d => H.push (h ++ [d])) h) := by
  induction nodes generalizing h with
  | nil => exact hh
  | cons d nodes ih => exact ih _ (H.push_heap h d hh)

theorem pushFold_perm (H : HeapImpl) (nodes h : List SData) :
    (nodes.foldl (fun h d => H.push (h ++ [d])) h).Perm (h ++ nodes) := by
  induction nodes generalizing h with
  | nil => simp
  | cons d nodes ih =>
    simp only [List.foldl_cons]
    refine (ih _).trans ?_
    refine ((H.push_perm _).append_right _).trans ?_
    simp

theorem pushNodes_inv (H : HeapImpl) (s : QState) (v : ℚ) (nodes : List SData) (h : QInv s)
    (hr : ∀ d ∈ nodes, -dblMax ≤ d.lb ∧ d.lb < dblMax) : QInv (s.pushNodes H v nodes).2 := by
  unfold QState.pushNodes
  split
  · exact h
  · split
    · exact h
    · split
      · exact h
      · refine ⟨pushFold_heap H _ _ h.heap, h.count, ?_, h.rangeW⟩
        intro d hd
        rcases List.mem_append.1 ((pushFold_perm H nodes s.heap).mem_iff.1 hd) with hd | hd
        · exact h.rangeH d hd
        · exact hr d hd

/-- full description of a pop on a state satisfying the invariant -/
theorem pop_cases (H : HeapImpl) (s : QState) (t : Nat) (h : QInv s) (ht : t < s.workedOn.length) :
    (s.cleared = false ∧ s.heap = [] ∧ 0 < s.count ∧ s.pop H t = (.ok .blocked, s)) ∨
    ((s.cleared = true ∨ (s.heap = [] ∧ s.count = 0)) ∧ s.pop H t = (.ok .nothing, s)) ∨
    (s.cleared = false ∧ ∃ d r l, s.heap = d :: l ∧ r.Perm l ∧ IsHeap r ∧ (∀ y ∈ r, d.lb ≤ y.lb) ∧
      s.pop H t = (.ok (.node d),
        { s with heap := r, workedOn := s.workedOn.set t (some d.lb), count := s.count + 1 })) := by
  unfold QState.pop
  rw [if_neg (by omega)]
  cases hc : s.cleared with
  | true => simp
  | false =>
    rcases hh : s.heap with _ | ⟨d, l⟩
    · by_cases h0 : s.count = 0
      · simp [h0]
      · have : 0 < s.count := by omega
        simp [this]
    · obtain ⟨r, hr, hp, hheap⟩ := H.pop_spec d l (hh ▸ h.heap)
      right; right
      refine ⟨rfl, d, r, l, rfl, hp, hheap, ?_, ?_⟩
      · intro y hy
        exact heap_front_min (hh ▸ h.heap) y (List.mem_cons_of_mem _ (hp.mem_iff.1 hy))
      · simp [hr]

theorem step_inv (H : HeapImpl) (s : QState) (op : QOp) (h : QInv s) (hl : s.Legal op) : QInv (s.step H op).2 := by
  cases op with
  | getLowerBound => exact h
  | clearAll => exact ⟨h.heap, h.count, h.rangeH, h.rangeW⟩
  | pop t =>
    simp only [QState.step]
    by_cases ht : t < s.workedOn.length
    swap
    · unfold QState.pop; rw [if_pos (by omega)]; exact h
    rcases pop_cases H s t h ht with ⟨_, _, _, e⟩ | ⟨_, e⟩ | ⟨_, d, r, l, hh, hp, hheap, _, e⟩
    · rw [e]; exact h
    · rw [e]; exact h
    · rw [e]
      have hnone : s.workedOn[t]? = some none := hl (by simp [ht])
      refine ⟨hheap, ?_, ?_, ?_⟩
      · have := activeCount_set s.workedOn t none (some d.lb) hnone
        simp at this; simp only; rw [h.count]; omega
      · intro y hy; exact h.rangeH y (by rw [hh]; exact List.mem_cons_of_mem _ (hp.mem_iff.1 hy))
      · intro v hv
        rcases mem_set_cases hv with hv | hv
        · exact h.rangeW v hv
        · simp at hv; subst hv; exact h.rangeH d (by rw [hh]; simp)
  | updateCurrentLowerBound t v =>
    simp only [QState.step, QState.updateCurrentLowerBound]
    split
    · exact h
    · exact h
    · next w hw =>
      split
      · exact h
      · refine ⟨h.heap, ?_, h.rangeH, ?_⟩
        · have := activeCount_set s.workedOn t (some w) (some v) hw
          simp at this; simp only; rw [h.count]; omega
        · intro x hx
          rcases mem_set_cases hx with hx | hx
          · exact h.rangeW x hx
          · simp at hx; subst hx; exact hl
  | pushResult v => exact pushNodes_inv H s v _ h (by simpa [QState.Legal] using hl)
  | push v f0 f1 => exact pushNodes_inv H s v _ h (by simpa [QState.Legal] using hl)
  | pushBranch v f0 f1 var rec0 => exact pushNodes_inv H s v _ h (by simpa [branchNodes, QState.Legal] using hl)
  | done t =>
    simp only [QState.step, QState.notifyDone]
    split
    · exact h
    · exact h
    · next w hw =>
      refine ⟨h.heap, ?_, h.rangeH, ?_⟩
      · have := activeCount_set s.workedOn t (some w) none hw
        simp at this; simp only; rw [h.count]; omega
      · intro x hx
        rcases mem_set_cases hx with hx | hx
        · exact h.rangeW x hx
        · simp at hx

theorem new_inv {n : Nat} {s : QState} (h : QState.new n = .ok s) :
    QInv s ∧ s.heap = [] ∧ s.workedOn = List.replicate n none ∧ s.count = 0 ∧ s.cleared = false := by
  unfold QState.new at h
  split at h
  · simp at h
  · simp at h; subst h
    refine ⟨⟨fun i _ h => by simp at h, ?_, by simp, ?_⟩, rfl, rfl, rfl, rfl⟩
    · simp only [activeCount]; symm; rw [List.countP_eq_zero]; intro a ha
      simp [List.mem_replicate] at ha; simp [ha.2]
    · intro v hv; simp [List.mem_replicate] at hv

theorem reach_inv {H : HeapImpl} {n : Nat} {tr : QTrace} {s : QState} (h : QReach H n tr s) : QInv s := by
  induction h with
  | init s h => exact (new_inv h).1
  | step tr s op _ hl ih => exact step_inv H s op ih hl

/-- The trace determines the state. -/
structure QAbs (n : Nat) (tr : QTrace) (s : QState) : Prop where
  len : s.workedOn.length = n
  hold : ∀ t, t < n → s.workedOn[t]? = some (holding tr t)
  cleared : s.cleared = tr.any isClear
  perm : (poppedNodes tr ++ s.heap).Perm (pushedNodes tr)

theorem takeWhile_snoc {α : Type} (p : α → Bool) (l : List α) (a : α) :
    (l ++ [a]).takeWhile p = if l.all p then l ++ (if p a then [a] else []) else l.takeWhile p := by
  induction l with
  | nil => simp [List.takeWhile_cons]
  | cons b l ih =>
    simp only [List.cons_append, List.takeWhile_cons, List.all_cons]
    cases hb : p b
    · simp
    · simp only [Bool.true_and, ih, if_true]
      split <;> rfl

theorem holding_snoc (tr : QTrace) (t : Nat) (e : QOp × Except Err QOut) :
    holding (tr ++ [e]) t = holdStep t (holding tr t) e := by
  simp [holding, List.foldl_append]

theorem popped_snoc (tr : QTrace) (e) : poppedNodes (tr ++ [e]) = poppedNodes tr ++ handedOut e := by
  simp [poppedNodes]

theorem pushed_snoc (tr : QTrace) (e) : pushedNodes (tr ++ [e]) =
    pushedNodes tr ++ (if tr.any isClear then [] else if isClear e then [] else submittedNodes e) := by
  unfold pushedNodes
  rw [takeWhile_snoc]
  have hall : (tr.all fun e => !isClear e) = !(tr.any isClear) := by
    rw [List.all_eq_not_any_not]; simp
  rw [hall]
  cases hany : tr.any isClear
  · simp only [Bool.not_false, if_true, Bool.false_eq_true, if_false]
    have htw : (tr.takeWhile fun e => !isClear e) = tr := by
      rw [List.any_eq_false] at hany
      clear hall
      induction tr with
      | nil => rfl
      | cons b tr ih =>
        rw [List.takeWhile_cons, ih fun a ha => hany a (List.mem_cons_of_mem _ ha)]
        have := hany b List.mem_cons_self
        simp [this]
    rw [htw]
    cases isClear e <;> simp
  · simp

/-- facts about an event that does not change anything abstract -/
theorem QAbs.keep {n : Nat} {tr : QTrace} {s : QState} (h : QAbs n tr s) (e : QOp × Except Err QOut)
    (h1 : handedOut e = []) (h2 : submittedNodes e = [] ∨ s.cleared = true) (h3 : isClear e = false)
    (h4 : ∀ t, t < n → holdStep t (holding tr t) e = holding tr t) : QAbs n (tr ++ [e]) s := by
  refine ⟨h.len, ?_, ?_, ?_⟩
  · intro t ht; rw [holding_snoc, h4 t ht]; exact h.hold t ht
  · simp [List.any_append, h3, h.cleared]
  · rw [popped_snoc, pushed_snoc, h1]
    have : (if tr.any isClear then [] else if isClear e then [] else submittedNodes e) = [] := by
      rcases h2 with h2 | h2
      · simp [h2]
      · rw [← h.cleared, h2]; simp
    rw [this]; simpa using h.perm

theorem pushNodes_abs {H : HeapImpl} {n : Nat} {tr : QTrace} {s : QState} (h : QAbs n tr s) (hi : QInv s)
    (v : ℚ) (nodes : List SData) (op : QOp)
    (hsub : ∀ o, submittedNodes (op, .ok o) = nodes) (hsubE : ∀ e, submittedNodes (op, .error e) = [])
    (hh : ∀ r, handedOut (op, r) = []) (hcl : ∀ r, isClear (op, r) = false)
    (hho : ∀ t r a, holdStep t a (op, r) = a) :
    QAbs n (tr ++ [(op, (s.pushNodes H v nodes).1)]) (s.pushNodes H v nodes).2 := by
  unfold QState.pushNodes
  split
  · next hc => exact h.keep _ (hh _) (Or.inr hc) (hcl _) (fun t _ => hho t _ _)
  · next hc =>
    obtain ⟨lb, hlb, _⟩ := calcLB_spec s hi
    rw [hlb]
    simp only
    split
    · exact h.keep _ (hh _) (Or.inl (hsubE _)) (hcl _) (fun t _ => hho t _ _)
    · refine ⟨h.len, ?_, ?_, ?_⟩
      · intro t ht; rw [holding_snoc, hho]; exact h.hold t ht
      · simp [List.any_append, hcl, h.cleared]
      · rw [popped_snoc, pushed_snoc, hh, hcl, hsub]
        have hna : tr.any isClear = false := by rw [← h.cleared]; simpa using hc
        simp only [hna, List.append_nil, Bool.false_eq_true, if_false]
        refine ((pushFold_perm H nodes s.heap).append_left _).trans ?_
        rw [← List.append_assoc]
        exact h.perm.append_right _

theorem reach_abs {H : HeapImpl} {n : Nat} {tr : QTrace} {s : QState} (h : QReach H n tr s) : QAbs n tr s := by
  induction h with
  | init s h =>
    obtain ⟨_, h1, h2, h3, h4⟩ := new_inv h
    refine ⟨by simp [h2], ?_, by simp [h4], by simp [h1, poppedNodes, pushedNodes]⟩
    intro t ht
    rw [h2, List.getElem?_replicate, if_pos ht]; rfl
  | step tr s op hr hl ih =>
    have hi := reach_inv hr
    cases op with
    | getLowerBound =>
      refine ih.keep _ ?_ (Or.inl ?_) ?_ (fun t _ => ?_) <;> rfl
    | clearAll =>
      refine ⟨ih.len, ?_, ?_, ?_⟩
      · intro t ht; rw [holding_snoc]; exact ih.hold t ht
      · simp [QState.step, QState.clearAll, isClear]
      · rw [popped_snoc, pushed_snoc]
        simp only [isClear, handedOut, List.append_nil, if_true, QState.step, QState.clearAll]
        simpa using ih.perm
    | pop t =>
      simp only [QState.step]
      by_cases ht : t < s.workedOn.length
      swap
      · have : s.pop H t = (.error (.logic "Wrong threadId"), s) := by
          unfold QState.pop; rw [if_pos (by omega)]
        rw [this]
        refine ih.keep _ ?_ (Or.inl ?_) ?_ (fun t _ => ?_) <;> rfl
      rcases pop_cases H s t hi ht with ⟨_, _, _, e⟩ | ⟨_, e⟩ | ⟨hc, d, r, l, hh, hp, hheap, _, e⟩
      · rw [e]; refine ih.keep _ ?_ (Or.inl ?_) ?_ (fun t _ => ?_) <;> rfl
      · rw [e]; refine ih.keep _ ?_ (Or.inl ?_) ?_ (fun t _ => ?_) <;> rfl
      · rw [e]
        refine ⟨by simp [ih.len], ?_, ?_, ?_⟩
        · intro t' ht'
          rw [holding_snoc]
          simp only [List.getElem?_set, holdStep]
          by_cases htt : t = t'
          · subst htt; simp [ht]
          · simp [htt, ih.hold t' ht']
        · simp [isClear, ih.cleared]
        · rw [popped_snoc, pushed_snoc]
          have : (if tr.any isClear then [] else if isClear (QOp.pop t, (Except.ok (.node d) : Except Err QOut)) then []
              else submittedNodes (QOp.pop t, .ok (.node d))) = [] := by
            simp [isClear, submittedNodes]
          rw [this]
          simp only [handedOut, List.append_nil, List.append_assoc, List.singleton_append]
          refine List.Perm.trans ?_ ih.perm
          rw [hh]
          exact (hp.cons d).append_left _
    | updateCurrentLowerBound t v =>
      simp only [QState.step, QState.updateCurrentLowerBound]
      split
      · refine ih.keep _ ?_ (Or.inl ?_) ?_ (fun t _ => ?_) <;> rfl
      · refine ih.keep _ ?_ (Or.inl ?_) ?_ (fun t _ => ?_) <;> rfl
      · next w hw =>
        split
        · refine ih.keep _ ?_ (Or.inl ?_) ?_ (fun t _ => ?_) <;> rfl
        · refine ⟨by simp [ih.len], ?_, ?_, ?_⟩
          · intro t' ht'
            rw [holding_snoc]
            simp only [List.getElem?_set, holdStep]
            have htl : t < s.workedOn.length := by
              rw [List.getElem?_eq_some_iff] at hw; exact hw.1
            by_cases htt : t = t'
            · subst htt; simp [htl]
            · simp [htt, ih.hold t' ht']
          · simp [isClear, ih.cleared]
          · rw [popped_snoc, pushed_snoc]
            simp only [handedOut, isClear, submittedNodes]
            simpa using ih.perm
    | pushResult v => exact pushNodes_abs ih hi _ _ _ (fun _ => rfl) (fun _ => rfl) (fun _ => rfl) (fun _ => rfl) (fun _ _ _ => rfl)
    | push v f0 f1 => exact pushNodes_abs ih hi _ _ _ (fun _ => rfl) (fun _ => rfl) (fun _ => rfl) (fun _ => rfl) (fun _ _ _ => rfl)
    | pushBranch v f0 f1 var rec0 => exact pushNodes_abs ih hi _ _ _ (fun _ => rfl) (fun _ => rfl) (fun _ => rfl) (fun _ => rfl) (fun _ _ _ => rfl)
    | done t =>
      simp only [QState.step, QState.notifyDone]
      split
      · refine ih.keep _ ?_ (Or.inl ?_) ?_ (fun t _ => ?_) <;> rfl
      · refine ih.keep _ ?_ (Or.inl ?_) ?_ (fun t _ => ?_) <;> rfl
      · next w hw =>
        refine ⟨by simp [ih.len], ?_, ?_, ?_⟩
        · intro t' ht'
          rw [holding_snoc]
          simp only [List.getElem?_set, holdStep]
          have htl : t < s.workedOn.length := by
            rw [List.getElem?_eq_some_iff] at hw; exact hw.1
          by_cases htt : t = t'
          · subst htt; simp [htl]
          · simp [htt, ih.hold t' ht']
        · simp [isClear, ih.cleared]
        · rw [popped_snoc, pushed_snoc]
          simp only [handedOut, isClear, submittedNodes]
          simpa using ih.perm

theorem QAbs.inWork {n : Nat} {tr : QTrace} {s : QState} (h : QAbs n tr s) :
    s.workedOn.filterMap id = boundsInWork tr n := by
  unfold boundsInWork
  have : s.workedOn = (List.range n).map (holding tr) := by
    apply List.ext_getElem?
    intro i
    by_cases hi : i < n
    · rw [h.hold i hi]; simp [hi]
    · rw [List.getElem?_eq_none (by rw [h.len]; omega), List.getElem?_eq_none (by simp; omega)]
  rw [this, List.filterMap_map]; rfl

end Mtsp
