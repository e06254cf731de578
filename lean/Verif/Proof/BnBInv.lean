import Verif.Proof.BnBEval
import Verif.Proof.Queue
import Verif.Props.Deque

/-! The invariant of the search. -/

namespace Mtsp

/-- invariant of the search; `all`: all cuts ever pushed -/
structure GInv (e : BEnv) (bad : Prop) (s : BState) (all : List LinCon) : Prop where
  q : QInv s.q
  len : s.q.workedOn.length = e.threads
  deq : ∃ seen, CDInv e.threads s.deque all seen ∧ ∀ t < e.threads, (s.wk t).cuts = seen t
  cuts : ∀ c ∈ all, CutOk e c
  heap : ∀ d ∈ s.q.heap, d.isResult = false → NodeOk e all d.lb d.fixed0 d.fixed1
  wk : ∀ t < e.threads, FixInv e.cols (s.wk t).fix ∧ ∃ o, s.q.workedOn[t]? = some o ∧ PcOk e bad all o (s.wk t)

theorem OpOk.mono {e : BEnv} {all all' : List LinCon} {o : Option ℚ} {op : QOp} (h : OpOk e all o op)
    (hs : ∀ c ∈ all, c ∈ all') : OpOk e all' o op := by
  cases op with
  | push v f0 f1 => exact ⟨h.1, h.2.mono hs⟩
  | pushBranch v f0 f1 var rec0 => exact ⟨h.1, fun d hd => (h.2 d hd).mono hs⟩
  | pushResult v => exact h
  | _ => exact h

theorem PcOk.mono {e : BEnv} {bad bad' : Prop} {all all' : List LinCon} {o : Option ℚ} {wk : Worker} (h : PcOk e bad all o wk)
    (hb : bad → bad') (hs : ∀ c ∈ all, c ∈ all') : PcOk e bad' all' o wk := by
  unfold PcOk at h ⊢
  split at h
  all_goals first
    | exact h
    | exact ⟨h.1, h.2.1, h.2.2.mono hs⟩
    | exact ⟨h.1, h.2.mono hs⟩
    | exact OpOk.mono h hs
    | exact ⟨h.1, hb h.2⟩

theorem GInv.sub {e : BEnv} {bad : Prop} {s : BState} {all : List LinCon} (h : GInv e bad s all) {t : Nat} (ht : t < e.threads) :
    ∀ c ∈ (s.wk t).cuts, c ∈ all := by
  obtain ⟨seen, hcd, hw⟩ := h.deq
  obtain ⟨dropped, hall, hseen⟩ := hcd.ex
  have hp : s.deque.readPos[t]? = some (s.deque.readPos[t]'(by rw [hcd.len]; exact ht)) := List.getElem?_eq_getElem _
  obtain ⟨_, _, hs⟩ := hseen t _ hp
  intro c hc
  rw [hw t ht, hs] at hc
  rw [← hall]
  rcases List.mem_append.1 hc with hc | hc
  · exact List.mem_append_left _ hc
  · exact List.mem_append_right _ (List.mem_of_mem_take hc)

theorem GInv.bad_mono {e : BEnv} {bad bad' : Prop} {s : BState} {all : List LinCon} (h : GInv e bad s all) (hb : bad → bad') :
    GInv e bad' s all := by
  refine ⟨h.q, h.len, h.deq, h.cuts, h.heap, fun t ht => ?_⟩
  obtain ⟨h1, o, h2, h3⟩ := h.wk t ht
  exact ⟨h1, o, h2, h3.mono hb (fun _ h => h)⟩

/-- one worker and the queue change -/
theorem GInv.upd {e : BEnv} {bad : Prop} {s : BState} {all : List LinCon} (h : GInv e bad s all) {t : Nat}
    {q' : QState} {r' : ResState} {w' : Worker} (hq : QInv q') (hlen : q'.workedOn.length = s.q.workedOn.length)
    (hother : ∀ u, u ≠ t → q'.workedOn[u]? = s.q.workedOn[u]?)
    (hheap : ∀ d ∈ q'.heap, d.isResult = false → NodeOk e all d.lb d.fixed0 d.fixed1)
    (hcuts : w'.cuts = (s.wk t).cuts) (hfix : FixInv e.cols w'.fix) {o : Option ℚ} (ho : q'.workedOn[t]? = some o)
    (hpc : PcOk e bad all o w') : GInv e bad ⟨q', r', s.deque, fun u => if u = t then w' else s.wk u⟩ all := by
  refine ⟨hq, hlen.trans h.len, ?_, h.cuts, hheap, ?_⟩
  · obtain ⟨seen, hcd, hw⟩ := h.deq
    refine ⟨seen, hcd, fun u hu => ?_⟩
    by_cases hut : u = t
    · subst hut; simp only [if_true]; rw [hcuts]; exact hw u hu
    · simp only [if_neg hut]; exact hw u hu
  · intro u hu
    by_cases hut : u = t
    · subst hut; simp only [if_true]; exact ⟨hfix, o, ho, hpc⟩
    · simp only [if_neg hut]
      obtain ⟨h1, o', h2, h3⟩ := h.wk u hu
      exact ⟨h1, o', by rw [hother u hut]; exact h2, h3⟩

/-- one worker changes -/
theorem GInv.updW {e : BEnv} {bad : Prop} {s : BState} {all : List LinCon} (h : GInv e bad s all) {t : Nat}
    {r' : ResState} {w' : Worker} (hcuts : w'.cuts = (s.wk t).cuts) (hfix : FixInv e.cols w'.fix) {o : Option ℚ}
    (ho : s.q.workedOn[t]? = some o) (hpc : PcOk e bad all o w') :
    GInv e bad ⟨s.q, r', s.deque, fun u => if u = t then w' else s.wk u⟩ all :=
  h.upd h.q rfl (fun _ _ => rfl) h.heap hcuts hfix ho hpc

section
variable {e : BEnv} {rows : Nat} {w : Weights} {starts ends : List Nat}

theorem start_inv (g : e.Good rows w starts ends) {r : ResState} {s : BState} (h : BState.start e r = .ok s) :
    GInv e False s [] ∧ s.res = r ∧ s.q.heap = [{ lb := 0 }] ∧ s.q.cleared = false ∧ 0 < e.threads ∧
      ∀ t, s.wk t = ⟨.head, [], ⟨e.cols, [], []⟩⟩ := by
  unfold BState.start at h
  cases hq : QState.new e.threads with
  | error er => rw [hq] at h; simp at h
  | ok q =>
    rw [hq] at h
    dsimp only at h
    obtain ⟨hi, hh, hw, hc, hcl⟩ := new_inv hq
    have hthr : 0 < e.threads := by
      unfold QState.new at hq
      split at hq
      · simp at hq
      · omega
    have hlb : q.calcLB = .ok (-dblMax) := by unfold QState.calcLB; rw [if_pos ⟨hh, hc⟩]
    have hpush : q.step e.H (.push 0 [] []) = (.ok .unit, { q with heap := e.H.push ([] ++ [{ lb := 0 }]) }) := by
      simp only [QState.step, QState.push, QState.pushNodes, hcl, hlb, Bool.false_eq_true, if_false]
      rw [if_neg (by have := dblMax_pos; push Not; linarith)]
      simp [hh]
    have hperm := pushFold_perm e.H [{ lb := 0 }] []
    simp only [List.foldl_cons, List.foldl_nil, List.nil_append] at hperm
    have hone : e.H.push ([] ++ [{ lb := 0 }]) = [{ lb := 0 }] := List.perm_singleton.1 (by simpa using hperm)
    have hqi := step_inv e.H q (.push 0 [] []) hi ⟨by have := dblMax_pos; linarith, dblMax_pos⟩
    rw [hpush] at h hqi
    simp only [Except.ok.injEq] at h
    subst h
    refine ⟨⟨hqi, by simp [hw], ⟨fun _ => [], ?_, fun _ _ => rfl⟩, by simp, ?_, ?_⟩, rfl, hone, hcl, hthr, fun _ => rfl⟩
    · refine ⟨by simp [CDeque.new], [], rfl, ?_⟩
      intro t p hp
      simp only [CDeque.new, List.getElem?_replicate] at hp
      split at hp
      · cases hp; simp [CDeque.new]
      · simp at hp
    · intro d hd _
      simp only [hone, List.mem_singleton] at hd
      subst hd; exact root_ok g []
    · intro t ht
      refine ⟨⟨g.wf, rfl, rfl, by simp [LPModel.Bin], by simp [LPModel.Bin], fun _ _ _ => rfl⟩, none, ?_, rfl⟩
      simp [hw, ht]

/-- the bound of any worker is at least the queue's -/
theorem calcLB_le {q : QState} (hq : QInv q) {t : Nat} {v : ℚ} (h : q.workedOn[t]? = some (some v)) :
    ∃ l, q.calcLB = .ok l ∧ l ≤ v := by
  obtain ⟨l, h1, h2⟩ := calcLB_spec q hq
  have hmem : v ∈ q.allBounds := by
    unfold QState.allBounds
    rw [List.mem_append, List.mem_filterMap]
    exact Or.inr ⟨some v, List.mem_of_getElem? h, rfl⟩
  refine ⟨l, h1, ?_⟩
  rcases h2 with ⟨h2, _⟩ | ⟨_, h2⟩
  · rw [h2] at hmem; simp at hmem
  · exact h2 v hmem

theorem push_ok {H : HeapImpl} {q : QState} (hq : QInv q) {t : Nat} {v : ℚ} (h : q.workedOn[t]? = some (some v)) (nodes : List SData) :
    (q.pushNodes H v nodes).1 = .ok .unit ∧ (q.pushNodes H v nodes).2.workedOn = q.workedOn ∧
    (q.pushNodes H v nodes).2.cleared = q.cleared ∧ (q.pushNodes H v nodes).2.count = q.count ∧
    ((q.cleared = true ∧ (q.pushNodes H v nodes).2.heap = q.heap) ∨
     (q.cleared = false ∧ ((q.pushNodes H v nodes).2.heap).Perm (q.heap ++ nodes))) := by
  unfold QState.pushNodes
  rcases Bool.eq_false_or_eq_true q.cleared with hc | hc
  · rw [if_pos hc]; exact ⟨rfl, rfl, rfl, rfl, Or.inl ⟨hc, rfl⟩⟩
  · rw [if_neg (by rw [hc]; simp)]
    obtain ⟨l, h1, h2⟩ := calcLB_le hq h
    rw [h1]
    dsimp only
    rw [if_neg (not_lt.2 h2)]
    exact ⟨rfl, rfl, rfl, rfl, Or.inr ⟨hc, pushFold_perm H nodes q.heap⟩⟩

/-- pushing what a worker is about to push -/
theorem op_step {H : HeapImpl} {q : QState} (hq : QInv q) {t : Nat} {o : Option ℚ} (ht : q.workedOn[t]? = some o)
    {all : List LinCon} {op : QOp} (hop : OpOk e all o op) :
    ∃ nodes q', q.step H op = (.ok .unit, q') ∧ QInv q' ∧ q'.workedOn = q.workedOn ∧ q'.cleared = q.cleared ∧ q'.count = q.count ∧
      (∀ d ∈ nodes, o = some d.lb) ∧
      nodes = submittedNodes (op, .ok .unit) ∧ 
      (∀ d ∈ nodes, d.isResult = false → NodeOk e all d.lb d.fixed0 d.fixed1) ∧
      ((q.cleared = true ∧ q'.heap = q.heap) ∨ (q.cleared = false ∧ q'.heap.Perm (q.heap ++ nodes))) := by
  have main : ∀ (v : ℚ) (nodes : List SData), o = some v → (∀ d ∈ nodes, d.lb = v) →
      (∀ d ∈ nodes, d.isResult = false → NodeOk e all d.lb d.fixed0 d.fixed1) →
      ∃ q', q.pushNodes H v nodes = (.ok .unit, q') ∧ QInv q' ∧ q'.workedOn = q.workedOn ∧ q'.cleared = q.cleared ∧ q'.count = q.count ∧
      (∀ d ∈ nodes, o = some d.lb) ∧ 
      (∀ d ∈ nodes, d.isResult = false → NodeOk e all d.lb d.fixed0 d.fixed1) ∧
      ((q.cleared = true ∧ q'.heap = q.heap) ∨ (q.cleared = false ∧ q'.heap.Perm (q.heap ++ nodes))) := by
    intro v nodes ho hv hn
    subst ho
    have hr := hq.rangeW v (List.mem_of_getElem? ht)
    obtain ⟨h1, h2, h3, h4, h5⟩ := push_ok (H := H) hq ht nodes
    refine ⟨_, Prod.ext h1 rfl, pushNodes_inv H q v nodes hq (fun d hd => by rw [hv d hd]; exact hr), h2, h3, h4, fun d hd => by rw [hv d hd], hn, h5⟩
  cases op with
  | pushResult v =>
    obtain ⟨q', h⟩ := main v [{ lb := v, isResult := true }] hop (by simp) (by simp)
    obtain ⟨a, b, c, d, f, k, l, m⟩ := h
    exact ⟨_, q', a, b, c, d, f, k, rfl, l, m⟩
  | push v f0 f1 =>
    obtain ⟨q', h⟩ := main v [{ lb := v, fixed0 := f0, fixed1 := f1 }] hop.1 (by simp) (by
      intro d hd _; rw [List.mem_singleton.1 hd]; exact hop.2)
    obtain ⟨a, b, c, d, f, k, l, m⟩ := h
    exact ⟨_, q', a, b, c, d, f, k, rfl, l, m⟩
  | pushBranch v f0 f1 var rec0 =>
    obtain ⟨q', h⟩ := main v (branchNodes v f0 f1 var rec0) hop.1 (by simp [branchNodes]) (fun d hd _ => hop.2 d hd)
    obtain ⟨a, b, c, d, f, k, l, m⟩ := h
    exact ⟨_, q', a, b, c, d, f, k, rfl, l, m⟩
  | _ => exact absurd hop (by simp [OpOk])

end
end Mtsp
