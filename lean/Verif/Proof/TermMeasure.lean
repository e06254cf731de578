import Verif.Proof.TermCuts
import Verif.Spec.Termination

/-! The measure that shows that the search ends. -/

namespace Mtsp

open Classical in
/-- number of cuts a list does not contain -/
noncomputable def missing (S : Finset LinCon) (cuts : List LinCon) : Nat := (S.filter fun c => c ∉ cuts).card

/-- number of variables not fixed -/
def unf (B : Nat) (f0 f1 : List Nat) : Nat := ((Finset.range B).filter fun i => i ∉ f0 ∧ i ∉ f1).card

theorem unf_mono {B : Nat} {f0 f1 g0 g1 : List Nat} (h0 : ∀ i ∈ f0, i ∈ g0) (h1 : ∀ i ∈ f1, i ∈ g1) : unf B g0 g1 ≤ unf B f0 f1 := by
  refine Finset.card_le_card fun i hi => ?_
  rw [Finset.mem_filter] at hi ⊢
  exact ⟨hi.1, fun h => hi.2.1 (h0 i h), fun h => hi.2.2 (h1 i h)⟩

theorem unf_lt {B : Nat} {f0 f1 g0 g1 : List Nat} (h0 : ∀ i ∈ f0, i ∈ g0) (h1 : ∀ i ∈ f1, i ∈ g1) {v : Nat} (hv : v < B)
    (hv0 : v ∉ f0) (hv1 : v ∉ f1) (hg : v ∈ g0 ∨ v ∈ g1) : unf B g0 g1 < unf B f0 f1 := by
  refine Finset.card_lt_card ⟨fun i hi => ?_, fun hsub => ?_⟩
  · rw [Finset.mem_filter] at hi ⊢
    exact ⟨hi.1, fun h => hi.2.1 (h0 i h), fun h => hi.2.2 (h1 i h)⟩
  · have := hsub (Finset.mem_filter.2 ⟨Finset.mem_range.2 hv, hv0, hv1⟩)
    rw [Finset.mem_filter] at this
    rcases hg with h | h
    · exact this.2.1 h
    · exact this.2.2 h

/-- weight of a node -/
def nodeW (B : Nat) (d : SData) : Nat := if d.isResult then 1 else 2 * 3 ^ unf B d.fixed0 d.fixed1

/-- weight of what is going to be pushed -/
def opW (B : Nat) (op : QOp) : Nat := ((submittedNodes (op, .ok .unit)).map (nodeW B)).sum

/-- weight of what a worker holds -/
def held (B : Nat) (wk : Worker) : Nat :=
  match wk.pc with
  | .read _ | .compact _ | .solve _ | .raise .. | .getLB .. | .updLB .. | .exploit .. => 2 * 3 ^ unf B wk.fix.fixed0 wk.fix.fixed1
  | .resRead _ | .resUpd .. | .getUpper .. | .setUpper .. => 1
  | .pushCuts _ op => opW B op
  | .push op => opW B op
  | _ => 0

/-- rank of a program counter if there is an unread cut the worker does not have -/
def rankF : Pc → Nat
  | .left | .crashed _ => 0
  | .clear => 1
  | .read _ => 2
  | .pushCuts .. | .setUpper .. => 4
  | .getUpper .. | .exploit .. => 5
  | .updLB .. => 6
  | .getLB .. => 7
  | .raise .. => 8
  | .solve _ => 9
  | .compact _ => 10
  | _ => 3

/-- the same if there is none -/
def rankN : Pc → Nat
  | .left | .crashed _ => 0
  | .clear => 1
  | .pushCuts .. => 20
  | .exploit .. => 21
  | .updLB .. => 22
  | .getLB .. => 23
  | .raise .. => 24
  | .solve _ => 25
  | .compact _ => 26
  | .read _ => 27
  | .setUpper .. => 29
  | .getUpper .. => 30
  | _ => 28

theorem rankF_le (pc : Pc) : rankF pc ≤ rankN pc := by
  cases pc <;> simp [rankF, rankN]

/-- what a worker has not read yet -/
def BState.pend (s : BState) (u : Nat) : List LinCon :=
  match s.deque.readPos[u]? with
  | some p => s.deque.deque.drop p.toNat
  | none => []

/-- the worker will learn of a new cut -/
def BState.fresh (S : Finset LinCon) (s : BState) (u : Nat) : Prop := ∃ c ∈ s.pend u, c ∈ S ∧ c ∉ (s.wk u).cuts

open Classical in
/-- contribution of a worker -/
noncomputable def BState.wm (S : Finset LinCon) (B : Nat) (s : BState) (u : Nat) : Nat :=
  40 * missing S (s.wk u).cuts + (if s.fresh S u then rankF (s.wk u).pc else rankN (s.wk u).pc) + 40 * held B (s.wk u)

/-- contribution of the queue -/
def heapW (B : Nat) (q : QState) : Nat := (q.heap.map (nodeW B)).sum

/-- the measure -/
noncomputable def BState.mu (S : Finset LinCon) (B T : Nat) (s : BState) : Nat :=
  ∑ u ∈ Finset.range T, s.wm S B u + 40 * heapW B s.q

theorem mu_lt {S : Finset LinCon} {B T : Nat} {s s' : BState} {t : Nat} (ht : t < T)
    (ho : ∀ u < T, u ≠ t → s'.wm S B u ≤ s.wm S B u)
    (h : s'.wm S B t + 40 * heapW B s'.q < s.wm S B t + 40 * heapW B s.q) : s'.mu S B T < s.mu S B T := by
  unfold BState.mu
  rw [← Finset.add_sum_erase _ _ (Finset.mem_range.2 ht), ← Finset.add_sum_erase _ (fun u => s.wm S B u) (Finset.mem_range.2 ht)]
  have : ∑ u ∈ (Finset.range T).erase t, s'.wm S B u ≤ ∑ u ∈ (Finset.range T).erase t, s.wm S B u :=
    Finset.sum_le_sum fun u hu => ho u (Finset.mem_range.1 (Finset.mem_of_mem_erase hu)) (Finset.ne_of_mem_erase hu)
  omega

theorem mu_le {S : Finset LinCon} {B T : Nat} {s s' : BState} {t : Nat} (ht : t < T)
    (ho : ∀ u < T, u ≠ t → s'.wm S B u ≤ s.wm S B u)
    (h : s'.wm S B t + 40 * heapW B s'.q ≤ s.wm S B t + 40 * heapW B s.q) : s'.mu S B T ≤ s.mu S B T := by
  unfold BState.mu
  rw [← Finset.add_sum_erase _ _ (Finset.mem_range.2 ht), ← Finset.add_sum_erase _ (fun u => s.wm S B u) (Finset.mem_range.2 ht)]
  have : ∑ u ∈ (Finset.range T).erase t, s'.wm S B u ≤ ∑ u ∈ (Finset.range T).erase t, s.wm S B u :=
    Finset.sum_le_sum fun u hu => ho u (Finset.mem_range.1 (Finset.mem_of_mem_erase hu)) (Finset.ne_of_mem_erase hu)
  omega

/-- the deque does not change -/
theorem fresh_same {S : Finset LinCon} {s : BState} {q' : QState} {r' : ResState} {t : Nat} {w' : Worker} (hc : w'.cuts = (s.wk t).cuts) (u : Nat) :
    BState.fresh S ⟨q', r', s.deque, fun u => if u = t then w' else s.wk u⟩ u ↔ s.fresh S u := by
  unfold BState.fresh BState.pend
  dsimp only
  by_cases h : u = t
  · subst h; rw [if_pos rfl, hc]
  · rw [if_neg h]

/-- only the queue, the result and worker `t` change -/
theorem wm_other {S : Finset LinCon} {B : Nat} {s : BState} {q' : QState} {r' : ResState} {t : Nat} {w' : Worker} (hc : w'.cuts = (s.wk t).cuts)
    {u : Nat} (hu : u ≠ t) : BState.wm S B ⟨q', r', s.deque, fun u => if u = t then w' else s.wk u⟩ u = s.wm S B u := by
  unfold BState.wm
  rw [show BState.fresh S ⟨q', r', s.deque, fun u => if u = t then w' else s.wk u⟩ u = s.fresh S u from propext (fresh_same hc u)]
  simp only [if_neg hu]

theorem wm_self {S : Finset LinCon} {B : Nat} {s : BState} {q' : QState} {r' : ResState} {t : Nat} {w' : Worker} (hc : w'.cuts = (s.wk t).cuts) :
    BState.wm S B ⟨q', r', s.deque, fun u => if u = t then w' else s.wk u⟩ t =
      40 * missing S (s.wk t).cuts + (open Classical in if s.fresh S t then rankF w'.pc else rankN w'.pc) + 40 * held B w' := by
  unfold BState.wm
  rw [show BState.fresh S ⟨q', r', s.deque, fun u => if u = t then w' else s.wk u⟩ t = s.fresh S t from propext (fresh_same hc t)]
  simp only [if_true, hc]

/-- a step that changes the queue, the result and worker `t` only, with a decrease -/
theorem mu_upd_lt {S : Finset LinCon} {B T : Nat} {s : BState} {q' : QState} {r' : ResState} {t : Nat} {w' : Worker} (ht : t < T)
    (hc : w'.cuts = (s.wk t).cuts)
    (hF : rankF w'.pc + 40 * held B w' + 40 * heapW B q' < rankF (s.wk t).pc + 40 * held B (s.wk t) + 40 * heapW B s.q)
    (hN : rankN w'.pc + 40 * held B w' + 40 * heapW B q' < rankN (s.wk t).pc + 40 * held B (s.wk t) + 40 * heapW B s.q) :
    BState.mu S B T ⟨q', r', s.deque, fun u => if u = t then w' else s.wk u⟩ < s.mu S B T := by
  refine mu_lt ht (fun u _ hu => le_of_eq (wm_other hc hu)) ?_
  rw [wm_self hc]
  unfold BState.wm
  dsimp only
  split <;> omega

theorem mu_upd_le {S : Finset LinCon} {B T : Nat} {s : BState} {q' : QState} {r' : ResState} {t : Nat} {w' : Worker} (ht : t < T)
    (hc : w'.cuts = (s.wk t).cuts)
    (hF : rankF w'.pc + 40 * held B w' + 40 * heapW B q' ≤ rankF (s.wk t).pc + 40 * held B (s.wk t) + 40 * heapW B s.q)
    (hN : rankN w'.pc + 40 * held B w' + 40 * heapW B q' ≤ rankN (s.wk t).pc + 40 * held B (s.wk t) + 40 * heapW B s.q) :
    BState.mu S B T ⟨q', r', s.deque, fun u => if u = t then w' else s.wk u⟩ ≤ s.mu S B T := by
  refine mu_le ht (fun u _ hu => le_of_eq (wm_other hc hu)) ?_
  rw [wm_self hc]
  unfold BState.wm
  dsimp only
  split <;> omega

/-! ### the deque -/

theorem pend_push {n : Nat} {s : BState} {all : List LinCon} {seen : Nat → List LinCon} (hcd : CDInv n s.deque all seen)
    {u : Nat} (hu : u < n) (cs : List LinCon) (q : QState) (r : ResState) (wk : Nat → Worker) :
    BState.pend ⟨q, r, (s.deque.step (.push cs)).2, wk⟩ u = s.pend u ++ cs := by
  obtain ⟨dropped, _, hseen⟩ := hcd.ex
  have hp : s.deque.readPos[u]? = some (s.deque.readPos[u]'(by rw [hcd.len]; exact hu)) := List.getElem?_eq_getElem _
  obtain ⟨h0, h1, _⟩ := hseen u _ hp
  unfold BState.pend
  simp only [CDeque.step, hp]
  rw [List.drop_append_of_le_length (by omega)]

theorem pend_read {n : Nat} {s : BState} {all : List LinCon} {seen : Nat → List LinCon} (hcd : CDInv n s.deque all seen)
    {t : Nat} (ht : t < n) (q : QState) (r : ResState) (wk : Nat → Worker) :
    (s.deque.step (.read t)).1 = .ok (s.pend t) ∧ BState.pend ⟨q, r, (s.deque.step (.read t)).2, wk⟩ t = [] ∧
    ∀ u, u ≠ t → BState.pend ⟨q, r, (s.deque.step (.read t)).2, wk⟩ u = s.pend u := by
  obtain ⟨dropped, _, hseen⟩ := hcd.ex
  have hlt : t < s.deque.readPos.length := by rw [hcd.len]; exact ht
  have hp : s.deque.readPos[t]? = some (s.deque.readPos[t]) := List.getElem?_eq_getElem hlt
  obtain ⟨h0, h1, _⟩ := hseen t _ hp
  have hst : s.deque.step (.read t) = (.ok (s.deque.deque.drop (s.deque.readPos[t]).toNat),
      { s.deque with readPos := s.deque.readPos.set t s.deque.deque.length }) := by
    simp only [CDeque.step, hp]
    rw [if_neg (by omega)]
  rw [hst]
  refine ⟨?_, ?_, fun u hu => ?_⟩
  · simp only [BState.pend, hp]
  · simp only [BState.pend, List.getElem?_set_self hlt]
    simp
  · simp only [BState.pend, List.getElem?_set_ne (Ne.symm hu)]

theorem pend_compact {n : Nat} {s : BState} {all : List LinCon} {seen : Nat → List LinCon} (hcd : CDInv n s.deque all seen)
    (hn : 0 < n) (q : QState) (r : ResState) (wk : Nat → Worker) (u : Nat) (hu : u < n) :
    BState.pend ⟨q, r, (s.deque.step .compact).2, wk⟩ u = s.pend u := by
  obtain ⟨dropped, _, hseen⟩ := hcd.ex
  have hp : s.deque.readPos[u]? = some (s.deque.readPos[u]'(by rw [hcd.len]; exact hu)) := List.getElem?_eq_getElem _
  obtain ⟨h0, h1, _⟩ := hseen u _ hp
  cases hl : s.deque.readPos with
  | nil => rw [← hcd.len, hl] at hn; simp at hn
  | cons a l =>
    obtain ⟨m, hm, hmem, hmin⟩ := minInt_spec a l
    obtain ⟨k, hk⟩ := List.mem_iff_getElem?.1 hmem
    rw [← hl] at hk
    obtain ⟨m0, m1, _⟩ := hseen k m hk
    have hle : m ≤ s.deque.readPos[u]'(by rw [hcd.len]; exact hu) := hmin _ (by rw [← hl]; exact List.getElem_mem _)
    have hst : s.deque.step .compact = (.ok [], { deque := s.deque.deque.drop m.toNat, readPos := s.deque.readPos.map (· - m) }) := by
      simp only [CDeque.step]
      rw [hl, hm]
      dsimp only
      rw [if_neg (by omega)]
    rw [hst]
    simp only [BState.pend, List.getElem?_map, hp, Option.map_some, List.drop_drop]
    congr 1
    omega

end Mtsp
