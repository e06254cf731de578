import Verif.Model.Deque

/-! Property C13. -/

namespace Mtsp

variable {α : Type}

/-- Specification: everything pushed in a history, in order. -/
def cdPushed (ops : List (CDOp α)) : List α :=
  ops.flatMap fun | .push cs => cs | _ => []

/-- Specification: what had been pushed when thread `t` last read (nothing if it never read). -/
def cdSeen (t : Nat) : List (CDOp α) → List α → List α → List α
  | [], _, seen => seen
  | .push cs :: ops, all, seen => cdSeen t ops (all ++ cs) seen
  | .read t' :: ops, all, seen => cdSeen t ops all (if t' = t then all else seen)
  | .compact :: ops, all, seen => cdSeen t ops all seen

/-- what the LP of thread `t` received, in order of arrival -/
def cdReceived (t : Nat) (tr : List (CDOp α × Except Err (List α))) : List α :=
  tr.flatMap fun
    | (.read t', .ok cs) => if t' = t then cs else []
    | _ => []

/-- invariant: `dropped ++ deque` is everything pushed, thread `t` has seen `dropped` and the first
`readPos t` elements of the deque -/
structure CDInv (n : Nat) (d : CDeque α) (all : List α) (seen : Nat → List α) : Prop where
  len : d.readPos.length = n
  ex : ∃ dropped, dropped ++ d.deque = all ∧ ∀ (t : Nat) (p : Int), d.readPos[t]? = some p →
    0 ≤ p ∧ p ≤ d.deque.length ∧ seen t = dropped ++ d.deque.take p.toNat

theorem minInt_spec (a : Int) (l : List Int) : ∃ m, minInt (a :: l) = some m ∧ m ∈ a :: l ∧ ∀ x ∈ a :: l, m ≤ x := by
  refine ⟨_, rfl, ?_⟩
  induction l generalizing a with
  | nil => simp
  | cons b l ih =>
    simp only [List.foldl_cons]
    obtain ⟨h1, h2⟩ := ih (if b < a then b else a)
    constructor
    · rcases List.mem_cons.1 h1 with h | h
      · rw [h]; split <;> simp
      · simp [h]
    · intro x hx
      have h0 := h2 _ List.mem_cons_self
      rcases List.mem_cons.1 hx with rfl | hx
      · refine le_trans h0 ?_
        split <;> omega
      · rcases List.mem_cons.1 hx with rfl | hx
        · refine le_trans h0 ?_
          split <;> omega
        · exact h2 x (List.mem_cons_of_mem _ hx)

theorem CDInv.step {n : Nat} {d : CDeque α} {all : List α} {seen : Nat → List α} (h : CDInv n d all seen)
    (hn : 0 < n) (o : CDOp α) (ho : ∀ t, o = .read t → t < n) :
    (∃ cs, (d.step o).1 = .ok cs ∧
      ∀ t, o = .read t → seen t ++ cs = all) ∧
    CDInv n (d.step o).2 (match o with | .push cs => all ++ cs | _ => all)
      (fun t => match o with | .read t' => if t' = t then all else seen t | _ => seen t) := by
  obtain ⟨dropped, hall, hseen⟩ := h.ex
  cases o with
  | push cs =>
    refine ⟨⟨[], rfl, by simp⟩, h.len, dropped, ?_, ?_⟩
    · simp [CDeque.step, ← hall]
    · intro t p hp
      obtain ⟨h1, h2, h3⟩ := hseen t p hp
      refine ⟨h1, by simp [CDeque.step]; omega, ?_⟩
      simp only [CDeque.step, h3]
      rw [List.take_append_of_le_length (by omega)]
  | read t =>
    have ht := ho t rfl
    have : ∃ p, d.readPos[t]? = some p := ⟨_, List.getElem?_eq_getElem (by rw [h.len]; exact ht)⟩
    obtain ⟨p, hp⟩ := this
    obtain ⟨h1, h2, h3⟩ := hseen t p hp
    have hr : d.step (.read t) = (.ok (d.deque.drop p.toNat), { d with readPos := d.readPos.set t d.deque.length }) := by
      simp only [CDeque.step, hp]; rw [if_neg (by omega)]
    rw [hr]
    refine ⟨⟨_, rfl, ?_⟩, by simp [h.len], dropped, hall, ?_⟩
    · intro t' e; simp at e; subst e
      rw [h3, List.append_assoc, List.take_append_drop, hall]
    · intro t' q hq
      simp only [List.getElem?_set] at hq
      by_cases htt : t = t'
      · subst htt
        rw [if_pos rfl, if_pos (by rw [h.len]; exact ht)] at hq
        simp at hq; subst hq
        refine ⟨by omega, by simp, ?_⟩
        simp [hall]
      · rw [if_neg htt] at hq
        simp only [if_neg htt]
        exact hseen t' q hq
  | compact =>
    have hne : d.readPos ≠ [] := by intro e; have := h.len; rw [e] at this; simp at this; omega
    obtain ⟨a, l, hal⟩ := List.exists_cons_of_ne_nil hne
    obtain ⟨m, hm, hmem, hmin⟩ := minInt_spec a l
    rw [← hal] at hm hmem hmin
    obtain ⟨i, hi⟩ := List.mem_iff_getElem?.1 hmem
    obtain ⟨m0, m1, _⟩ := hseen i m hi
    have hr : d.step .compact = (.ok [], { deque := d.deque.drop m.toNat, readPos := d.readPos.map (· - m) }) := by
      simp only [CDeque.step, hm]; rw [if_neg (by omega)]
    rw [hr]
    refine ⟨⟨[], rfl, by simp⟩, by simp [h.len], dropped ++ d.deque.take m.toNat, ?_, ?_⟩
    · simp [hall]
    · intro t p hp
      simp only [List.getElem?_map, Option.map_eq_some_iff] at hp
      obtain ⟨q, hq, rfl⟩ := hp
      obtain ⟨h1, h2, h3⟩ := hseen t q hq
      have hmq := hmin q (List.mem_of_getElem? hq)
      refine ⟨by omega, by simp; omega, ?_⟩
      simp only [h3, List.append_assoc]
      congr 1
      have e : q.toNat = m.toNat + (q - m).toNat := by omega
      rw [e, List.take_add]

/-- C13: in every interleaving of pushes, reads and compactions by `n` threads, no access is out of range,
and at every moment the LP of thread `t` has received exactly the constraints pushed until its last read,
each once and in push order.  (A read therefore always completes the thread's LP with everything pushed so
far, and the compaction never discards an unread constraint.) -/
theorem C13_every_thread_sees_every_cut_once (n : Nat) (hn : 0 < n) (ops : List (CDOp α))
    (hops : ∀ t, .read t ∈ ops → t < n) :
    (∀ o r, (o, r) ∈ ((CDeque.new α n).run ops).2 → ∃ cs, r = .ok cs) ∧
    ∀ t, t < n → cdReceived t ((CDeque.new α n).run ops).2 = cdSeen t ops [] [] := by
  -- generalise over a state satisfying the invariant and the trace so far
  have gen : ∀ (ops : List (CDOp α)) (d : CDeque α) (all : List α) (seen : Nat → List α)
      (tr : List (CDOp α × Except Err (List α))), (∀ t, .read t ∈ ops → t < n) →
      CDInv n d all seen → (∀ t, t < n → cdReceived t tr = seen t) →
      (∀ o r, (o, r) ∈ tr → ∃ cs, r = .ok cs) →
      let res := ops.foldl (fun p o => ((p.1.step o).2, p.2 ++ [(o, (p.1.step o).1)])) (d, tr)
      (∀ o r, (o, r) ∈ res.2 → ∃ cs, r = .ok cs) ∧
      ∀ t, t < n → cdReceived t res.2 = cdSeen t ops all (seen t) := by
    intro ops
    induction ops with
    | nil => intro d all seen tr _ _ h1 h2; exact ⟨h2, h1⟩
    | cons o ops ih =>
      intro d all seen tr ho hi h1 h2
      simp only [List.foldl_cons]
      obtain ⟨⟨cs, hcs, hnew⟩, hinv⟩ := hi.step hn o (fun t e => ho t (by simp [e]))
      have := ih (d.step o).2 _ _ (tr ++ [(o, (d.step o).1)]) (fun t ht => ho t (by simp [ht])) hinv
        (by
          intro t ht
          have e1 : cdReceived t (tr ++ [(o, (d.step o).1)]) =
              seen t ++ cdReceived t [(o, (d.step o).1)] := by
            rw [← h1 t ht]; simp [cdReceived]
          rw [e1, hcs]
          cases o with
          | push c => simp [cdReceived]
          | compact => simp [cdReceived]
          | read t' =>
            simp only [cdReceived, List.flatMap_cons, List.flatMap_nil, List.append_nil]
            by_cases e : t' = t
            · subst e; simp only [if_true]; exact hnew t' rfl
            · simp [e])
        (by
          intro o' r hr
          rcases List.mem_append.1 hr with hr | hr
          · exact h2 o' r hr
          · simp at hr; obtain ⟨_, rfl⟩ := hr; exact ⟨cs, hcs⟩)
      refine ⟨this.1, fun t ht => ?_⟩
      rw [this.2 t ht]
      cases o with
      | push c => rfl
      | compact => rfl
      | read t' => rfl
  refine gen ops (CDeque.new α n) [] (fun _ => []) [] hops ⟨by simp [CDeque.new], [], rfl, ?_⟩
    (fun t _ => rfl) (by simp)
  intro t p hp
  simp only [CDeque.new, List.getElem?_replicate] at hp
  split at hp <;> simp at hp
  subst hp; simp [CDeque.new]

/-- C13, corollary: right after a read, a thread's LP contains every constraint pushed so far. -/
theorem C13_read_delivers_everything (n : Nat) (hn : 0 < n) (ops : List (CDOp α)) (t : Nat) (ht : t < n)
    (hops : ∀ t, .read t ∈ ops → t < n) :
    cdReceived t ((CDeque.new α n).run (ops ++ [.read t])).2 = cdPushed ops := by
  have hops' : ∀ t', CDOp.read t' ∈ ops ++ [CDOp.read t] → t' < n := by
    intro t' h'
    rcases List.mem_append.1 h' with h' | h'
    · exact hops t' h'
    · simp at h'; subst h'; exact ht
  rw [(C13_every_thread_sees_every_cut_once n hn (ops ++ [CDOp.read t]) hops').2 t ht]
  have gen : ∀ (ops : List (CDOp α)) all seen, cdSeen t (ops ++ [.read t]) all seen = all ++ cdPushed ops := by
    intro ops
    induction ops with
    | nil => intro all seen; simp [cdSeen, cdPushed]
    | cons o ops ih =>
      intro all seen
      cases o <;> simp [cdSeen, ih, cdPushed]
  simpa using gen ops [] []

/-- non-vacuity: two threads, a compaction between the reads -/
example : cdReceived 1 ((CDeque.new Nat 2).run
    [.push [10], .read 0, .push [11, 12], .read 1, .compact, .read 0, .push [13], .compact, .read 1]).2
    = [10, 11, 12, 13] := by decide +kernel

end Mtsp
