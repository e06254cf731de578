import Verif.Proof.BlockingSim
import Verif.Props.Termination

/-! C86: the search with workers that sleep in `Pop`.  C67, C68 and C81 for that search. -/

namespace Mtsp

variable {e : BEnv} {rows : Nat} {w : Weights} {starts ends : List Nat} {t t' : Nat} {r : ResState}
  {who : Nat → Nat} {inp : Nat → Inp} {st : Nat → KState}

/-- an input that is always possible -/
theorem timeout_ok (e : BEnv) (s : BState) (t : Nat) (late : Bool) : (Inp.mk late .timeout 0).Ok e s t := by
  unfold Inp.Ok
  split
  · trivial
  · trivial

/-- the notifications of a worker while nobody sleeps -/
theorem KRun.deliver {tr : List (Nat × Inp)} {s : BState} (ht : t < e.threads) : ∀ (j : Nat) (tr : List (Nat × Inp)),
    KRun e r tr ⟨s, Function.update (fun _ => .awake) t (slpNotify j)⟩ → ∃ tr', KRun e r tr' ⟨s, fun _ => .awake⟩
  | 0, tr, h => ⟨tr, by
      have : Function.update (fun _ => Slp.awake) t (slpNotify 0) = fun _ => .awake := by
        funext u
        by_cases hu : u = t
        · subst hu; simp [slpNotify]
        · rw [Function.update_of_ne hu]
      rw [this] at h
      exact h⟩
  | j + 1, tr, h => by
    have h1 := KRun.step _ _ _ t ⟨false, .timeout, 0⟩ h ht (timeout_ok _ _ _ _) (.wakeNone j (by simp [slpNotify]) fun u _ => by
      dsimp only
      by_cases hu : u = t
      · subst hu; rw [Function.update_self]; simp [slpNotify]
      · rw [Function.update_of_ne hu]; simp)
    dsimp only at h1
    rw [Function.update_idem] at h1
    exact KRun.deliver (tr := tr) ht j _ h1

theorem KRun.deliverAll {tr : List (Nat × Inp)} {s : BState} (ht : t < e.threads)
    (h : KRun e r tr ⟨s, Function.update (fun _ => .awake) t .notifyAll⟩) : ∃ tr', KRun e r tr' ⟨s, fun _ => .awake⟩ := by
  have h1 := KRun.step _ _ _ t ⟨false, .timeout, 0⟩ h ht (timeout_ok _ _ _ _) (.wakeAll (by simp))
  have h2 : Function.update (fun w => if Function.update (fun _ => Slp.awake) t Slp.notifyAll w = .asleep then Slp.awake
      else Function.update (fun _ => Slp.awake) t Slp.notifyAll w) t Slp.awake = fun _ => .awake := by
    funext u
    by_cases hu : u = t
    · subst hu; simp
    · rw [Function.update_of_ne hu, Function.update_of_ne hu]; simp
  dsimp only at h1
  rw [h2] at h1
  exact ⟨_, h1⟩

/-- **C86.** Sleeping changes nothing about what the search can do: the states of queue, result, cuts and workers that occur with
sleeping workers are exactly those that occur when a worker that finds nothing to do simply looks again. -/
theorem C86_same_search (g : e.Good rows w starts ends) (hr : createInitialResult e.mode e.m t ResState.init = .ok (r, t')) (s : BState) :
    (∃ tr sl, KRun e r tr ⟨s, sl⟩) ↔ ∃ tr, BRun e r tr s := by
  constructor
  · rintro ⟨tr, sl, h⟩
    obtain ⟨tr', _, h'⟩ := h.brun
    exact ⟨tr', h'⟩
  · rintro ⟨tr, h⟩
    suffices ∃ tr, KRun e r tr ⟨s, fun _ => .awake⟩ by
      obtain ⟨tr, h⟩ := this
      exact ⟨tr, _, h⟩
    induction h with
    | start s hs => exact ⟨[], .start s hs⟩
    | step tr s u i hb hu hok ih =>
      obtain ⟨tr', hk⟩ := ih
      by_cases hw : s.waits e u
      · rw [waits_step hw]; exact ⟨tr', hk⟩
      · obtain ⟨_, all, hg⟩ := run_ginv g ⟨t, t', r, hr⟩ hb
        have h1 := KRun.step _ _ _ u i hk hu hok (.work rfl hw)
        dsimp only at h1
        rcases slpAfter_spec hg hu i with h2 | ⟨j, hj, h2, _⟩ | ⟨h2, _⟩
        · rw [h2] at h1; exact KRun.deliver (tr := tr') hu 0 _ h1
        · rw [h2] at h1
          exact KRun.deliver (tr := tr') hu j _ (by simpa [slpNotify, hj] using h1)
        · rw [h2] at h1; exact KRun.deliverAll hu h1

/-- **C86.** In every state of a search with sleeping workers: who sleeps is in `Pop` and owns no node; -/
theorem C86_sleepers_own_nothing (g : e.Good rows w starts ends) (hr : createInitialResult e.mode e.m t ResState.init = .ok (r, t'))
    {tr : List (Nat × Inp)} {k : KState} (h : KRun e r tr k) {u : Nat} (hu : u < e.threads) (ha : k.sl u = .asleep) :
    (k.s.wk u).pc = .pop ∧ k.s.q.workedOn[u]? = some none := by
  have hp := (h.kinv g ⟨t, t', r, hr⟩).asleep u hu ha
  obtain ⟨tr', _, hb⟩ := h.brun
  obtain ⟨_, all, hg⟩ := run_ginv g ⟨t, t', r, hr⟩ hb
  obtain ⟨_, o, ho, hpc⟩ := hg.wk u hu
  simp only [PcOk, hp] at hpc
  exact ⟨hp, by rw [ho, hpc]⟩

/-- **C86.** while somebody sleeps, somebody else does not: it runs, or it is about to wake the sleepers (it may itself have left
its loop by then); -/
theorem C86_not_all_asleep (g : e.Good rows w starts ends) (hr : createInitialResult e.mode e.m t ResState.init = .ok (r, t'))
    {tr : List (Nat × Inp)} {k : KState} (h : KRun e r tr k) {u : Nat} (hu : u < e.threads) (ha : k.sl u = .asleep) :
    ∃ v < e.threads, k.sl v ≠ .asleep ∧ ((k.s.wk v).pc ≠ .left ∨ k.sl v = .notifyAll) :=
  (h.kinv g ⟨t, t', r, hr⟩).act ⟨u, hu, ha⟩

/-- **C86.** and if there will never be work again - the queue has been cleared, or it is empty and nobody owns a node -, then
somebody is about to wake all sleepers.  In particular nobody sleeps when all workers have left and made their calls. -/
theorem C86_end_is_announced (g : e.Good rows w starts ends) (hr : createInitialResult e.mode e.m t ResState.init = .ok (r, t'))
    {tr : List (Nat × Inp)} {k : KState} (h : KRun e r tr k) {u : Nat} (hu : u < e.threads) (ha : k.sl u = .asleep)
    (hend : k.s.q.cleared = true ∨ (k.s.q.heap = [] ∧ ∀ v < e.threads, k.s.q.workedOn[v]? = some none)) :
    ∃ v < e.threads, k.sl v = .notifyAll := by
  refine (h.kinv g ⟨t, t', r, hr⟩).wake ⟨u, hu, ha⟩ (hend.imp id fun h2 => ⟨h2.1, ?_⟩)
  obtain ⟨tr', _, hb⟩ := h.brun
  obtain ⟨_, all, hg⟩ := run_ginv g ⟨t, t', r, hr⟩ hb
  by_contra hc
  have hc : 0 < k.s.q.count := by omega
  rw [hg.q.count] at hc
  obtain ⟨v, hv⟩ := activeCount_pos hc
  obtain ⟨x, hx⟩ := List.mem_iff_getElem?.1 hv
  have := h2.2 x (by rw [← hg.len]; exact lt_length_of_some hx)
  rw [hx] at this
  simp at this

/-- **C86.** The workers of the search use the queue as the protocol model of C12, C13 and C81 says, pushing at most once for each node
they take: every state of the search belongs to a state of the protocol, with the same queue. -/
theorem C86_follows_protocol (g : e.Good rows w starts ends) (hr : createInitialResult e.mode e.m t ResState.init = .ok (r, t'))
    {tr : List (Nat × Inp)} {k : KState} (h : KRun e r tr k) :
    ∃ c pushed, OnceRun e.H e.threads c pushed ∧ c.q = k.s.q ∧ (∀ u < e.threads, Shows (k.sl u) (k.s.wk u).pc (c.pc u)) ∧
      ∀ u < e.threads, pushed u = true → (k.s.wk u).pc = .done := by
  obtain ⟨c, p, S⟩ := h.sim g ⟨t, t', r, hr⟩
  exact ⟨c, p, S.run, S.q, S.pc, S.mark⟩

theorem shows_running {sl : Slp} {pc : Pc} (h : Shows sl pc .running) :
    sl = .awake ∧ (pc = .head ∨ (∃ l, pc = .headUpd l) ∨ pc = .clear ∨ pc = .pop) := by
  unfold Shows at h
  split at h <;> (try simp at h)
  split at h <;> simp_all

theorem shows_woken {sl : Slp} {pc : Pc} (h : Shows sl pc .woken) : sl = .awake ∧ pc = .pop := by
  unfold Shows at h
  split at h <;> (try simp at h)
  split at h <;> simp_all

theorem shows_notifyOne {sl : Slp} {pc : Pc} {j : Nat} (h : Shows sl pc (.notifyOne j)) : sl = .notify j := by
  unfold Shows at h
  split at h <;> (try simp at h)
  · rw [h]
  · split at h <;> simp_all

theorem shows_notifyAll {sl : Slp} {pc : Pc} (h : Shows sl pc (.notifyAll false)) : sl = .notifyAll ∧ pc = .head := by
  unfold Shows at h
  split at h <;> (try simp at h)
  · exact ⟨rfl, h⟩
  · split at h <;> simp_all

theorem shows_holding {sl : Slp} {pc : Pc} (h : Shows sl pc .holding) : sl = .awake := by
  unfold Shows at h
  split at h <;> (try simp at h)
  rfl

/-- **C81 (partial)**, for the search itself with at most three workers: whenever nodes are queued (and the queue is not cleared)
while a worker sleeps, then either a notification is due, or exactly one node is queued and every other worker is on its way to
the queue, having no more work of its own. -/
theorem C81_search_three_workers_partial (g : e.Good rows w starts ends) (hr : createInitialResult e.mode e.m t ResState.init = .ok (r, t'))
    (h3 : e.threads ≤ 3) {tr : List (Nat × Inp)} {k : KState} (h : KRun e r tr k) {u : Nat} (hu : u < e.threads) (ha : k.sl u = .asleep)
    (hq : k.s.q.heap ≠ []) (hc : k.s.q.cleared = false) :
    (∃ v j, v < e.threads ∧ k.sl v = .notify (j + 1)) ∨
    (k.s.q.heap.length = 1 ∧ ∀ v < e.threads, v ≠ u → k.sl v ≠ .asleep ∧
      ((k.s.wk v).pc = .head ∨ (∃ l, (k.s.wk v).pc = .headUpd l) ∨ (k.s.wk v).pc = .clear ∨ (k.s.wk v).pc = .pop ∨ (k.s.wk v).pc = .done)) := by
  obtain ⟨c, p, hrun, hcq, hsh, hm⟩ := C86_follows_protocol g hr h
  have hw : c.pc u = .waiting := by
    have := hsh u hu
    rw [ha] at this
    exact this
  rcases C81_no_sleep_three_workers_partial e.H e.threads h3 c p hrun u hu hw (by rw [hcq]; exact hq) (by rw [hcq]; exact hc) with
    ⟨v, j, hv, h1⟩ | ⟨h1, h2⟩
  · have := hsh v hv
    rw [h1] at this
    exact Or.inl ⟨v, j, hv, shows_notifyOne this⟩
  · refine Or.inr ⟨by rw [← hcq]; exact h1, fun v hv hvu => ?_⟩
    have hs := hsh v hv
    rcases h2 v hv hvu with h4 | h4 | h4 | ⟨h4, h5⟩
    · rw [h4] at hs
      obtain ⟨a, b⟩ := shows_running hs
      refine ⟨by rw [a]; simp, ?_⟩
      rcases b with b | b | b | b
      · exact Or.inl b
      · exact Or.inr (Or.inl b)
      · exact Or.inr (Or.inr (Or.inl b))
      · exact Or.inr (Or.inr (Or.inr (Or.inl b)))
    · rw [h4] at hs
      obtain ⟨a, b⟩ := shows_woken hs
      exact ⟨by rw [a]; simp, Or.inr (Or.inr (Or.inr (Or.inl b)))⟩
    · rw [h4] at hs
      obtain ⟨a, b⟩ := shows_notifyAll hs
      exact ⟨by rw [a]; simp, Or.inl b⟩
    · rw [h4] at hs
      exact ⟨by rw [shows_holding hs]; simp, Or.inr (Or.inr (Or.inr (Or.inr (hm v hv h5))))⟩

/-- **C68**, with sleeping workers: whatever the workers are doing when the deadline passes, also if some of them sleep: if no
worker that could go on is passed over forever, there comes a time when all of them have left their loops - unless the LP solver
has reported an error, which one of them turned into an exception.  No spurious wake-ups are needed. -/
theorem C68_deadline_with_sleeping (g : e.Good rows w starts ends) (hr : createInitialResult e.mode e.m t ResState.init = .ok (r, t'))
    (f : BlockRun e r who inp st) {n1 : Nat} (hlate : ∀ n, n1 ≤ n → (inp n).late = true) :
    ∃ n, (∀ u < e.threads, ((st n).s.wk u).pc = .left) ∨
      ∃ u < e.threads, ((st n).s.wk u).pc = .crashed (.logic "Unexpected error happened while solving LP") ∧ ∃ k < n, (inp k).ans = .error :=
  f.deadline g ⟨t, t', r, hr⟩ hlate

/-- **C67 (partial)**, with sleeping workers. Missing as in `C67_search_ends_partial`. -/
theorem C67_search_ends_sleeping_partial (g : e.Good rows w starts ends) (hr : createInitialResult e.mode e.m t ResState.init = .ok (r, t'))
    (hcp : e.CombsProgress) (f : BlockRun e r who inp st) (hrow : ∀ n, (inp n).OnRows e (st n).s (who n)) :
    ∃ n, (∀ u < e.threads, ((st n).s.wk u).pc = .left) ∨
      ∃ u < e.threads, ((st n).s.wk u).pc = .crashed (.logic "Unexpected error happened while solving LP") ∧ ∃ k < n, (inp k).ans = .error :=
  f.terminates g ⟨t, t', r, hr⟩ hcp hrow

/-- **C67 (partial)**, with sleeping workers and at most five nodes. -/
theorem C67_small_instances_sleeping_partial (g : e.Good rows w starts ends) (hr : createInitialResult e.mode e.m t ResState.init = .ok (r, t'))
    (hn : e.m.n ≤ 5) (hgh : e.gh.Near e.m.n) (f : BlockRun e r who inp st) (hrow : ∀ n, (inp n).OnRows e (st n).s (who n)) :
    ∃ n, (∀ u < e.threads, ((st n).s.wk u).pc = .left) ∨
      ∃ u < e.threads, ((st n).s.wk u).pc = .crashed (.logic "Unexpected error happened while solving LP") ∧ ∃ k < n, (inp k).ans = .error :=
  C67_search_ends_sleeping_partial g hr (combsProgress_small g hgh hn) f hrow

theorem BlockRun.left_mono (f : BlockRun e r who inp st) {n m u : Nat} (hm : n ≤ m) (h : ((st n).s.wk u).pc = .left) :
    ((st m).s.wk u).pc = .left := by
  induction m, hm using Nat.le_induction with
  | base => exact h
  | succ m hm ih =>
    by_cases hw : who m = u
    · rcases (f.step m).lazy with hs | hs
      · rw [hs, hw]; simp only [BState.step, ih]
      · rw [hs]; exact ih
    · rw [(f.step m).wk_other (Ne.symm hw)]; exact ih

/-- **C86.** Once the deadline has passed, every worker that sleeps is woken up (or the LP solver reports an error, which ends
the program with an exception). -/
theorem C86_every_sleeper_wakes (g : e.Good rows w starts ends) (hr : createInitialResult e.mode e.m t ResState.init = .ok (r, t'))
    (f : BlockRun e r who inp st) {n1 : Nat} (hlate : ∀ n, n1 ≤ n → (inp n).late = true) (n u : Nat) (hu : u < e.threads) :
    (∃ m, n ≤ m ∧ (st m).sl u ≠ .asleep) ∨ ∃ m, ∃ v < e.threads, ((st m).s.wk v).pc = .crashed (.logic "Unexpected error happened while solving LP") := by
  obtain ⟨m, hl | ⟨v, hv, hc, _⟩⟩ := f.deadline g ⟨t, t', r, hr⟩ hlate
  · left
    refine ⟨max n m, le_max_left _ _, fun ha => ?_⟩
    have h1 := (f.kinv g ⟨t, t', r, hr⟩ (max n m)).asleep u hu ha
    have h2 := f.left_mono (le_max_right n m) (hl u hu)
    rw [h1] at h2
    simp at h2
  · exact Or.inr ⟨m, v, hv, hc⟩

/-! ### the hypotheses can be met -/

/-- what `waits` says, computed -/
def BState.waitsB (e : BEnv) (s : BState) (t : Nat) : Bool :=
  match (s.wk t).pc, (s.q.pop e.H t).1 with
  | .pop, .ok .blocked => true
  | _, _ => false

theorem waitsB_iff (s : BState) (t : Nat) : s.waitsB e t = true ↔ s.waits e t := by
  unfold BState.waitsB BState.waits
  split
  · rename_i h1 h2; simp [h1, h2]
  · rename_i h
    simp only [Bool.false_eq_true, false_iff]
    exact fun ⟨h1, h2⟩ => h h1 h2

/-- one step, `notify_one` wakes the first sleeper, nobody wakes up spuriously -/
def KState.go (e : BEnv) (k : KState) (t : Nat) (i : Inp) : KState :=
  match k.sl t with
  | .awake => if k.s.waitsB e t then ⟨k.s, Function.update k.sl t .asleep⟩ else ⟨k.s.step e t i, Function.update k.sl t (slpAfter e k.s t)⟩
  | .asleep => k
  | .notify 0 => k
  | .notify (j + 1) =>
    match (List.range e.threads).find? fun w => k.sl w = .asleep with
    | some w => ⟨k.s, Function.update (Function.update k.sl w .awake) t (slpNotify j)⟩
    | none => ⟨k.s, Function.update k.sl t (slpNotify j)⟩
  | .notifyAll => ⟨k.s, Function.update (fun w => if k.sl w = .asleep then .awake else k.sl w) t .awake⟩

theorem KState.go_step {k : KState} {t : Nat} (h : k.sl t ≠ .notify 0) (i : Inp) : KStep e t i k (k.go e t i) := by
  unfold KState.go
  split
  · rename_i ha
    split
    · rename_i hw; exact .sleep ha ((waitsB_iff _ _).1 hw)
    · rename_i hw; exact .work ha fun hh => hw ((waitsB_iff _ _).2 hh)
  · rename_i ha; exact .dream ha
  · rename_i ha; exact absurd ha h
  · rename_i j ha
    split
    · rename_i w hf
      have h1 := List.find?_some hf
      have h2 := List.mem_of_find?_eq_some hf
      exact .wakeOne w j ha (List.mem_range.1 h2) (by simpa using h1)
    · rename_i hf
      refine .wakeNone j ha fun w hw hs => ?_
      have := List.find?_eq_none.1 hf w (List.mem_range.2 hw)
      simp [hs] at this
  · rename_i ha; exact .wakeAll ha

/-- the endless execution that begins with a script and goes on with `timeout` for all LPs -/
def kwho (e : BEnv) (l : List (Nat × Cue)) (n : Nat) : Nat := match l[n]? with | some x => x.1 | none => n % e.threads
def kinp (e : BEnv) (l : List (Nat × Cue)) (late : Bool) (n : Nat) (s : BState) : Inp :=
  match l[n]? with | some x => x.2.inp e s x.1 | none => ⟨late, .timeout, 0⟩
def kst (e : BEnv) (l : List (Nat × Cue)) (late : Bool) (s : BState) : Nat → KState
  | 0 => ⟨s, fun _ => .awake⟩
  | n + 1 => (kst e l late s n).go e (kwho e l n) (kinp e l late n (kst e l late s n).s)

def kplay (e : BEnv) : KState → List (Nat × Cue) → KState
  | k, [] => k
  | k, x :: l => kplay e (k.go e x.1 (x.2.inp e k.s x.1)) l

def kplayB (e : BEnv) : KState → List (Nat × Cue) → Bool
  | _, [] => true
  | k, x :: l => decide (x.1 < e.threads) && x.2.okB e k.s x.1 && kplayB e (k.go e x.1 (x.2.inp e k.s x.1)) l

theorem kplay_append (k : KState) (l1 l2 : List (Nat × Cue)) : kplay e k (l1 ++ l2) = kplay e (kplay e k l1) l2 := by
  induction l1 generalizing k with
  | nil => rfl
  | cons x l ih => exact ih _

theorem kplayB_append (k : KState) (l1 l2 : List (Nat × Cue)) : kplayB e k (l1 ++ l2) = (kplayB e k l1 && kplayB e (kplay e k l1) l2) := by
  induction l1 generalizing k with
  | nil => simp [kplayB, kplay]
  | cons x l ih => simp [kplayB, kplay, ih, Bool.and_assoc]

/-- the states of the script are those of the execution -/
theorem kst_take (l : List (Nat × Cue)) (late : Bool) (s : BState) (n : Nat) (hn : n ≤ l.length) :
    kst e l late s n = kplay e ⟨s, fun _ => .awake⟩ (l.take n) := by
  induction n with
  | zero => rfl
  | succ n ih =>
    have hlt : n < l.length := hn
    rw [List.take_add_one, List.getElem?_eq_getElem hlt, Option.toList_some, kplay_append, ← ih (by omega)]
    simp only [kst, kwho, kinp, List.getElem?_eq_getElem hlt, kplay]

theorem kst_run (g : e.Good rows w starts ends) (hr : createInitialResult e.mode e.m t ResState.init = .ok (r, t'))
    {l : List (Nat × Cue)} {s : BState} (hs : BState.start e r = .ok s) (hp : kplayB e ⟨s, fun _ => .awake⟩ l = true) (late : Bool) :
    BlockRun e r (kwho e l) (fun n => kinp e l late n (kst e l late s n).s) (kst e l late s) ∧
      (∀ n, l.length ≤ n → (kinp e l late n (kst e l late s n).s).late = late) ∧
      ∀ n, (kinp e l late n (kst e l late s n).s).OnRows e (kst e l late s n).s (kwho e l n) := by
  have h0 : 0 < e.threads := (start_inv g hs).2.2.2.2.1
  have hcue : ∀ n (hn : n < l.length), l[n].1 < e.threads ∧ l[n].2.okB e (kst e l late s n).s l[n].1 = true := by
    intro n hn
    have hsplit : l = l.take n ++ l[n] :: l.drop (n + 1) := by rw [List.getElem_cons_drop, List.take_append_drop]
    rw [hsplit, kplayB_append, ← kst_take l late s n hn.le] at hp
    simp only [kplayB, Bool.and_eq_true, decide_eq_true_eq] at hp
    exact hp.2.1
  have hwho : ∀ n, kwho e l n < e.threads := by
    intro n
    unfold kwho
    by_cases hn : n < l.length
    · rw [List.getElem?_eq_getElem hn]; exact (hcue n hn).1
    · rw [List.getElem?_eq_none (by omega)]; exact Nat.mod_lt n h0
  have hok : ∀ n, (kinp e l late n (kst e l late s n).s).Ok e (kst e l late s n).s (kwho e l n) := by
    intro n
    unfold kwho kinp
    by_cases hn : n < l.length
    · rw [List.getElem?_eq_getElem hn]; exact Cue.ok (hcue n hn).2
    · rw [List.getElem?_eq_none (by omega)]; exact timeout_ok _ _ _ _
  have hrun : ∀ n, ∃ tr, KRun e r tr (kst e l late s n) := by
    intro n
    induction n with
    | zero => exact ⟨[], .start s hs⟩
    | succ n ih =>
      obtain ⟨tr, h⟩ := ih
      exact ⟨_, .step _ _ _ _ _ h (hwho n) (hok n) (KState.go_step (fun h2 => ((h.kinv g ⟨t, t', r, hr⟩).notify _ (hwho n) 0 h2).1 rfl) _)⟩
  refine ⟨⟨hs, fun _ => rfl, fun n => ?_, hwho, hok, fun u hu n => ?_⟩, fun n hn => ?_, fun n => ?_⟩
  · obtain ⟨tr, h⟩ := hrun n
    exact KState.go_step (fun h2 => ((h.kinv g ⟨t, t', r, hr⟩).notify _ (hwho n) 0 h2).1 rfl) _
  · refine ⟨e.threads * (n + l.length) + u, ?_, ?_⟩
    · have : 1 * (n + l.length) ≤ e.threads * (n + l.length) := Nat.mul_le_mul_right _ h0
      omega
    · have : 1 * (n + l.length) ≤ e.threads * (n + l.length) := Nat.mul_le_mul_right _ h0
      unfold kwho
      rw [List.getElem?_eq_none (by omega)]
      dsimp only
      rw [Nat.mul_add_mod, Nat.mod_eq_of_lt hu]
  · unfold kinp; rw [List.getElem?_eq_none hn]
  · unfold kwho kinp
    by_cases hn : n < l.length
    · rw [List.getElem?_eq_getElem hn]; exact Cue.onRows (hcue n hn).2
    · rw [List.getElem?_eq_none (by omega)]; intro lb _ y rc ha; simp at ha

/-- worker 0 solves the root while worker 1 goes to sleep -/
def c86Script : List (Nat × Cue) :=
  [(0, .go false), (0, .go false), (0, .go false), (1, .go false), (1, .go false), (1, .go false), (0, .go false), (0, .go false),
    (0, .opt c67Y [0, -1, -1, -1, 0, 0, 1, 0, 0, 1, 0, 0, 1, 0, 0])]

/-- worker 0 pushes the result, wakes worker 1, both go on to the end -/
def c86Rest : List (Nat × Cue) := List.replicate 20 (0, .go false) ++ List.replicate 20 (1, .go false)

def c86K : KState := kplay c67Env ⟨exStart c67Env 20, fun _ => .awake⟩ c86Script

/-- the search of `c67_fair`, with sleeping workers: worker 1 sleeps after nine steps, and at the end both have left -/
theorem c86_block (late : Bool) : ∃ t t' r who inp st n1, createInitialResult c67Env.mode c67Env.m t ResState.init = .ok (r, t') ∧
    BlockRun c67Env r who inp st ∧ (∀ n, n1 ≤ n → (inp n).late = late) ∧ (∀ n, (inp n).OnRows c67Env (st n).s (who n)) ∧
    (st 9).sl 1 = .asleep ∧ ∀ u < 2, ((st n1).s.wk u).pc = .left := by
  obtain ⟨r, t', hr, hrun, _⟩ := exStart_run (e := c67Env) (t := 20) (by decide +kernel)
  have hp : kplayB c67Env ⟨exStart c67Env 20, fun _ => .awake⟩ (c86Script ++ c86Rest) = true := by decide +kernel
  have ha : c86K.sl 1 = .asleep := by decide +kernel
  have hl : (List.range 2).all (fun u => ((kplay c67Env ⟨exStart c67Env 20, fun _ => .awake⟩ (c86Script ++ c86Rest)).s.wk u).pc.isLeft) = true := by
    decide +kernel
  obtain ⟨h1, h2, h3⟩ := kst_run c67_good hr hrun.start_eq hp late
  refine ⟨20, t', r, _, _, _, (c86Script ++ c86Rest).length, hr, h1, h2, h3, ?_, fun u hu => ?_⟩
  · rw [kst_take _ _ _ 9 (by decide)]
    exact ha
  · rw [kst_take _ _ _ _ (le_refl _), List.take_length]
    exact Pc.isLeft_eq (List.all_eq_true.1 hl u (List.mem_range.2 hu))

/-- non-vacuity of C67 and C68 with sleeping workers -/
example : ∃ t t' r who inp st, createInitialResult c67Env.mode c67Env.m t ResState.init = .ok (r, t') ∧ c67Env.Good 4 (fun _ _ => 1) [0] [3] ∧
    c67Env.m.n ≤ 5 ∧ c67Env.gh.Near c67Env.m.n ∧ c67Env.CombsProgress ∧ BlockRun c67Env r who inp st ∧ (∀ n, (inp n).OnRows c67Env (st n).s (who n)) ∧ ∃ n, (st n).sl 1 = .asleep := by
  obtain ⟨t, t', r, who, inp, st, _, hr, hf, _, hrow, ha, _⟩ := c86_block false
  have hn : c67Env.m.n ≤ 5 := by decide +kernel
  exact ⟨t, t', r, who, inp, st, hr, c67_good, hn, c67_gh, combsProgress_small c67_good c67_gh hn, hf, hrow, 9, ha⟩

example : ∃ t t' r who inp st n1, createInitialResult c67Env.mode c67Env.m t ResState.init = .ok (r, t') ∧ c67Env.Good 4 (fun _ _ => 1) [0] [3] ∧
    BlockRun c67Env r who inp st ∧ (∀ n, n1 ≤ n → (inp n).late = true) ∧ ∃ n, (st n).sl 1 = .asleep := by
  obtain ⟨t, t', r, who, inp, st, n1, hr, hf, hl, _, ha, _⟩ := c86_block true
  exact ⟨t, t', r, who, inp, st, n1, hr, c67_good, hf, hl, 9, ha⟩

/-- a script as a finite execution -/
theorem kplay_run (g : e.Good rows w starts ends) (hr : createInitialResult e.mode e.m t ResState.init = .ok (r, t'))
    {l : List (Nat × Cue)} {s : BState} (hs : BState.start e r = .ok s) (hp : kplayB e ⟨s, fun _ => .awake⟩ l = true) :
    ∃ tr, KRun e r tr (kplay e ⟨s, fun _ => .awake⟩ l) := by
  obtain ⟨h1, _, _⟩ := kst_run g hr hs hp false
  have : ∀ n, ∃ tr, KRun e r tr (kst e l false s n) := by
    intro n
    induction n with
    | zero => exact ⟨[], .start s hs⟩
    | succ n ih =>
      obtain ⟨tr, h⟩ := ih
      exact ⟨_, .step _ _ _ _ _ h (h1.worker n) (h1.ok n) (h1.step n)⟩
  have h2 := this l.length
  rwa [kst_take _ _ _ _ (le_refl _), List.take_length] at h2

theorem c86_run (l : List (Nat × Cue)) (hp : kplayB c67Env ⟨exStart c67Env 20, fun _ => .awake⟩ l = true) :
    ∃ t t' r tr, createInitialResult c67Env.mode c67Env.m t ResState.init = .ok (r, t') ∧
      KRun c67Env r tr (kplay c67Env ⟨exStart c67Env 20, fun _ => .awake⟩ l) := by
  obtain ⟨r, t', hr, hrun, _⟩ := exStart_run (e := c67Env) (t := 20) (by decide +kernel)
  obtain ⟨tr, h⟩ := kplay_run c67_good hr hrun.start_eq hp
  exact ⟨20, t', r, tr, hr, h⟩

/-- non-vacuity of C86: worker 1 sleeps -/
example : ∃ t t' r tr k, createInitialResult c67Env.mode c67Env.m t ResState.init = .ok (r, t') ∧ c67Env.Good 4 (fun _ _ => 1) [0] [3] ∧
    KRun c67Env r tr k ∧ 1 < c67Env.threads ∧ k.sl 1 = .asleep := by
  obtain ⟨t, t', r, tr, hr, h⟩ := c86_run c86Script (by decide +kernel)
  exact ⟨t, t', r, tr, _, hr, c67_good, h, by decide +kernel, by decide +kernel⟩

/-- and: the LP of worker 0 runs into the deadline, worker 0 gives its node back, worker 1 still sleeps -/
def c86Late : List (Nat × Cue) := c86Script.take 8 ++ [(0, .timeout), (0, .go true)]

example : ∃ t t' r tr k, createInitialResult c67Env.mode c67Env.m t ResState.init = .ok (r, t') ∧ c67Env.Good 4 (fun _ _ => 1) [0] [3] ∧
    KRun c67Env r tr k ∧ 1 < c67Env.threads ∧ k.sl 1 = .asleep ∧ k.s.q.heap = [] ∧ ∀ v < c67Env.threads, k.s.q.workedOn[v]? = some none := by
  obtain ⟨t, t', r, tr, hr, h⟩ := c86_run c86Late (by decide +kernel)
  exact ⟨t, t', r, tr, _, hr, c67_good, h, by decide +kernel, by decide +kernel, by decide +kernel, by decide +kernel⟩

/-- non-vacuity of C81 for the search: worker 0 has pushed a node, worker 1 still sleeps -/
def c86Push : List (Nat × Cue) := c86Script ++ List.replicate 5 (0, .go false)

example : ∃ t t' r tr k, createInitialResult c67Env.mode c67Env.m t ResState.init = .ok (r, t') ∧ c67Env.Good 4 (fun _ _ => 1) [0] [3] ∧
    c67Env.threads ≤ 3 ∧ KRun c67Env r tr k ∧ 1 < c67Env.threads ∧ k.sl 1 = .asleep ∧ k.s.q.heap ≠ [] ∧ k.s.q.cleared = false := by
  obtain ⟨t, t', r, tr, hr, h⟩ := c86_run c86Push (by decide +kernel)
  exact ⟨t, t', r, tr, _, hr, c67_good, by decide +kernel, h, by decide +kernel, by decide +kernel, by decide +kernel, by decide +kernel⟩

end Mtsp
