import Verif.Model.Graph
import Mathlib.Logic.Relation
import Mathlib.Data.List.Dedup
import Mathlib.Data.List.Perm.Subperm

/-! Correctness of the graph algorithms. -/

namespace Mtsp
open Relation

/-- `l` lists every out-neighbour before the vertex -/
def Finished (adj : Nat → List Nat) (l : List Nat) : Prop :=
  ∀ l1 x l2, l = l1 ++ x :: l2 → ∀ y ∈ adj x, y ∈ l1

/-- Generic rule for `foldlM` in `Except`. -/
theorem foldlM_ok {α β ε : Type} (f : β → α → Except ε β) (P : List α → β → Prop) (l : List α) (b b' : β)
    (h : l.foldlM f b = .ok b') (h0 : P [] b)
    (hs : ∀ pre x b1 b2, P pre b1 → x ∈ l → f b1 x = .ok b2 → P (pre ++ [x]) b2) : P l b' := by
  have key : ∀ (l2 pre : List α) (b : β), P pre b → (∀ x ∈ l2, x ∈ l) → l2.foldlM f b = .ok b' → P (pre ++ l2) b' := by
    intro l2
    induction l2 with
    | nil => intro pre b hp _ he; simp [pure, Except.pure] at he; subst he; simpa using hp
    | cons x l2 ih =>
      intro pre b hp hm he
      simp only [List.foldlM_cons] at he
      cases hfx : f b x with
      | error e => rw [hfx] at he; simp [bind, Except.bind] at he
      | ok b1 =>
        rw [hfx] at he; simp only [bind, Except.bind] at he
        have := ih (pre ++ [x]) b1 (hs _ _ _ _ hp (hm x List.mem_cons_self) hfx) (fun y hy => hm y (List.mem_cons_of_mem _ hy)) he
        simpa using this
  simpa using key l [] b h0 (fun _ h => h) h

/-- Generic rule for an error in a `foldlM`. -/
theorem foldlM_error {α β ε : Type} (f : β → α → Except ε β) (P : List α → β → Prop) (l : List α) (b : β) (e : ε)
    (h : l.foldlM f b = .error e) (h0 : P [] b)
    (hs : ∀ pre x b1 b2, P pre b1 → x ∈ l → f b1 x = .ok b2 → P (pre ++ [x]) b2) :
    ∃ pre x b1, P pre b1 ∧ x ∈ l ∧ f b1 x = .error e := by
  have key : ∀ (l2 pre : List α) (b : β), P pre b → (∀ x ∈ l2, x ∈ l) → l2.foldlM f b = .error e →
      ∃ pre x b1, P pre b1 ∧ x ∈ l ∧ f b1 x = .error e := by
    intro l2
    induction l2 with
    | nil => intro pre b hp _ he; simp [pure, Except.pure] at he
    | cons x l2 ih =>
      intro pre b hp hm he
      simp only [List.foldlM_cons] at he
      cases hfx : f b x with
      | error e' =>
        rw [hfx] at he; simp [bind, Except.bind] at he; subst he
        exact ⟨pre, x, b, hp, hm x List.mem_cons_self, hfx⟩
      | ok b1 =>
        rw [hfx] at he; simp only [bind, Except.bind] at he
        exact ih (pre ++ [x]) b1 (hs _ _ _ _ hp (hm x List.mem_cons_self) hfx) (fun y hy => hm y (List.mem_cons_of_mem _ hy)) he
  exact key l [] b h0 (fun _ h => h) h

structure DoneInv (n : Nat) (adj : Nat → List Nat) (gray d : List Nat) : Prop where
  fin : Finished adj d
  nodup : d.Nodup
  lt : ∀ x ∈ d, x < n
  disj : ∀ x ∈ gray, x ∉ d

theorem Finished.snoc {adj : Nat → List Nat} {d : List Nat} {u : Nat} (h : Finished adj d) (hu : ∀ y ∈ adj u, y ∈ d) :
    Finished adj (d ++ [u]) := by
  intro l1 x l2 he y hy
  rcases List.eq_nil_or_concat l2 with rfl | ⟨l2', z, rfl⟩
  · obtain ⟨rfl, e⟩ := List.append_inj' (s₁ := d) (t₁ := [u]) (s₂ := l1) (t₂ := [x]) (by simpa using he) rfl
    simp at e; subst e; exact hu y hy
  · have : d ++ [u] = (l1 ++ x :: l2') ++ [z] := by rw [he]; simp
    obtain ⟨e1, e2⟩ := List.append_inj' this rfl
    exact h l1 x l2' e1 y hy

theorem visit_ok (n : Nat) (adj : Nat → List Nat) (hadj : ∀ u, ∀ v ∈ adj u, v < n) :
    ∀ (fuel : Nat) (gray done : List Nat) (u : Nat) (d' : List Nat), u < n → u ∉ gray → u ∉ done →
    DoneInv n adj (u :: gray) done → dfsVisit adj fuel gray done u = .ok d' →
    DoneInv n adj gray d' ∧ u ∈ d' ∧ (∀ x ∈ done, x ∈ d') := by
  intro fuel
  induction fuel with
  | zero => intro gray done u d' _ _ _ _ h; simp [dfsVisit] at h
  | succ fuel ih =>
    intro gray done u d' hu hug hud hinv h
    simp only [dfsVisit] at h
    split at h
    · simp at h
    next d hd =>
    simp at h; subst h
    have key := foldlM_ok _ (fun pre b => DoneInv n adj (u :: gray) b ∧ (∀ x ∈ done, x ∈ b) ∧ (∀ x ∈ pre, x ∈ b)) _ _ _ hd
      ⟨hinv, fun _ h => h, by simp⟩ (by
        rintro pre x b1 b2 ⟨hi, h1, h2⟩ hx hstep
        split at hstep
        · simp at hstep
        next hg =>
        split at hstep
        · next hb =>
          simp at hstep; subst hstep
          exact ⟨hi, h1, by intro y hy; rcases List.mem_append.1 hy with hy | hy
                            · exact h2 y hy
                            · simp at hy; subst hy; exact hb⟩
        · next hb =>
          have hi' : DoneInv n adj (x :: u :: gray) b1 := ⟨hi.fin, hi.nodup, hi.lt, by
            intro y hy; rcases List.mem_cons.1 hy with rfl | hy
            · exact hb
            · exact hi.disj y hy⟩
          obtain ⟨k1, k2, k3⟩ := ih (u :: gray) b1 x b2 (hadj u x hx) hg hb hi' hstep
          exact ⟨k1, fun y hy => k3 y (h1 y hy), by
            intro y hy; rcases List.mem_append.1 hy with hy | hy
            · exact k3 y (h2 y hy)
            · simp at hy; subst hy; exact k2⟩)
    obtain ⟨k1, k2, k3⟩ := key
    have hun : u ∉ d := k1.disj u List.mem_cons_self
    refine ⟨⟨k1.fin.snoc k3, ?_, ?_, ?_⟩, by simp, fun x hx => by simp [k2 x hx]⟩
    · rw [List.nodup_append]; refine ⟨k1.nodup, by simp, ?_⟩
      intro a ha b hb e; simp at hb; subst hb; subst e; exact hun ha
    · intro x hx; rcases List.mem_append.1 hx with hx | hx
      · exact k1.lt x hx
      · simp at hx; subst hx; exact hu
    · intro x hx hm; rcases List.mem_append.1 hm with hm | hm
      · exact k1.disj x (List.mem_cons_of_mem _ hx) hm
      · simp at hm; subst hm; exact hug hx

/-- a nodup list of numbers below `n` has at most `n` entries -/
theorem length_le_of_nodup_lt {n : Nat} {l : List Nat} (h : l.Nodup) (hl : ∀ x ∈ l, x < n) : l.length ≤ n := by
  have : l.Subperm (List.range n) := List.subperm_of_subset h (fun x hx => List.mem_range.2 (hl x hx))
  simpa using this.length_le

theorem visit_error (n : Nat) (adj : Nat → List Nat) (hadj : ∀ u, ∀ v ∈ adj u, v < n) :
    ∀ (fuel : Nat) (gray done : List Nat) (u : Nat) (e : Err), u < n → u ∉ gray → u ∉ done →
    DoneInv n adj (u :: gray) done → (u :: gray).Nodup → (∀ x ∈ u :: gray, x < n) →
    n < fuel + gray.length →
    (∀ g ∈ gray, TransGen (fun x y => y ∈ adj x) g u) →
    dfsVisit adj fuel gray done u = .error e → e = .notADag ∧ ∃ x, x < n ∧ TransGen (fun x y => y ∈ adj x) x x := by
  intro fuel
  induction fuel with
  | zero =>
    intro gray done u e hu hug hud hinv hnd hlt hf _ _
    have := length_le_of_nodup_lt hnd hlt
    simp at this; omega
  | succ fuel ih =>
    intro gray done u e hu hug hud hinv hnd hlt hf hreach h
    simp only [dfsVisit] at h
    split at h
    swap
    · simp at h
    next e' hd =>
    simp at h; subst h
    obtain ⟨pre, x, b1, ⟨hi, h1⟩, hx, he⟩ := foldlM_error _ (fun pre b => DoneInv n adj (u :: gray) b ∧ True) _ _ _ hd
      ⟨hinv, trivial⟩ (by
        rintro pre x b1 b2 ⟨hi, _⟩ hx hstep
        split at hstep
        · simp at hstep
        next hg =>
        split at hstep
        · next hb => simp at hstep; subst hstep; exact ⟨hi, trivial⟩
        · next hb =>
          have hi' : DoneInv n adj (x :: u :: gray) b1 := ⟨hi.fin, hi.nodup, hi.lt, by
            intro y hy; rcases List.mem_cons.1 hy with rfl | hy
            · exact hb
            · exact hi.disj y hy⟩
          exact ⟨(visit_ok n adj hadj fuel (u :: gray) b1 x b2 (hadj u x hx) hg hb hi' hstep).1, trivial⟩)
    split at he
    · next hg =>
      simp at he; subst he
      refine ⟨rfl, x, hadj u x hx, ?_⟩
      rcases List.mem_cons.1 hg with rfl | hg
      · exact TransGen.single hx
      · exact (hreach x hg).tail hx
    next hg =>
    split at he
    · simp at he
    next hb =>
    have hi' : DoneInv n adj (x :: u :: gray) b1 := ⟨hi.fin, hi.nodup, hi.lt, by
      intro y hy; rcases List.mem_cons.1 hy with rfl | hy
      · exact hb
      · exact hi.disj y hy⟩
    refine ih (u :: gray) b1 x e' (hadj u x hx) hg hb hi' (List.nodup_cons.2 ⟨hg, hnd⟩) ?_ (by simp; omega) ?_ he
    · intro y hy; rcases List.mem_cons.1 hy with rfl | hy
      · exact hadj u _ hx
      · exact hlt y hy
    · intro g hgm; rcases List.mem_cons.1 hgm with rfl | hgm
      · exact TransGen.single hx
      · exact (hreach g hgm).tail hx

theorem dfsAll_step_ok (n : Nat) (adj : Nat → List Nat) (hadj : ∀ u, ∀ v ∈ adj u, v < n) (pre : List Nat) (x : Nat)
    (b1 b2 : List Nat) (h : DoneInv n adj [] b1 ∧ ∀ y ∈ pre, y ∈ b1) (hx : x ∈ List.range n)
    (hs : (if x ∈ b1 then Except.ok b1 else dfsVisit adj (n + 1) [] b1 x) = .ok b2) :
    DoneInv n adj [] b2 ∧ ∀ y ∈ pre ++ [x], y ∈ b2 := by
  split at hs
  · next hb =>
    simp at hs; subst hs
    refine ⟨h.1, ?_⟩
    intro y hy; rcases List.mem_append.1 hy with hy | hy
    · exact h.2 y hy
    · simp at hy; subst hy; exact hb
  · next hb =>
    obtain ⟨k1, k2, k3⟩ := visit_ok n adj hadj (n + 1) [] b1 x b2 (List.mem_range.1 hx) (by simp) hb
      ⟨h.1.fin, h.1.nodup, h.1.lt, by intro y hy; simp at hy; subst hy; exact hb⟩ hs
    refine ⟨k1, ?_⟩
    intro y hy; rcases List.mem_append.1 hy with hy | hy
    · exact k3 y (h.2 y hy)
    · simp at hy; subst hy; exact k2

theorem doneInv_nil (n : Nat) (adj : Nat → List Nat) : DoneInv n adj [] [] :=
  ⟨by intro l1 x l2 h; simp at h, by simp, by simp, by simp⟩

/-- A completed search: every vertex once, out-neighbours first. -/
theorem dfsAll_ok {n : Nat} {adj : Nat → List Nat} (hadj : ∀ u, ∀ v ∈ adj u, v < n) {d : List Nat}
    (h : dfsAll n adj = .ok d) : d.Perm (List.range n) ∧ Finished adj d := by
  obtain ⟨k1, k2⟩ := foldlM_ok _ (fun pre b => DoneInv n adj [] b ∧ ∀ y ∈ pre, y ∈ b) _ _ _ h
    ⟨doneInv_nil n adj, by simp⟩ (fun pre x b1 b2 hp hx hs => dfsAll_step_ok n adj hadj pre x b1 b2 hp hx hs)
  refine ⟨?_, k1.fin⟩
  rw [List.perm_ext_iff_of_nodup k1.nodup List.nodup_range]
  intro a; exact ⟨fun ha => List.mem_range.2 (k1.lt a ha), fun ha => k2 a ha⟩

/-- An aborted search: `not_a_dag`, and there is a cycle. -/
theorem dfsAll_error {n : Nat} {adj : Nat → List Nat} (hadj : ∀ u, ∀ v ∈ adj u, v < n) {e : Err}
    (h : dfsAll n adj = .error e) : e = .notADag ∧ ∃ x, x < n ∧ TransGen (fun x y => y ∈ adj x) x x := by
  obtain ⟨pre, x, b1, hp, hx, he⟩ := foldlM_error _ (fun pre b => DoneInv n adj [] b ∧ ∀ y ∈ pre, y ∈ b) _ _ _ h
    ⟨doneInv_nil n adj, by simp⟩ (fun pre x b1 b2 hp hx hs => dfsAll_step_ok n adj hadj pre x b1 b2 hp hx hs)
  split at he
  · simp at he
  next hb =>
  have hxn := List.mem_range.1 hx
  exact visit_error n adj hadj (n + 1) [] b1 x e hxn (by simp) hb
    ⟨hp.1.fin, hp.1.nodup, hp.1.lt, by intro y hy; simp at hy; subst hy; exact hb⟩ (by simp)
    (by intro y hy; simp at hy; subst hy; exact hxn) (by simp) (by simp) he

/-- positions decrease along arcs of a finished order -/
theorem Finished.idxOf_lt {adj : Nat → List Nat} {d : List Nat} (h : Finished adj d) {x y : Nat} (hx : x ∈ d)
    (hy : y ∈ adj x) : d.idxOf y < d.idxOf x := by
  obtain ⟨l1, l2, rfl, hnx⟩ := List.append_of_mem hx |>.elim fun s hs => by
    obtain ⟨t, ht⟩ := hs
    have := List.mem_iff_append.1 hx
    exact List.eq_append_cons_of_mem hx
  have hy1 := h l1 x l2 rfl y hy
  rw [List.idxOf_append_of_mem hy1, List.idxOf_append_of_notMem hnx]
  have := List.idxOf_lt_length_of_mem hy1
  omega

theorem Finished.acyclic {n : Nat} {adj : Nat → List Nat} {d : List Nat} (h : Finished adj d)
    (hall : ∀ x, x < n → x ∈ d) (hadj : ∀ u, ∀ v ∈ adj u, v < n) (x : Nat) (hx : x < n) :
    ¬ TransGen (fun x y => y ∈ adj x) x x := by
  intro hc
  have key : ∀ y, TransGen (fun x y => y ∈ adj x) x y → y < n ∧ d.idxOf y < d.idxOf x := by
    intro y hy
    induction hy with
    | single hb => exact ⟨hadj _ _ hb, h.idxOf_lt (hall x hx) hb⟩
    | tail _ hb ih => exact ⟨hadj _ _ hb, lt_trans (h.idxOf_lt (hall _ ih.1) hb) ih.2⟩
  exact lt_irrefl _ (key x hc).2

theorem mem_adjOf (arcs : Arcs) (u v : Nat) : v ∈ adjOf arcs u ↔ (u, v) ∈ arcs := by
  simp only [adjOf, List.mem_map, List.mem_filter, decide_eq_true_eq, Prod.exists]
  constructor
  · rintro ⟨a, b, ⟨h, rfl⟩, rfl⟩; exact h
  · intro h; exact ⟨u, v, ⟨h, rfl⟩, rfl⟩

/-- reachability by one or more arcs -/
abbrev Reaches (arcs : Arcs) : Nat → Nat → Prop := TransGen fun u v => (u, v) ∈ arcs

theorem adj_rel (arcs : Arcs) : (fun x y => y ∈ adjOf arcs x) = fun u v => (u, v) ∈ arcs := by
  funext u v; exact propext (mem_adjOf arcs u v)

theorem hasCycle_iff (n : Nat) (arcs : Arcs) (hn : ∀ e ∈ arcs, e.1 < n ∧ e.2 < n) :
    hasCycle n arcs = true ↔ ∃ x, Reaches arcs x x := by
  have hadj : ∀ u, ∀ v ∈ adjOf arcs u, v < n := fun u v hv => (hn _ ((mem_adjOf _ _ _).1 hv)).2
  unfold hasCycle
  cases h : dfsAll n (adjOf arcs) with
  | error e =>
    simp only [true_iff]
    obtain ⟨_, x, _, hx⟩ := dfsAll_error hadj h
    exact ⟨x, by rw [adj_rel] at hx; exact hx⟩
  | ok d =>
    simp only [Bool.false_eq_true, false_iff, not_exists]
    intro x hx
    obtain ⟨hp, hf⟩ := dfsAll_ok hadj h
    have hxn : x < n := by
      obtain ⟨y, hy, _⟩ := TransGen.head'_iff.1 hx
      exact (hn _ hy).1
    refine hf.acyclic (fun y hy => hp.mem_iff.2 (List.mem_range.2 hy)) hadj x hxn ?_
    rw [adj_rel]; exact hx

/-- `topological_sort` throws only if there is a cycle. -/
theorem topologicalSort_acyclic (n : Nat) (arcs : Arcs) (hn : ∀ e ∈ arcs, e.1 < n ∧ e.2 < n)
    (hac : ∀ x, ¬ Reaches arcs x x) : ∃ d, topologicalSort n arcs = .ok d ∧ d.Perm (List.range n) ∧
      Finished (adjOf arcs) d := by
  have hadj : ∀ u, ∀ v ∈ adjOf arcs u, v < n := fun u v hv => (hn _ ((mem_adjOf _ _ _).1 hv)).2
  unfold topologicalSort
  cases h : dfsAll n (adjOf arcs) with
  | error e =>
    obtain ⟨_, x, _, hx⟩ := dfsAll_error hadj h
    rw [adj_rel] at hx; exact absurd hx (hac x)
  | ok d => exact ⟨d, rfl, dfsAll_ok hadj h⟩

/-! ### Transitive closure -/

theorem mem_closeStep (T : Arcs) (e : Nat × Nat) (a b : Nat) : (a, b) ∈ closeStep T e ↔
    (a, b) ∈ T ∨ ((a = e.1 ∨ (a, e.1) ∈ T) ∧ (b = e.2 ∨ (e.2, b) ∈ T)) := by
  simp only [closeStep, List.mem_append, List.mem_flatMap, List.mem_cons, List.mem_map, List.mem_filter,
    decide_eq_true_eq, Prod.exists, Prod.mk.injEq]
  constructor
  · rintro (h | ⟨a', ha, b', hb, rfl, rfl⟩)
    · exact Or.inl h
    · right
      refine ⟨?_, ?_⟩
      · rcases ha with h | ⟨x, y, ⟨h, rfl⟩, rfl⟩
        · exact Or.inl h
        · exact Or.inr h
      · rcases hb with h | ⟨x, y, ⟨h, rfl⟩, rfl⟩
        · exact Or.inl h
        · exact Or.inr h
  · rintro (h | ⟨ha, hb⟩)
    · exact Or.inl h
    · right
      refine ⟨a, ?_, b, ?_, rfl, rfl⟩
      · rcases ha with h | h
        · exact Or.inl h
        · exact Or.inr ⟨a, e.1, ⟨h, rfl⟩, rfl⟩
      · rcases hb with h | h
        · exact Or.inl h
        · exact Or.inr ⟨e.2, b, ⟨h, rfl⟩, rfl⟩

theorem mem_transClosure (arcs : Arcs) (a b : Nat) : (a, b) ∈ transClosure arcs ↔ Reaches arcs a b := by
  induction arcs using List.reverseRecOn generalizing a b with
  | nil =>
    simp only [transClosure, List.foldl_nil, List.not_mem_nil, false_iff]
    intro h
    obtain ⟨c, hc, _⟩ := TransGen.head'_iff.1 h
    simp at hc
  | append_singleton arcs e ih =>
    have hstep : transClosure (arcs ++ [e]) = closeStep (transClosure arcs) e := by
      simp [transClosure, List.foldl_append]
    rw [hstep, mem_closeStep]
    simp only [ih]
    have hmono : ∀ {x y}, Reaches arcs x y → Reaches (arcs ++ [e]) x y := by
      intro x y h; exact TransGen.mono (fun u v huv => List.mem_append_left _ huv) _ _ h
    have he : Reaches (arcs ++ [e]) e.1 e.2 := TransGen.single (by simp)
    constructor
    · rintro (h | ⟨ha, hb⟩)
      · exact hmono h
      · have h1 : ReflTransGen (fun u v => (u, v) ∈ arcs ++ [e]) a e.1 := by
          rcases ha with rfl | h
          · exact ReflTransGen.refl
          · exact (hmono h).to_reflTransGen
        have h2 : ReflTransGen (fun u v => (u, v) ∈ arcs ++ [e]) e.2 b := by
          rcases hb with rfl | h
          · exact ReflTransGen.refl
          · exact (hmono h).to_reflTransGen
        exact (TransGen.trans_right h1 he).trans_left h2
    · intro h
      induction h with
      | @single b hb =>
        rcases List.mem_append.1 hb with hb | hb
        · exact Or.inl (TransGen.single hb)
        · simp at hb; exact Or.inr ⟨Or.inl (by rw [← hb]), Or.inl (by rw [← hb])⟩
      | @tail c b hac hcb ihc =>
        rcases List.mem_append.1 hcb with hb | hb
        · rcases ihc with h | ⟨h1, h2⟩
          · exact Or.inl (h.tail hb)
          · right; refine ⟨h1, Or.inr ?_⟩
            rcases h2 with rfl | h2
            · exact TransGen.single hb
            · exact h2.tail hb
        · simp at hb
          right
          refine ⟨?_, Or.inl (by rw [← hb])⟩
          have : c = e.1 := by rw [← hb]
          subst this
          rcases ihc with h | ⟨h1, _⟩
          · exact Or.inr h
          · exact h1

/-! ### Connected components -/

theorem componentIds_snoc (arcs : Arcs) (e : Nat × Nat) (x : Nat) : componentIds (arcs ++ [e]) x =
    if componentIds arcs x = componentIds arcs e.2 then componentIds arcs e.1 else componentIds arcs x := by
  unfold componentIds; rw [List.foldl_append]; rfl

theorem components_iff (arcs : Arcs) (x y : Nat) :
    componentIds arcs x = componentIds arcs y ↔ EqvGen (fun u v => (u, v) ∈ arcs) x y := by
  induction arcs using List.reverseRecOn generalizing x y with
  | nil =>
    simp only [componentIds, List.foldl_nil, id]
    constructor
    · rintro rfl; exact EqvGen.refl _
    · intro h
      induction h with
      | rel _ _ h => simp at h
      | refl => rfl
      | symm _ _ _ ih => exact ih.symm
      | trans _ _ _ _ _ ih1 ih2 => exact ih1.trans ih2
  | append_singleton arcs e ih =>
    have hmono : ∀ {x y}, EqvGen (fun u v => (u, v) ∈ arcs) x y → EqvGen (fun u v => (u, v) ∈ arcs ++ [e]) x y :=
      fun h => EqvGen.mono (fun u v huv => List.mem_append_left _ huv) _ _ h
    have he : EqvGen (fun u v => (u, v) ∈ arcs ++ [e]) e.1 e.2 := EqvGen.rel _ _ (by simp)
    constructor
    · intro h
      rw [componentIds_snoc, componentIds_snoc] at h
      split at h <;> split at h
      · next h1 h2 => exact hmono ((ih x y).1 (h1.trans h2.symm))
      · next h1 h2 =>
        have a1 := hmono ((ih x e.2).1 h1)
        have a2 := hmono ((ih e.1 y).1 h)
        exact (a1.trans _ _ _ (he.symm _ _)).trans _ _ _ a2
      · next h1 h2 =>
        have a1 := hmono ((ih x e.1).1 h)
        have a2 := hmono ((ih y e.2).1 h2)
        exact (a1.trans _ _ _ he).trans _ _ _ (a2.symm _ _)
      · exact hmono ((ih x y).1 h)
    · intro h
      induction h with
      | rel u v huv =>
        rw [componentIds_snoc, componentIds_snoc]
        rcases List.mem_append.1 huv with h | h
        · rw [(ih u v).2 (EqvGen.rel _ _ h)]
        · simp at h; subst h; simp
      | refl => rfl
      | symm _ _ _ ih => exact ih.symm
      | trans _ _ _ _ _ ih1 ih2 => exact ih1.trans ih2

end Mtsp
