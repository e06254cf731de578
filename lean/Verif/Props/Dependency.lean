import Verif.Proof.Dependency

/-! C14 (cycle detection), C15 (transitive closure), C16 (dependency queries).

Specification vocabulary: `DepIn n w u v` is the input dependency relation "`u` before `v`";
`Relation.TransGen` is Mathlib's transitive closure (one or more steps). -/

namespace Mtsp
open Relation

/-- `u` must come before `v`: the flag `-1` at `(v, u)` -/
def DepIn (n : Nat) (w : Weights) (u v : Nat) : Prop := u < n ∧ v < n ∧ w v u = -1

theorem depIn_eq (n : Nat) (w : Weights) : DepIn n w = fun u v => (u, v) ∈ depArcs n w := by
  funext u v; exact propext (mem_depArcs n w u v).symm

/-- **C14.** For every matrix the preprocessing reports a cycle exactly when the dependency relation has
a cycle, and there is no other kind of failure. -/
theorem C14_cycle_reported_iff (n : Nat) (w : Weights) :
    (createTransitiveDependencies n w = .error .cyclic ↔ ∃ x, TransGen (DepIn n w) x x) ∧
    (∀ e, createTransitiveDependencies n w = .error e → e = .cyclic) := by
  have h := hasCycle_iff n (depArcs n w) (depArcs_lt n w)
  constructor
  · rw [depIn_eq, ← h]
    simp only [createTransitiveDependencies]
    split
    · next hc => simp [hc]
    · next hc => simp [hc]
  · intro e
    simp only [createTransitiveDependencies]
    split
    · intro he; simp at he; exact he.symm
    · intro he; simp at he

/-- self dependency included -/
theorem C14_self_dependency_rejected (n : Nat) (w : Weights) (x : Nat) (hx : x < n) (h : w x x = -1) :
    createTransitiveDependencies n w = .error .cyclic :=
  (C14_cycle_reported_iff n w).1.2 ⟨x, TransGen.single ⟨hx, hx, h⟩⟩

/-- **C15.** For acyclic input the processed matrix carries the flag at `(v, u)` exactly when `v` can be
reached from `u` through one or more input dependencies; every other entry (also outside the matrix) is
unchanged. -/
theorem C15_closure (n : Nat) (w : Weights) (hac : ∀ x, ¬ TransGen (DepIn n w) x x) :
    ∃ w', createTransitiveDependencies n w = .ok w' ∧
      (∀ u v, u < n → v < n → (w' v u = -1 ↔ TransGen (DepIn n w) u v)) ∧
      (∀ u v, ¬ TransGen (DepIn n w) u v → w' v u = w v u) := by
  have hc : ¬ hasCycle n (depArcs n w) = true := by
    rw [hasCycle_iff n (depArcs n w) (depArcs_lt n w)]
    rintro ⟨x, hx⟩; exact hac x (by rw [depIn_eq]; exact hx)
  refine ⟨_, by simp only [createTransitiveDependencies, hc]; rfl, ?_, ?_⟩
  · intro u v hu hv
    have hm := mem_transClosure (depArcs n w) u v
    rw [foldl_setAt, depIn_eq]
    split
    · next h => exact ⟨fun _ => hm.1 h, fun _ => rfl⟩
    · next h =>
      refine ⟨fun e => absurd (hm.2 (TransGen.single ?_)) h, fun h' => absurd (hm.2 h') h⟩
      exact (mem_depArcs n w u v).2 ⟨hu, hv, e⟩
  · intro u v h
    rw [foldl_setAt, if_neg]
    rw [mem_transClosure]
    rw [depIn_eq] at h; exact h

/-- C15, consequences: the processed relation is transitive and still acyclic, so processing is idempotent. -/
theorem C15_processed_transitive_acyclic (n : Nat) (w w' : Weights) (h : createTransitiveDependencies n w = .ok w') :
    (∀ x y z, DepIn n w' x y → DepIn n w' y z → DepIn n w' x z) ∧ (∀ x, ¬ TransGen (DepIn n w') x x) := by
  have hac : ∀ x, ¬ TransGen (DepIn n w) x x := by
    intro x hx
    rw [(C14_cycle_reported_iff n w).1.2 ⟨x, hx⟩] at h; simp at h
  obtain ⟨w'', e, h1, h2⟩ := C15_closure n w hac
  rw [h] at e; simp at e; subst e
  have hiff : ∀ x y, DepIn n w' x y ↔ TransGen (DepIn n w) x y := by
    intro x y
    constructor
    · rintro ⟨hx, hy, e⟩; exact (h1 x y hx hy).1 e
    · intro ht
      have hl : x < n ∧ y < n := by rw [depIn_eq] at ht; exact reaches_lt ht
      exact ⟨hl.1, hl.2, (h1 x y hl.1 hl.2).2 ht⟩
  refine ⟨?_, ?_⟩
  · intro x y z hxy hyz
    exact (hiff x z).2 (((hiff x y).1 hxy).trans ((hiff y z).1 hyz))
  · intro x hx
    have : DepIn n w' = TransGen (DepIn n w) := by funext a b; exact propext (hiff a b)
    rw [this] at hx
    exact hac x (by rwa [transGen_eq_self] at hx)

/-- **C16.** All queries of the dependency graph describe the relation "`weights(v, u) = -1`": the arc
list, the successor list, the predecessor list (nothing repeated, nothing out of range, no access out of
range), the arc test and the emptiness test. -/
theorem C16_queries_agree (n : Nat) (w : Weights) :
    let g := DepGraph.make n w
    g.arcs.Nodup ∧
    (∀ u v, (u, v) ∈ g.arcs ↔ DepIn n w u v) ∧
    (∀ u, u < n → ∃ l, g.getOutgoingSpan u = .ok l ∧ l.Nodup ∧ ∀ v, v ∈ l ↔ DepIn n w u v) ∧
    (∀ v, v < n → ∃ l, g.getIncomingSpan v = .ok l ∧ l.Nodup ∧ ∀ u, u ∈ l ↔ DepIn n w u v) ∧
    (∀ u v, u < n → v < n → (g.hasArc u v = true ↔ DepIn n w u v)) ∧
    (g.isEmpty = true ↔ ∀ u v, ¬ DepIn n w u v) := by
  refine ⟨arcs_nodup n w, mem_arcs n w, ?_, ?_, ?_, ?_⟩
  · intro u hu
    refine ⟨_, getSpan_eq n _ u hu, List.nodup_range.filter _, ?_⟩
    intro v; simp [DepIn, hu]
  · intro v hv
    refine ⟨_, getSpan_eq n _ v hv, List.nodup_range.filter _, ?_⟩
    intro u; simp [DepIn, hv]
  · intro u v hu hv
    simp only [DepGraph.hasArc, DepGraph.make, DepIn, hu, hv, true_and]
    exact decide_eq_true_iff
  · simp only [DepGraph.isEmpty, List.isEmpty_iff]
    constructor
    · intro h u v hd
      have := (mem_arcs n w u v).2 hd
      rw [h] at this; simp at this
    · intro h
      rw [List.eq_nil_iff_forall_not_mem]
      rintro ⟨u, v⟩ hm
      exact h u v ((mem_arcs n w u v).1 hm)

/-! Non-vacuity: the chain 0 → 1 → 2 (flags at (1,0) and (2,1)). -/

def chainW : Weights := fun v u => if v = u + 1 then -1 else 5

example : ∀ x, ¬ TransGen (DepIn 3 chainW) x x := by
  intro x hx
  have : createTransitiveDependencies 3 chainW = .error .cyclic := (C14_cycle_reported_iff 3 chainW).1.2 ⟨x, hx⟩
  have h2 : (match createTransitiveDependencies 3 chainW with | .error _ => true | .ok _ => false) = false := by decide +kernel
  rw [this] at h2; simp at h2

example : (match createTransitiveDependencies 3 chainW with
    | .error _ => none | .ok w => some (w 2 0, w 0 2, w 1 0)) = some (-1, 5, -1) := by decide +kernel

example : ∃ x, TransGen (DepIn 2 (fun _ _ => -1)) x x := ⟨0, .single ⟨by decide, by decide, rfl⟩⟩

example : (DepGraph.make 3 chainW).arcs = [(0, 1), (1, 2)] := by decide +kernel

end Mtsp
