import Verif.Basic

/-!
Model of tsplp/src/ConstraintDeque.cpp, generic in the constraint type `α`.  `PopToModel`
(ConstraintDeque.cpp:19-40) has two separate critical sections: the read (lines 21-26) and, for thread 0
only, the compaction (lines 29-39); other threads may run between them, so they are two operations, and
the compaction may be interleaved anywhere.
`Model::AddConstraints` (Model.cpp:76-114) appends the rows to the thread's own LP; the limit of
`INT_MAX` rows per call is not modelled.
-/

namespace Mtsp

/-- ConstraintDeque.hpp:16-18; `m_readPositions` are `ptrdiff_t`, hence `Int`. -/
structure CDeque (α : Type) where
  deque : List α
  readPos : List Int

/-- ConstraintDeque.cpp:7-10 -/
def CDeque.new (α : Type) (n : Nat) : CDeque α := ⟨[], List.replicate n 0⟩

inductive CDOp (α : Type) where
  | push (cs : List α)   -- ConstraintDeque.hpp:24-30 and ConstraintDeque.cpp:12-17
  | read (t : Nat)       -- ConstraintDeque.cpp:21-26
  | compact              -- ConstraintDeque.cpp:29-39

/-- `std::min_element` on the read positions -/
def minInt : List Int → Option Int
  | [] => none
  | a :: l => some (l.foldl (fun b x => if x < b then x else b) a)

/-- One critical section.  The output is the list of constraints added to the reading thread's LP. -/
def CDeque.step {α : Type} (d : CDeque α) : CDOp α → Except Err (List α) × CDeque α
  | .push cs => (.ok [], { d with deque := d.deque ++ cs })
  | .read t =>
    match d.readPos[t]? with
    | none => (.error (.ub "m_readPositions[threadId]"), d)
    | some p =>
      if p < 0 ∨ p > d.deque.length then (.error (.ub "iterator out of range"), d)
      else (.ok (d.deque.drop p.toNat), { d with readPos := d.readPos.set t d.deque.length })
  | .compact =>
    match minInt d.readPos with
    | none => (.error (.ub "dereference end()"), d)
    | some m =>
      if m < 0 ∨ m > d.deque.length then (.error (.ub "erase range"), d)
      else (.ok [], { deque := d.deque.drop m.toNat, readPos := d.readPos.map (· - m) })

/-- Runs a history; collects what each operation delivered. -/
def CDeque.run {α : Type} (d : CDeque α) (ops : List (CDOp α)) : CDeque α × List (CDOp α × Except Err (List α)) :=
  ops.foldl (fun p o => ((p.1.step o).2, p.2 ++ [(o, (p.1.step o).1)])) (d, [])

end Mtsp
