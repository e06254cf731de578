import Verif.Basic

/-! Model of tsplp/src/MtspResult.cpp.  Every member function locks `m_mutex` for its whole body, so
a concurrent history is a sequence of these atomic operations. -/

namespace Mtsp

abbrev Paths := List (List Nat)

/-- tsplp/include/MtspResult.hpp:18-22: members and their initial values (`timeoutHit` is
`m_isTimeoutHit`). -/
structure ResState where
  paths : Paths := []
  lower : ℚ := -dblMax
  upper : ℚ := dblMax
  timeoutHit : Bool := false
  deriving DecidableEq, Repr

def ResState.init : ResState := {}

/-- tsplp/include/MtspResult.hpp:11-15. -/
structure Bounds where
  Lower : ℚ
  Upper : ℚ
  deriving DecidableEq, Repr

/-- MtspResult.cpp:8-12 -/
def ResState.getBounds (s : ResState) : Bounds := ⟨s.lower, s.upper⟩

/-- MtspResult.cpp:20-24 -/
def ResState.setTimeoutHit (s : ResState) : ResState := { s with timeoutHit := true }

/-- MtspResult.cpp:26-38 -/
def ResState.updateUpperBound (s : ResState) (v : ℚ) (p : Paths) : ResState × Bounds :=
  let s' := if v < s.upper then { s with paths := p, upper := v, lower := min s.lower v } else s
  (s', s'.getBounds)

/-- MtspResult.cpp:40-47 -/
def ResState.updateLowerBound (s : ResState) (v : ℚ) : ResState × Bounds :=
  let s' := if v ≥ s.lower then { s with lower := min v s.upper } else s
  (s', s'.getBounds)

/-- The operations of the class. -/
inductive ResOp where
  | getBounds
  | isTimeoutHit
  | setTimeoutHit
  | updUpper (v : ℚ) (p : Paths)
  | updLower (v : ℚ)
  deriving DecidableEq, Repr

/-- One operation; the output is the returned `Bounds`, if any. -/
def ResState.step (s : ResState) : ResOp → ResState × Option Bounds
  | .getBounds => (s, some s.getBounds)
  | .isTimeoutHit => (s, none)
  | .setTimeoutHit => (s.setTimeoutHit, none)
  | .updUpper v p => let r := s.updateUpperBound v p; (r.1, some r.2)
  | .updLower v => let r := s.updateLowerBound v; (r.1, some r.2)

/-- State after a history of operations. -/
def ResState.run (s : ResState) (ops : List ResOp) : ResState :=
  ops.foldl (fun s o => (s.step o).1) s

end Mtsp
