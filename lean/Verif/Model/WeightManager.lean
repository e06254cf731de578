import Verif.Model.Dependency

/-! Model of tsplp/src/WeightManager.cpp. -/

namespace Mtsp

/-- The loop state of the constructor: `m_weights` (size and entries), `m_toOriginal`, `startEndInUse`,
`m_startPositions`, `m_endPositions` (the latter two: the entries of the agents processed so far). -/
structure WMState where
  n : Nat
  w : Weights
  toOrig : List Nat := []
  inUse : List Nat := []
  starts : List Nat := []
  ends : List Nat := []

/-- WeightManager.cpp:39-40: clear the diagonal. -/
def zeroDiag (n : Nat) (w : Weights) : Weights := fun i j => if i = j ∧ i < n then 0 else w i j

/-- WeightManager.cpp:52-55 resp. 74-77: append a copy of row `p`, then a copy of column `p`. -/
def dupNode (n : Nat) (w : Weights) (p : Nat) : Weights :=
  let w1 : Weights := fun i j => if i = n then w p j else w i j
  fun i j => if j = n then w1 i p else w1 i j

/-- WeightManager.cpp:46-66 (`isStart`) and 68-88: take position `p` of the current agent. -/
def wmTake (origN : Nat) (isStart : Bool) (st : WMState) (p : Nat) : Except Err WMState :=
  if p ≥ origN then
    .error (.runtime (if isStart then "Invalid start position." else "Invalid end position."))
  else if p ∈ st.inUse then
    let w1 := dupNode st.n st.w p
    if isStart then
      .ok { st with n := st.n + 1, toOrig := st.toOrig ++ [p], starts := st.starts ++ [st.n],
                    w := fun i j => if i = st.n ∧ w1 i j = -1 then 0 else w1 i j }
    else
      .ok { st with n := st.n + 1, toOrig := st.toOrig ++ [p], ends := st.ends ++ [st.n],
                    w := fun i j => if j = st.n ∧ w1 i j = -1 then 0 else w1 i j }
  else if isStart then
    .ok { st with inUse := p :: st.inUse, starts := st.starts ++ [p] }
  else
    .ok { st with inUse := p :: st.inUse, ends := st.ends ++ [p] }

/-- WeightManager.cpp:44-89: one round of the loop over the agents. -/
def wmAgent (origN : Nat) (st : WMState) (a : Nat × Nat) : Except Err WMState :=
  match wmTake origN true st a.1 with
  | .error e => .error e
  | .ok st1 => wmTake origN false st1 a.2

/-- WeightManager.cpp:91-103: the artificial arcs from each agent's end to the next agent's start. -/
def artificialArcs (starts ends : List Nat) : List (Nat × Nat) :=
  (List.range starts.length).map fun a => (ends.getD a 0, starts.getD ((a + 1) % starts.length) 0)

def zeroArtificial (starts ends : List Nat) (w : Weights) : Weights :=
  (artificialArcs starts ends).foldl (fun w e => setAt w e.1 e.2 0) w

/-- tsplp/include/WeightManager.hpp:15-20, the finished object. -/
structure WM where
  n : Nat
  w : Weights
  starts : List Nat
  ends : List Nat
  toOrig : List Nat
  origN : Nat
  deps : DepGraph

/-- WeightManager.cpp:115-116, 120-121: `if (!span.empty()) throw IncompatibleDependenciesException();` -/
def requireEmpty (span : Except Err (List Nat)) : Except Err Unit :=
  match span with
  | .error e => .error e
  | .ok l => if l.isEmpty then .ok () else .error .incompatible

/-- WeightManager.cpp:16-123, constructor.  `rows`, `cols` are the shape of the given tensor. -/
def WM.make (rows cols : Nat) (w : Weights) (starts ends : List Nat) : Except Err WM :=
  if starts.length ≠ ends.length then .error (.runtime "Start and end positions must have the same size.")
  else if starts.length = 0 then .error (.runtime "There must be at least one agent.")
  else if rows ≠ cols then .error (.runtime "The weights must have shape (N, N).")
  else if rows < 2 then .error (.runtime "There must be at least two nodes.")
  else
    match (starts.zip ends).foldlM (wmAgent rows) { n := rows, w := zeroDiag rows w } with
    | .error e => .error e
    | .ok st =>
      match createTransitiveDependencies st.n (zeroArtificial st.starts st.ends st.w) with
      | .error e => .error e
      | .ok w1 =>
        let w2 := if st.starts.length = 1 then setAt w1 (st.ends.getD 0 0) (st.starts.getD 0 0) 0 else w1
        let g := DepGraph.make st.n w2
        -- WeightManager.cpp:113-122
        match st.starts.foldlM (fun _ s => requireEmpty (g.getIncomingSpan s)) () with
        | .error e => .error e
        | .ok () =>
          match st.ends.foldlM (fun _ e => requireEmpty (g.getOutgoingSpan e)) () with
          | .error e => .error e
          | .ok () => .ok { n := st.n, w := w2, starts := st.starts, ends := st.ends, toOrig := st.toOrig,
                            origN := rows, deps := g }

/-- WeightManager.cpp:11-14, `ToOriginal`; indexing past the end of `m_toOriginal` is undefined. -/
def WM.toOriginal (m : WM) (i : Nat) : Except Err Nat :=
  if i < m.origN then .ok i
  else match m.toOrig[i - m.origN]? with
    | some o => .ok o
    | none => .error (.ub "m_toOriginal out of range")

/-- WeightManager.cpp:125-135, `TransformPathsBack`. -/
def WM.transformPathsBack (m : WM) (paths : List (List Nat)) : Except Err (List (List Nat)) :=
  paths.mapM fun p => p.mapM m.toOriginal

/-- the number `ToOriginal` gives, as a total function (0 where the code would be out of range) -/
def origOf (origN : Nat) (toOrig : List Nat) (i : Nat) : Nat := if i < origN then i else toOrig.getD (i - origN) 0

def WM.orig (m : WM) (i : Nat) : Nat := origOf m.origN m.toOrig i

abbrev Tensor3 := Nat → Nat → Nat → ℚ

/-- WeightManager.cpp:137-161, `TransformTensorBack`.  First the block of original nodes is copied
(`range(_, m_originalN)`), then for each copy `u` its column, its row and its arcs to other copies are
added to the entries of the original nodes.  Entries outside the original block are not part of the
result. -/
def WM.transformTensorBack (m : WM) (t : Tensor3) : Tensor3 :=
  (List.range' m.origN (m.n - m.origN)).foldl (fun r u =>
    let ou := m.orig u
    let r1 : Tensor3 := fun a i j => if j = ou ∧ i < m.origN then r a i j + t a i u else r a i j
    let r2 : Tensor3 := fun a i j => if i = ou ∧ j < m.origN then r1 a i j + t a u j else r1 a i j
    (List.range' m.origN (m.n - m.origN)).foldl (fun r v =>
      fun a i j => if i = ou ∧ j = m.orig v then r a i j + t a u v else r a i j) r2) t

end Mtsp
