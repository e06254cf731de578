import Verif.Basic

/-!
The priority queue operations used by tsplp/src/BranchAndCutQueue.cpp: `std::push_heap` and
`std::pop_heap` with `std::greater<>` on `SData` (which compares `LowerBound`, BranchAndCutQueue.hpp:22),
i.e. a heap with the smallest lower bound in front.

`HeapImpl` is the contract of the C++ standard ([push.heap], [pop.heap]); all queue theorems hold for
every implementation meeting it.  `libstdcxx` is the algorithm of libstdc++ (bits/stl_heap.h), proved
to meet the contract in `Verif/Proof/Heap.lean`.
-/

namespace Mtsp

/-- tsplp/src/BranchAndCutQueue.hpp:16-23, a branch-and-cut node.  `Variable` is its id. -/
structure SData where
  lb : ℚ
  fixed0 : List Nat := []
  fixed1 : List Nat := []
  isResult : Bool := false
  deriving DecidableEq, Repr

instance : Inhabited SData := ⟨{ lb := 0 }⟩

/-- lower bound of the element at index `i` (only used with `i < l.length`) -/
def keyAt (l : List SData) (i : Nat) : ℚ := (l.getD i default).lb

/-- [alg.heap.operations]: `l` is a heap w.r.t. `greater`: no element is better than its parent. -/
def IsHeap (l : List SData) : Prop :=
  ∀ i, 0 < i → i < l.length → keyAt l ((i - 1) / 2) ≤ keyAt l i

/-- Contract of the C++ heap algorithms.  `push l` is the vector after `push_heap` when the last
element has just been appended; `pop l` is the vector after `pop_heap`. -/
structure HeapImpl where
  push : List SData → List SData
  pop : List SData → List SData
  push_perm : ∀ l, (push l).Perm l
  push_heap : ∀ l x, IsHeap l → IsHeap (push (l ++ [x]))
  pop_spec : ∀ x l, IsHeap (x :: l) → ∃ r, pop (x :: l) = r ++ [x] ∧ r.Perm l ∧ IsHeap r

/-- exchange the elements at positions `i` and `j` -/
def swapAt (l : List SData) (i j : Nat) : List SData :=
  (l.set i (l.getD j default)).set j (l.getD i default)

/-- libstdc++ `std::__push_heap` (bits/stl_heap.h): move the value at `hole` up while its parent is
worse.  The C++ keeps the value in a temporary and moves parents down; here the value is kept in the
hole, which yields the same array. -/
def siftUp (l : List SData) (hole : Nat) : List SData :=
  if h : 0 < hole then
    if keyAt l ((hole - 1) / 2) > keyAt l hole then siftUp (swapAt l ((hole - 1) / 2) hole) ((hole - 1) / 2)
    else l
  else l
termination_by hole
decreasing_by omega

/-- libstdc++ `std::__adjust_heap`, the first loop: move the hole down to a leaf, always pulling the
better child up; `len` is the heap length, elements at `≥ len` are not touched. -/
def siftDown (len : Nat) (l : List SData) (hole : Nat) : List SData × Nat :=
  if h : hole < (len - 1) / 2 then
    let second := 2 * (hole + 1)
    let child := if keyAt l second > keyAt l (second - 1) then second - 1 else second
    siftDown len (swapAt l hole child) child
  else if len % 2 = 0 ∧ 2 ≤ len ∧ hole = (len - 2) / 2 then
    (swapAt l hole (2 * (hole + 1) - 1), 2 * (hole + 1) - 1)
  else (l, hole)
termination_by len - hole
decreasing_by all_goals (split <;> omega)

/-- libstdc++ `std::push_heap`. -/
def libPush (l : List SData) : List SData := siftUp l (l.length - 1)

/-- libstdc++ `std::pop_heap`: swap first and last, repair the heap without the last element. -/
def libPop (l : List SData) : List SData :=
  if l.length ≤ 1 then l
  else
    let n := l.length - 1
    let l1 := (swapAt l 0 n).take n
    let r := siftDown n l1 0
    siftUp r.1 r.2 ++ [l.getD 0 default]

end Mtsp
