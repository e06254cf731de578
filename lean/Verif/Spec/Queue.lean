import Verif.Model.Queue

/-! Specification of the queue in terms of its history only: which nodes were pushed, which were handed
out, what each thread is working on. -/

namespace Mtsp

/-- nodes that a successful operation submits -/
def submittedNodes : QOp × Except Err QOut → List SData
  | (.pushResult v, .ok _) => [{ lb := v, isResult := true }]
  | (.push v f0 f1, .ok _) => [{ lb := v, fixed0 := f0, fixed1 := f1 }]
  | (.pushBranch v f0 f1 var rec0, .ok _) =>
      [{ lb := v, fixed0 := f0 ++ [var], fixed1 := f1 },
       { lb := v, fixed0 := f0 ++ rec0, fixed1 := f1 ++ [var] }]
  | _ => []

/-- nodes an operation hands out -/
def handedOut : QOp × Except Err QOut → List SData
  | (.pop _, .ok (.node d)) => [d]
  | _ => []

def isClear : QOp × Except Err QOut → Bool
  | (.clearAll, _) => true
  | _ => false

/-- all nodes pushed before the first `ClearAll` -/
def pushedNodes (tr : QTrace) : List SData := (tr.takeWhile fun e => !isClear e).flatMap submittedNodes

/-- all nodes handed out -/
def poppedNodes (tr : QTrace) : List SData := tr.flatMap handedOut

/-- what one event does to the bound thread `t` is working on -/
def holdStep (t : Nat) (h : Option ℚ) : QOp × Except Err QOut → Option ℚ
  | (.pop t', .ok (.node d)) => if t' = t then some d.lb else h
  | (.updateCurrentLowerBound t' v, .ok _) => if t' = t then some v else h
  | (.done t', .ok _) => if t' = t then none else h
  | _ => h

/-- the lower bound of the node thread `t` is working on after history `tr` -/
def holding (tr : QTrace) (t : Nat) : Option ℚ := tr.foldl (holdStep t) none

/-- the bounds of all nodes in work by threads `0 … n-1` -/
def boundsInWork (tr : QTrace) (n : Nat) : List ℚ := (List.range n).filterMap (holding tr)

/-- `v` is the minimum of `l`, and `-DBL_MAX` if there is nothing -/
def IsQueueBound (l : List ℚ) (v : ℚ) : Prop := (l = [] ∧ v = -dblMax) ∨ (v ∈ l ∧ ∀ w ∈ l, v ≤ w)

end Mtsp
