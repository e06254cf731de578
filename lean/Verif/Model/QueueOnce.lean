import Verif.Model.QueueConc

/-!
The workers of Model/QueueConc.lean push as often as they like while they own a node.  The real ones push at most once for
each node they take: every push in MtspModel.cpp:346-497 is followed by `continue` or by the end of the loop body, where the
node is given back (lines 352-355, 410-411, 443-444, 450-451, 457-458, 464-465, 472-473, 489-490, 495-497).
-/

namespace Mtsp

/-- does a worker in this state own a node? -/
def WPc.hasNode : WPc → Bool
  | .holding | .notifyOne _ => true
  | _ => false

/-- One step, with the workers that have pushed for the node they own: MtspModel.cpp:308-499.  A worker that has not pushed
yet may push; everything else is as in `CStep`, and giving back the node forgets the mark. -/
inductive OnceStep (H : HeapImpl) (n : Nat) : CState → (Nat → Bool) → CState → (Nat → Bool) → Prop
  | push (c : CState) (p : Nat → Bool) (t : Nat) (op : QOp) (q' : QState) : t < n → c.pc t = .holding → p t = false →
      0 < pushCount op → c.q.Legal op → c.q.step H op = (.ok .unit, q') →
      OnceStep H n c p ⟨q', Function.update c.pc t (pcAfterPush c.q op)⟩ (Function.update p t true)
  | other (c c' : CState) (p : Nat → Bool) (l : CLabel) : (∀ k, l ≠ .push k) → CStep H n l c c' →
      OnceStep H n c p c' (fun t => p t && (c'.pc t).hasNode)

/-- All executions of workers that push at most once for each node (MtspModel.cpp:304-499). -/
inductive OnceRun (H : HeapImpl) (n : Nat) : CState → (Nat → Bool) → Prop
  | init (q q1 : QState) : QState.new n = .ok q → q.step H (.push 0 [] []) = (.ok .unit, q1) →
      OnceRun H n ⟨q1, fun _ => .running⟩ (fun _ => false)
  | step (c c' : CState) (p p' : Nat → Bool) : OnceRun H n c p → OnceStep H n c p c' p' → OnceRun H n c' p'

end Mtsp
