import Verif.Model.Locks

/-! What is said about locking: accesses, races, waiting. -/

namespace Mtsp

/-- observers ask for nothing but the bounds -/
def Watching (obs : Call → Prop) : Prop := ∀ c, obs c → c = .result .getBounds

/-- the next statement of thread `t` reads or writes data members of object `o` -/
def FState.Accesses (f : FState) (t : Nat) (o : Obj) : Prop :=
  ∃ (c : Call) (l : List (Instr c.obj.St)) (r : Reg) (i : Inp), c.obj = o ∧
    ((∃ g, f.fr t = some ⟨c, .act g :: l, r, i⟩) ∨ ∃ p, f.fr t = some ⟨c, .wait p :: l, r, i⟩)

/-- the next statement of thread `t` changes object `o` -/
def FState.Writes (f : FState) (t : Nat) (o : Obj) : Prop :=
  ∃ (c : Call) (g : c.obj.St → Reg → c.obj.St × Reg) (l : List (Instr c.obj.St)) (r : Reg) (i : Inp), c.obj = o ∧
    f.fr t = some ⟨c, .act g :: l, r, i⟩ ∧ (g (f.sh c.obj) r).1 ≠ f.sh c.obj

/-- thread `t` is inside a member function of `o` and its next statement is to take the mutex -/
def FState.WantsLock (f : FState) (t : Nat) (o : Obj) : Prop :=
  ∃ (c : Call) (l : List (Instr c.obj.St)) (r : Reg) (i : Inp), c.obj = o ∧ f.fr t = some ⟨c, .lock :: l, r, i⟩

/-- the number of statements thread `t` still has to execute in its function -/
def FState.todo (f : FState) (t : Nat) : Nat :=
  match f.fr t with
  | none => 0
  | some x => x.rest.length

end Mtsp
