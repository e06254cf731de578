import Verif.Props.TimeoutRefuted
import Verif.Props.Symmetry

/-! Counterexamples for C77 and C78 in full: two calls for the instance of C42 with different results. -/

namespace Mtsp

/-- the optimal paths 0-1 and 2-4-6-5-3 of the instance of C42; they are an LP optimum of the root, too -/
def c77Y : Nat → ℚ := fun i => if i = 98 then 3 else if i ∈ [1, 9, 67, 83, 96, 87, 70] then 1 else 0

/-- the LP solver happens to find the optimal paths at once -/
def c77Script : List (Nat × Cue) := idle 5 ++ [(0, .opt c77Y (c42Mult [(0, 1), (40, 3), (2, -3), (46, -1)]))] ++ idle 10

set_option maxHeartbeats 4000000 in
theorem c77_call : callB c42Args exLib 100 c77Script false (isRet 0 3 3 [0, 1, 2, 4, 6, 5, 3] [0, 2]) = true := by decide +kernel

/-- **C77 is false in full**: two calls with the same arguments both return SOLVED, one with both bounds 12, the other one with both
bounds 3.  (The first one's deadline passes during an LP.) -/
theorem C77_refuted : ∃ (a b : CArgs) (L : Lib) (t t' : Nat) (tr tr' : List (Nat × Inp)) (o o' : COut), a.SameInstance b ∧ a.Typed ∧ b.Typed ∧
    L.Correct ∧ OnlyDepotDeps a.N a.weight a.startList a.endList ∧ a.Call L t tr (.ret 0 o) ∧ b.Call L t' tr' (.ret 0 o') ∧
    o.lower = some 12 ∧ o.upper = some 12 ∧ o'.lower = some 3 ∧ o'.upper = some 3 := by
  obtain ⟨tr, x, h1, h2, _⟩ := callB_sound c42_call
  obtain ⟨o, rfl, hl, hu, _⟩ := isRet_ret h2
  obtain ⟨tr', x', h1', h2', _⟩ := callB_sound c77_call
  obtain ⟨o', rfl, hl', hu', _⟩ := isRet_ret h2'
  obtain ⟨i1, i2, _, _⟩ := c42_input
  exact ⟨c42Args, c42Args, exLib, 100, 100, tr, tr', o, o', ⟨rfl, rfl, rfl, fun _ _ _ _ _ => rfl, rfl⟩, i1, i1, exLib_correct, i2, h1, h1', hl, hu, hl', hu'⟩

/-- **C78 is false in full**: already for the trivial renumbering, as C77. -/
theorem C78_refuted : ∃ (a b : CArgs) (L : Lib) (t t' : Nat) (tr tr' : List (Nat × Inp)) (o o' : COut), a.Equivalent b ∧ a.Typed ∧ b.Typed ∧
    L.Correct ∧ OnlyDepotDeps a.N a.weight a.startList a.endList ∧ a.Call L t tr (.ret 0 o) ∧ b.Call L t' tr' (.ret 0 o') ∧
    o.upper = some 12 ∧ o'.upper = some 3 := by
  obtain ⟨a, b, L, t, t', tr, tr', o, o', hs, h1, h2, h3, h4, h5, h6, _, h7, _, h8⟩ := C77_refuted
  exact ⟨a, b, L, t, t', tr, tr', o, o', .agents ⟨hs.nodes, by rw [hs.starts, hs.ends], hs.opt, fun u hu v hv hne => (hs.weight u hu v hv hne).symm⟩,
    h1, h2, h3, h4, h5, h6, h7, h8⟩

end Mtsp
