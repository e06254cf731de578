import Verif.Props.EndToEnd

/-! C65: the assertions of the code (active in debug builds).

Those on cuts ("the cut is violated", SeparationAlgorithms.cpp:116, 157, 190) are C59, the one on the last node of a path read off an
LP point (MtspModel.cpp:547) is C35; here are the others that are not plain shape checks. -/

namespace Mtsp

section
variable {rows cols : Nat} {w : Weights} {starts ends : List Nat} {m : WM} {mode : Mode} {t : Nat}

/-- **C65**, MtspModel.cpp:180-194 and Heuristics.cpp:489: no dependency arc of an accepted instance leads into a start or out of an
end, none leads from the only agent's end to its start, and the diagonal is zero. -/
theorem C65_instance_assertions (h : WM.make rows cols w starts ends = .ok m) :
    (∀ u v, (u, v) ∈ m.deps.arcs → v ∉ m.starts ∧ u ∉ m.ends) ∧
    (∀ u v e s, (u, v) ∈ m.deps.arcs → m.ends[0]? = some e → m.starts[0]? = some s → (u, v) ≠ (e, s)) ∧
    ∀ v < m.n, m.w v v = 0 := by
  have s := (WM.make_ok h).1
  have harc : ∀ u v, (u, v) ∈ m.deps.arcs ↔ DepIn m.n m.w u v := by
    rw [s.deps]; exact (C16_queries_agree m.n m.w).2.1
  obtain ⟨h1, h2, _⟩ := C20_dependencies_survive_partial h
  have key : ∀ u v, (u, v) ∈ m.deps.arcs → v ∉ m.starts ∧ u ∉ m.ends := by
    intro u v huv
    obtain ⟨hu, hv, e⟩ := (harc u v).1 huv
    exact ⟨fun hm => h1 v hm u hu e, fun hm => h2 u hm v hv e⟩
  refine ⟨key, ?_, ?_⟩
  · intro u v e s' huv he _ heq
    simp only [Prod.mk.injEq] at heq
    exact (key u v huv).2 (heq.1 ▸ List.mem_of_getElem? he)
  · intro v hv
    rcases C19_weights_mirror_input h v v hv hv with ⟨h3, _⟩ | ⟨h3, _⟩ | ⟨_, h3, _⟩
    · exact absurd ⟨hv, hv, h3⟩ ((WM.inst h).acyclic v ∘ Relation.TransGen.single)
    · exact h3
    · exact absurd rfl h3

/-- **C65**, MtspModel.cpp:511: at every moment of every search the lower bound is at most the upper bound. -/
theorem C65_bounds_assertion (hw : IntWeights rows w) (hsz : rows + 2 * starts.length ≤ 2 ^ 70) {S : Solver}
    (h : Solver.make rows rows w starts ends mode t = .ok S) {L : Lib} {given : Nat} {c : LPModel} {tr : List (Nat × Inp)} {s : BState}
    (run : BRun (S.env L given c) S.res tr s) : s.res.lower ≤ s.res.upper := by
  have hS := Solver.make_ok hw hsz h
  exact (run_res run).1 (by rw [hS.lower]; exact hS.upper.1.le)

/-- **C65**, mtsp-vrp-c.cpp:92: a solver that returns with different bounds has set the timeout flag (and one that returns with
equal bounds has not). -/
theorem C65_timeout_assertion (hw : IntWeights rows w) (hsz : rows + 2 * starts.length ≤ 2 ^ 70) {S : Solver}
    (h : Solver.make rows rows w starts ends mode t = .ok S) {L : Lib} (hL : L.Correct) {given : Nat} {tr : List (Nat × Inp)} {r : ResState}
    (hs : S.Solve L given tr (.ok r)) : ¬ r.lower ≥ r.upper ↔ r.timeoutHit = true := by
  rw [ge_iff_le, not_le]
  exact (Solver.solve_ok (Solver.make_ok hw hsz h) hw hL hs).2.2.1

/-- **C65 is false in full**: Heuristics.cpp:402, `assert(A > 0)` in the improvement heuristic, where `A` is the number of paths given.
If the deadline falls inside the construction heuristic, that heuristic returns no paths (and the constructor hands
them on). -/
theorem C65_refuted : ∃ (rows : Nat) (w : Weights) (starts ends : List Nat) (m : WM) (t : Nat),
    WM.make rows rows w starts ends = .ok m ∧ nearestInsertion .sum (fun _ => m.w) m.n m.starts m.ends m.deps t = .ok (([], 0), 0) := by
  have key : testOk (WM.make 3 3 (fun _ _ => 1) [0] [2]) (fun m =>
      testOk (nearestInsertion .sum (fun _ => m.w) m.n m.starts m.ends m.deps 2) fun r => decide (r = (([], 0), 0))) = true := by decide +kernel
  obtain ⟨m, hm, k⟩ := testOk_iff key
  obtain ⟨r, hr, k2⟩ := testOk_iff k
  refine ⟨3, fun _ _ => 1, [0], [2], m, 2, hm, ?_⟩
  rw [hr, of_decide_eq_true k2]

/-- Heuristics.cpp:402 holds otherwise. -/
theorem C65_two_opt_assertion_partial (h : WM.make rows cols w starts ends = .ok m) (hW : SmallDeltas m.starts.length m.n (fun _ => m.w)) (ht : m.n ≤ t)
    {P : Paths} {obj : ℚ} {t' : Nat} (hr : nearestInsertion mode (fun _ => m.w) m.n m.starts m.ends m.deps t = .ok ((P, obj), t')) : 0 < P.length := by
  rw [((C24_construction_covers h hW hr).1 ht).len]
  exact WM.starts_pos h

end
end Mtsp
