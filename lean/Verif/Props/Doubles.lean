import Verif.Proof.DoublesNI
import Verif.Spec.Search

/-! C73: floating-point rounding in the heuristics.  `Rounding` (Spec/Doubles.lean) is what is assumed of the arithmetic;
the functions `…F fl` (Model/Doubles.lean) are the code with every result of `+`, `-`, `*` rounded by `fl`. -/

namespace Mtsp

variable {rows cols : Nat} {w : Weights} {starts ends : List Nat} {m : WM} {mode : Mode} {t t' : Nat} {fl : ℚ → ℚ}

/-- **C73, the assumption is met.** Rounding to the nearest double (53 bits, ties to even) is such a rounding. -/
theorem C73_double_is_rounding : Rounding roundDouble := roundDouble_rounding

theorem WM.smallW (h : WM.make rows cols w starts ends = .ok m) (hw : IntWeights rows w) : SmallW m.n m.w := by
  have hlt := (C18_own_starts_and_ends h).2.2.2.2.2.2.2.2.1
  intro u v hu hv
  rcases C19_weights_mirror_input h u v hu hv with ⟨h, _⟩ | ⟨h, _⟩ | ⟨h, _, h2⟩
  · rw [h]; exact ⟨⟨-1, by norm_num⟩, by norm_num⟩
  · rw [h]; exact Small.zero (by norm_num)
  · obtain ⟨z, h3, h4, h5⟩ := hw _ (hlt u hu) _ (hlt v hv)
    rw [h, h3]
    refine ⟨⟨z, rfl⟩, ?_⟩
    have h4' : (-1 : ℚ) ≤ z := by exact_mod_cast h4
    have h5' : (z : ℚ) ≤ 2 ^ 31 := by exact_mod_cast h5.le
    rw [abs_le]; constructor <;> linarith

theorem IsCover.fit {n : Nat} {P : Paths} {s e : List Nat} (h : IsCover n s e P) (hn : n ≤ 2 ^ 19) : FitPaths n P :=
  ⟨fun x hx => List.mem_range.1 (h.perm.mem_iff.1 hx), by rw [h.perm.length_eq]; simp; exact_mod_cast hn⟩

theorem WM.deltas (h : WM.make rows cols w starts ends = .ok m) (hw : IntWeights rows w) :
    SmallDeltas m.starts.length m.n (fun _ => m.w) := by
  intro a i j k _ hi hj hk
  have := ((WM.smallW h hw i k hi hk).add (WM.smallW h hw k j hk hj)).sub (WM.smallW h hw i j hi hj)
  refine lt_of_le_of_lt (le_trans (le_abs_self _) this.le) (lt_trans (by norm_num) two53_lt)

/-- **C73, lengths.** The length of every path and the objective of every cover are computed without any rounding error. -/
theorem C73_objective_exact (hfl : Rounding fl) (h : WM.make rows cols w starts ends = .ok m) (hw : IntWeights rows w)
    (hn : m.n ≤ 2 ^ 19) {P : Paths} (hP : IsCover m.n m.starts m.ends P) :
    IsObjective mode m.w P (calcObjectiveF fl mode P fun _ => m.w) := by
  rw [(calcObjectiveF_eq hfl (WM.smallW h hw) (hP.fit hn) mode).1]
  exact isObjective_calc mode m.w P

/-- **C73, start of the search.** The computation of the initial solution with rounding gives the same result as with exact
numbers: the same paths and the same bound. -/
theorem C73_initial_exact (hfl : Rounding fl) (h : WM.make rows cols w starts ends = .ok m) (hw : IntWeights rows w)
    (hn : m.n ≤ 2 ^ 19) (s : ResState) : createInitialResultF fl mode m t s = createInitialResult mode m t s := by
  have hsw := WM.smallW h hw
  have hW := WM.deltas h hw
  unfold createInitialResultF createInitialResult
  rw [nearestInsertionF_eq hfl (WM.inst h) (WM.arcs_iff h) (fun _ => hsw) hn]
  cases hni : nearestInsertion mode (fun _ => m.w) m.n m.starts m.ends m.deps t with
  | error e => rfl
  | ok x =>
    obtain ⟨⟨P, obj⟩, t1⟩ := x
    dsimp only
    by_cases ht : m.n ≤ t
    · have hc := (C24_construction_covers h hW hni).1 ht
      have hfit := hc.fit hn
      have hA : 0 < P.length := by rw [hc.len]; exact WM.starts_pos h
      rw [twoOptF_eq hfl hsw hfit]
      have hobj : Small (2 ^ 50) obj := by
        have h27 := C27_reported_objective h hW hni ht
        cases mode with
        | sum =>
          dsimp only at h27
          rw [h27, ← C23_sum_objective]
          refine (calcObjectiveF_eq hfl hsw hfit .sum).2.mono ?_
          have := hfit.len; nlinarith
        | max =>
          dsimp only at h27
          obtain ⟨⟨a, p, hp, e⟩, _⟩ := h27
          have := costAt_small hsw hfit a
          rw [costAt, List.getD_eq_getElem?_getD, hp] at this
          rw [e]; exact this
      have himp : Small (2 ^ 51) (twoOpt mode P m.w m.deps t1).1.2 := by
        rw [(C29_improvement_exact (mode := mode) (w := m.w) (deps := m.deps) (t := t1) hA).1]
        have hf2 := (C28_cover_preserved (mode := mode) (w := m.w) (deps := m.deps) (t := t1) hA hc).fit hn
        refine ((calcObjectiveF_eq hfl hsw hfit mode).2.sub (calcObjectiveF_eq hfl hsw hf2 mode).2).mono ?_
        have := hfit.len; have := hf2.len; nlinarith
      rw [hfl.exact (hobj.sub himp) (by norm_num)]
      rfl
    · obtain ⟨rfl, rfl⟩ := (C24_construction_covers h hW hni).2 (by omega)
      rw [twoOptF_eq hfl (n := m.n) hsw ⟨by simp, by simp⟩]
      have e : (twoOpt mode [] m.w m.deps t1).1.2 = 0 := by
        have hin : ∀ (s : TOState), s.impSum = 0 → ∀ t, (toLoop mode m.w m.deps 0 t s).1.impSum = 0 := by
          intro s hs t
          induction t generalizing s with
          | zero => exact hs
          | succ t ih =>
            simp only [toLoop]
            split
            · exact ih _ hs
            · exact hs
        exact hin _ rfl t1
      rw [e, hfl.exact ((Small.zero (le_refl 0)).sub (Small.zero (le_refl 0))) (by norm_num)]
      rfl

/-- the weights of the heuristic during the search, rounded, are small -/
theorem exploit_weights (hfl : Rounding fl) {y q : ℚ} (hy : 0 ≤ y ∧ y ≤ 1) (hq : |q| ≤ 2 ^ 31) :
    |fl (fl (1 - y) * q)| ≤ 2 ^ 31 := by
  have h0 : fl 0 = 0 := by simpa using hfl.int 0 (by simp)
  have h1 : fl 1 = 1 := by simpa using hfl.int 1 (by norm_num)
  have k1 := hfl.mono 0 (1 - y) (by linarith [hy.2])
  have k2 := hfl.mono (1 - y) 1 (by linarith [hy.1])
  rw [h0] at k1; rw [h1] at k2
  have := hfl.abs_le (b := 2 ^ 31) (q := fl (1 - y) * q) (by norm_num) (by
    rw [abs_mul, abs_of_nonneg k1]
    push_cast
    calc _ ≤ 1 * |q| := mul_le_mul_of_nonneg_right k2 (abs_nonneg _)
      _ ≤ _ := by linarith)
  push_cast at this; exact this

theorem exploitF_cases (hfl : Rounding fl) (h : WM.make rows cols w starts ends = .ok m) (hw : IntWeights rows w)
    (hn : m.n ≤ 2 ^ 19) {x : Tensor3} (hx : ∀ a u v, a < m.starts.length → u < m.n → v < m.n → 0 ≤ x a u v ∧ x a u v ≤ 1) :
    (exploitCandidateF fl mode m x t = .error .incompatible ∧
      ∃ a b s s' : Nat, a < b ∧ m.starts[a]? = some s ∧ m.starts[b]? = some s' ∧ Linked m.starts m.ends (DepIn m.n m.w) s s') ∨
    (t < m.n ∧ exploitCandidateF fl mode m x t = .ok (none, 0)) ∨
    (m.n ≤ t ∧ ∃ P0 t', IsCover m.n m.starts m.ends P0 ∧ Grouped (DepIn m.n m.w) P0 ∧
      exploitCandidateF fl mode m x t = .ok (some (calcObjective mode (twoOpt mode P0 m.w m.deps (t - m.n)).1.1 (fun _ => m.w),
        (twoOpt mode P0 m.w m.deps (t - m.n)).1.1.map (·.map m.orig)), t')) := by
  have hsw := WM.smallW h hw
  have hl := comp_iff_linked (starts := m.starts) (ends := m.ends) (WM.arcs_iff h)
  rcases niF_main hfl (mode := mode) (WM.inst h) (WM.arcs_iff h) (W := fun a i j => fl (fl (1 - x a i j) * m.w i j))
    (fun a i j ha hi hj => exploit_weights hfl (hx a i j ha hi hj) (hsw i j hi hj).le) hn t with ⟨⟨a, b, hab, hb, he⟩, hr⟩ | ⟨_, h1, h2⟩
  · left
    refine ⟨?_, a, b, m.starts.getD a 0, m.starts.getD b 0, hab, ?_, ?_, (hl _ _).1 he⟩
    · unfold exploitCandidateF exploitFractionalSolutionF
      rw [hr]
    · simp [List.getD_eq_getElem?_getD, show a < m.starts.length by omega]
    · simp [List.getD_eq_getElem?_getD, hb]
  · right
    by_cases ht : m.n ≤ t
    · right
      refine ⟨ht, ?_⟩
      obtain ⟨P, obj, obj', ord, e, hp, _, hd⟩ := h2 ht
      have hc := hd.cover (WM.inst h) hp
      have hA : 0 < P.length := by rw [hc.len]; exact WM.starts_pos h
      have hc1 := C28_cover_preserved (mode := mode) (w := m.w) (deps := m.deps) (t := t - m.n) hA hc
      refine ⟨P, (twoOpt mode P m.w m.deps (t - m.n)).2, hc, (hd.together h hp).2, ?_⟩
      unfold exploitCandidateF exploitFractionalSolutionF
      rw [e]
      dsimp only
      rw [if_neg (by simp; exact List.ne_nil_of_length_pos hA), twoOptF_eq hfl hsw (hc.fit hn),
        (calcObjectiveF_eq hfl hsw (hc1.fit hn) mode).1, (C21_paths_mapped_back h _ hc1.lt).1]
    · left
      refine ⟨by omega, ?_⟩
      unfold exploitCandidateF exploitFractionalSolutionF
      rw [h1 (by omega)]
      rfl

/-- **C73, during the search.** For every fractional solution with values between 0 and 1, whatever the roundings do to the
weights derived from it: what the heuristic submits is a cover by paths, one per agent from its start to its end, together with
exactly its objective, and dependent nodes are on the same path. -/
theorem C73_search_heuristic_backed (hfl : Rounding fl) (h : WM.make rows cols w starts ends = .ok m) (hw : IntWeights rows w)
    (hn : m.n ≤ 2 ^ 19) {x : Tensor3} (hx : ∀ a u v, a < m.starts.length → u < m.n → v < m.n → 0 ≤ x a u v ∧ x a u v ≤ 1)
    {v : ℚ} {q : Paths} (hr : exploitCandidateF fl mode m x t = .ok (some (v, q), t')) :
    ∃ P, IsCover m.n m.starts m.ends P ∧ q = P.map (·.map m.orig) ∧ IsObjective mode m.w P v ∧ Grouped (DepIn m.n m.w) P := by
  rcases exploitF_cases hfl h hw hn hx (mode := mode) (t := t) with ⟨e, _⟩ | ⟨_, e⟩ | ⟨_, P0, t'', hc, hgr, e⟩
  · rw [e] at hr; simp at hr
  · rw [e] at hr; simp at hr
  · rw [e] at hr
    simp only [Except.ok.injEq, Prod.mk.injEq, Option.some.injEq] at hr
    obtain ⟨⟨rfl, rfl⟩, _⟩ := hr
    have hA : 0 < P0.length := by rw [hc.len]; exact WM.starts_pos h
    exact ⟨_, C28_cover_preserved hA hc, rfl, isObjective_calc mode m.w _, twoOpt_grouped h hc hgr⟩

/-! Non-vacuity and sharpness. -/

/-- doubles do round: `1/3` and `2^53 + 1` are not doubles -/
example : roundDouble (1 / 3) ≠ 1 / 3 ∧ roundDouble (2 ^ 53 + 1) = 2 ^ 53 ∧ roundDouble (2 ^ 53 + 3) = 2 ^ 53 + 4 ∧
    roundDouble (-1 / 10) = -3602879701896397 / 36028797018963968 := by decide +kernel

/-- without the bound on the weights lengths are rounded -/
example : calcObjectiveF roundDouble .sum [[0, 1, 2]] (fun _ u _ => if u = 0 then 2 ^ 53 else 1) = 2 ^ 53 := by decide +kernel

/-- the instance of `niExW` with weights of a fractional solution that are rounded -/
example : testOk (WM.make 6 6 niExW [0, 0] [0, 4]) (fun m =>
    testOk (exploitCandidateF roundDouble .max m (fun _ u v => if u < v then 1 / 3 else 1 / 10) 20) (fun r =>
      match r.1 with
      | some (v, q) => decide (q.length = 2 ∧ v > 0)
      | none => false)) = true := by decide +kernel

end Mtsp
