import Verif.Model.Solver
import Verif.Props.Search

/-! Lemmas about the solver object as a whole. -/

namespace Mtsp

section
variable {rows cols : Nat} {w : Weights} {starts ends : List Nat} {m : WM} {mode : Mode} {t t' : Nat} {r : ResState}

/-! ### sizes and weights, without the LP -/

theorem WM.size_le (h : WM.make rows cols w starts ends = .ok m) : m.n ≤ rows + 2 * starts.length := by
  obtain ⟨_, _, hls, hle, _, _, hr, _, _, hcov⟩ := C18_own_starts_and_ends h
  have hlen := (WM.make_ok h).1.lenEq
  have hsub : (List.range' rows (m.n - rows)) ⊆ m.starts ++ m.ends := by
    intro i hi
    rw [List.mem_range'_1] at hi
    exact hcov i hi.1 (by omega)
  have := List.Subperm.length_le ((List.nodup_range' (s := rows) (n := m.n - rows)).subperm hsub)
  simp at this
  omega

theorem WM.weight_range (h : WM.make rows cols w starts ends = .ok m) (hw : IntWeights rows w) {u v : Nat} (hu : u < m.n) (hv : v < m.n) :
    -1 ≤ m.w u v ∧ m.w u v ≤ 2 ^ 31 := by
  have hlt := (C18_own_starts_and_ends h).2.2.2.2.2.2.2.2.1
  rcases C19_weights_mirror_input h u v hu hv with ⟨h, _⟩ | ⟨h, _⟩ | ⟨h, _, h2⟩
  · rw [h]; norm_num
  · rw [h]; norm_num
  · obtain ⟨z, h3, h4, h5⟩ := hw _ (hlt u hu) _ (hlt v hv)
    rw [h, h3]
    constructor
    · exact_mod_cast h4
    · exact_mod_cast h5.le

theorem WM.smallDeltas (h : WM.make rows cols w starts ends = .ok m) (hw : IntWeights rows w) :
    SmallDeltas m.starts.length m.n (fun _ => m.w) := by
  intro a i j k _ hi hj hk
  have h1 := WM.weight_range h hw hi hk
  have h2 := WM.weight_range h hw hk hj
  have h3 := WM.weight_range h hw hi hj
  have := two70_lt
  have : (2 : ℚ) ^ 31 + 2 ^ 31 + 1 < 2 ^ 70 := by norm_num
  dsimp only
  linarith [h1.2, h2.2, h3.1]

theorem two110_lt : (2 : ℚ) ^ 110 < dblMax := by
  have h : (2 : ℚ) ^ 110 ≤ 2 ^ 971 := pow_le_pow_right₀ (by norm_num) (by norm_num)
  have h2 : (1 : ℚ) < 2 ^ 53 - 1 := by norm_num
  have h3 : (0 : ℚ) < 2 ^ 971 := by positivity
  unfold dblMax
  generalize (2 : ℚ) ^ 971 = b at h h3 ⊢
  generalize (2 : ℚ) ^ 110 = a at h ⊢
  generalize (2 : ℚ) ^ 53 - 1 = c at h2 ⊢
  nlinarith

theorem WM.pathCost_le (h : WM.make rows cols w starts ends = .ok m) (hw : IntWeights rows w) :
    ∀ (p : List Nat), (∀ i ∈ p, i < m.n) → pathCost m.w p ≤ p.length * 2 ^ 31
  | [], _ => by simp [pathCost]
  | [x], _ => by simp [pathCost]
  | x :: x' :: p, hp => by
    have h1 := WM.pathCost_le h hw (x' :: p) (fun i hi => hp i (List.mem_cons_of_mem _ hi))
    have h2 := (WM.weight_range h hw (hp x List.mem_cons_self) (hp x' (List.mem_cons_of_mem _ List.mem_cons_self))).2
    simp only [pathCost]
    rw [List.length_cons]
    push_cast
    linarith

theorem WM.pathCost_ge (h : WM.make rows cols w starts ends = .ok m) (hw : IntWeights rows w) :
    ∀ (p : List Nat), (∀ i ∈ p, i < m.n) → -(p.length : ℚ) ≤ pathCost m.w p
  | [], _ => by simp [pathCost]
  | [x], _ => by simp [pathCost]
  | x :: x' :: p, hp => by
    have h1 := WM.pathCost_ge h hw (x' :: p) (fun i hi => hp i (List.mem_cons_of_mem _ hi))
    have h2 := (WM.weight_range h hw (hp x List.mem_cons_self) (hp x' (List.mem_cons_of_mem _ List.mem_cons_self))).1
    simp only [pathCost]
    rw [List.length_cons]
    push_cast
    linarith

theorem sum_map_ge (f : List Nat → ℚ) : ∀ (l : Paths), (∀ p ∈ l, -(p.length : ℚ) ≤ f p) → -(l.flatten.length : ℚ) ≤ (l.map f).sum
  | [], _ => by simp
  | p :: l, h => by
    have h1 := sum_map_ge f l (fun q hq => h q (List.mem_cons_of_mem _ hq))
    have h2 := h p List.mem_cons_self
    simp only [List.map_cons, List.sum_cons, List.flatten_cons, List.length_append]
    push_cast
    linarith

theorem WM.cover_cost (h : WM.make rows cols w starts ends = .ok m) (hw : IntWeights rows w) (hn : m.n ≤ 2 ^ 70)
    {Q : Paths} (hQ : IsCover m.n m.starts m.ends Q) {v : ℚ}
    (hv : v = sumCost (fun _ => m.w) Q ∨ v = 0 ∨ ∃ (a : Nat) (p : List Nat), Q[a]? = some p ∧ pathCost m.w p = v) : v < dblMax := by
  have hbig := two110_lt
  have hn : (m.n : ℚ) ≤ 2 ^ 70 := by exact_mod_cast hn
  have h62 : (m.n : ℚ) * 2 ^ 31 ≤ 2 ^ 70 * 2 ^ 31 := by nlinarith
  have h70 : (2 : ℚ) ^ 70 * 2 ^ 31 ≤ 2 ^ 110 := by norm_num
  have hlen : (Q.flatten.length : ℚ) = m.n := by rw [hQ.perm.length_eq]; simp
  rcases hv with hv | hv | ⟨a, p, hp, hv⟩
  · have hs : sumCost (fun _ => m.w) Q = (Q.map fun p => pathCost m.w p).sum := by
      unfold sumCost
      congr 1
      apply List.ext_getElem?
      intro i
      simp
    have := sum_map_le (fun p => pathCost m.w p) (2 ^ 31) Q (fun p hp => WM.pathCost_le h hw p (hQ.lt p hp))
    rw [hlen] at this
    rw [hv, hs]; linarith
  · have := dblMax_pos; linarith
  · have hm := List.mem_of_getElem? hp
    have h1 := WM.pathCost_le h hw p (hQ.lt p hm)
    have h2 : (p.length : ℚ) ≤ m.n := by
      rw [← hlen]
      exact_mod_cast (List.sublist_flatten_of_mem hm).length_le
    rw [← hv]; nlinarith

/-- the paths are those of a cover of the preprocessed instance -/
def IsResult (m : WM) (P : Paths) : Prop := ∃ Q, IsCover m.n m.starts m.ends Q ∧ P = Q.map (·.map m.orig)

/-- what the constructor's heuristic leaves behind -/
theorem initial_cases (h : WM.make rows cols w starts ends = .ok m) (hw : IntWeights rows w) (hn : m.n ≤ 2 ^ 70) (mode : Mode) (t : Nat) :
    ((∃ a b s s' : Nat, a < b ∧ m.starts[a]? = some s ∧ m.starts[b]? = some s' ∧ Linked m.starts m.ends (DepIn m.n m.w) s s') ∧
      createInitialResult mode m t ResState.init = .error .incompatible) ∨
    ((∀ a b s s' : Nat, a < b → m.starts[a]? = some s → m.starts[b]? = some s' → ¬ Linked m.starts m.ends (DepIn m.n m.w) s s') ∧
      ∃ r t', createInitialResult mode m t ResState.init = .ok (r, t') ∧ r.lower = -dblMax ∧ r.timeoutHit = false ∧ -dblMax < r.upper ∧ r.upper < dblMax ∧
        (m.n ≤ t → IsResult m r.paths) ∧ (t < m.n → r.paths = [] ∧ r.upper = 0 ∧ t' = 0)) := by
  have hW := WM.smallDeltas h hw
  have hpos : -dblMax ≤ (0 : ℚ) := by have := dblMax_pos; linarith
  rcases ni_outcome (mode := mode) h hW t with ⟨he, hl⟩ | ⟨hl, h1, h2⟩
  · left
    refine ⟨hl, ?_⟩
    unfold createInitialResult
    rw [he]
  right
  refine ⟨hl, ?_⟩
  by_cases ht : t < m.n
  · have e : twoOpt mode [] m.w m.deps 0 = (([], 0), 0) := rfl
    have h0 : (0 : ℚ) < dblMax := dblMax_pos
    refine ⟨⟨[], -dblMax, 0, false⟩, 0, ?_, rfl, rfl, neg_lt_zero.2 h0, h0, fun h => by omega, fun _ => ⟨rfl, rfl, rfl⟩⟩
    unfold createInitialResult
    rw [h1 ht]
    dsimp only
    rw [e]
    simp only [WM.transformPathsBack, List.mapM_nil]
    simp only [pure, Except.pure, ResState.updateUpperBound, ResState.init, sub_zero, h0, if_true, min_eq_left hpos]
  · obtain ⟨P0, obj, ord, hn', -⟩ := h2 (by omega)
    have hc := (C24_construction_covers h hW hn').1 (by omega)
    have hA : 0 < P0.length := by rw [hc.len]; exact WM.starts_pos h
    have hc1 := C28_cover_preserved (mode := mode) (w := m.w) (deps := m.deps) (t := t - m.n) hA hc
    have h29 := C29_improvement_exact (mode := mode) (w := m.w) (deps := m.deps) (t := t - m.n) hA
    have hobj : obj < dblMax := by
      refine WM.cover_cost h hw hn hc ?_
      cases mode with
      | sum => exact Or.inl (C27_reported_objective h hW hn' (by omega))
      | max =>
        obtain ⟨⟨a, p, hp, h⟩, _⟩ := C27_reported_objective h hW hn' (by omega)
        exact Or.inr (Or.inr ⟨a, p, hp, h.symm⟩)
    have hlt : obj - (twoOpt mode P0 m.w m.deps (t - m.n)).1.2 < dblMax := by have := h29.2; linarith
    have hgt : -dblMax < obj - (twoOpt mode P0 m.w m.deps (t - m.n)).1.2 := by
      rw [h29.1]
      have hc0 := isObjective_calc mode m.w P0
      have hc1' := isObjective_calc mode m.w (twoOpt mode P0 m.w m.deps (t - m.n)).1.1
      have hlow : ∀ {Q : Paths}, IsCover m.n m.starts m.ends Q → ∀ p ∈ Q, -(2 ^ 70 : ℚ) ≤ pathCost m.w p := by
        intro Q hQ p hp
        have h1 := WM.pathCost_ge h hw p (hQ.lt p hp)
        have h2 : (p.length : ℚ) ≤ m.n := by
          have : (Q.flatten.length : ℚ) = m.n := by rw [hQ.perm.length_eq]; simp
          rw [← this]
          exact_mod_cast (List.sublist_flatten_of_mem hp).length_le
        have h3 : (m.n : ℚ) ≤ 2 ^ 70 := by exact_mod_cast hn
        linarith
      have h70 := two70_lt
      cases mode with
      | sum =>
        have h27 : obj = sumCost (fun _ => m.w) P0 := C27_reported_objective h hW hn' (by omega)
        rw [h27, ← (hc0 : _ = _), hc1']
        have hs : sumCost (fun _ => m.w) (twoOpt .sum P0 m.w m.deps (t - m.n)).1.1 =
            ((twoOpt .sum P0 m.w m.deps (t - m.n)).1.1.map fun p => pathCost m.w p).sum := by
          unfold sumCost
          congr 1
          apply List.ext_getElem?
          intro i
          simp
        have hsum := sum_map_ge (fun p => pathCost m.w p) _ (fun p hp => WM.pathCost_ge h hw p (hc1.lt p hp))
        have hlen : (((twoOpt .sum P0 m.w m.deps (t - m.n)).1.1.flatten.length : Nat) : ℚ) = m.n := by
          rw [hc1.perm.length_eq]; simp
        rw [hlen] at hsum
        have h3 : (m.n : ℚ) ≤ 2 ^ 70 := by exact_mod_cast hn
        rw [hs]; linarith
      | max =>
        obtain ⟨⟨a, p, hp, h27⟩, hall⟩ := C27_reported_objective h hW hn' (by omega)
        have h0 := hlow hc p (List.mem_of_getElem? hp)
        obtain ⟨_, _, hm⟩ := hc0
        have hp1 : (0 : ℚ) ≤ calcObjective .max (twoOpt .max P0 m.w m.deps (t - m.n)).1.1 fun _ => m.w := hc1'.1
        rcases hm with hm | ⟨b, q, hq, hm⟩
        · rw [hm, h27]; linarith
        · have := hall b q hq
          rw [hm] at this
          linarith
    refine ⟨(ResState.init.updateUpperBound (obj - (twoOpt mode P0 m.w m.deps (t - m.n)).1.2)
      ((twoOpt mode P0 m.w m.deps (t - m.n)).1.1.map (·.map m.orig))).1, (twoOpt mode P0 m.w m.deps (t - m.n)).2, ?_, ?_⟩
    · unfold createInitialResult
      rw [hn']
      dsimp only
      rw [(C21_paths_mapped_back h _ hc1.lt).1]
    · unfold ResState.updateUpperBound ResState.init
      dsimp only
      rw [if_pos hlt]
      exact ⟨min_eq_left hgt.le, rfl, hgt, hlt, fun _ => ⟨_, hc1, rfl⟩, fun h => by omega⟩

/-! ### the constructor -/

theorem makeCols_cases (mode : Mode) (A N : Nat) :
    (∃ c, makeCols mode A N = .ok c) ∨ (2147483647 < A * N * N ∧ makeCols mode A N = .error (.runtime "Too many variables")) := by
  by_cases hs : A * N * N ≤ 2147483647
  · left
    obtain ⟨M0, e0, _, _, _, M', e', _⟩ := C53_columns (A * N * N) hs 0 dblMax
    unfold makeCols
    rw [e0]
    cases mode with
    | sum => exact ⟨_, rfl⟩
    | max => dsimp only; rw [e']; exact ⟨_, rfl⟩
  · right
    refine ⟨by omega, ?_⟩
    unfold makeCols LPModel.make
    rw [if_pos (by omega)]

/-- what is known about a constructed solver -/
structure Solver.Made (rows : Nat) (w : Weights) (starts ends : List Nat) (mode : Mode) (t : Nat) (S : Solver) : Prop where
  make : WM.make rows rows w starts ends = .ok S.m
  mode_eq : S.mode = mode
  free : ∀ a b s s' : Nat, a < b → S.m.starts[a]? = some s → S.m.starts[b]? = some s' → ¬ Linked S.m.starts S.m.ends (DepIn S.m.n S.m.w) s s'
  lower : S.res.lower = -dblMax
  upper : -dblMax < S.res.upper ∧ S.res.upper < dblMax
  hit : S.res.timeoutHit = true → S.ticks = 0
  enough : S.m.n ≤ t → IsResult S.m S.res.paths
  short : t < S.m.n → S.res.paths = [] ∧ S.res.upper = 0 ∧ S.ticks = 0
  initial : ∃ (t' : Nat) (r0 : ResState), createInitialResult mode S.m t ResState.init = .ok (r0, t') ∧ S.res.paths = r0.paths ∧ S.res.upper = r0.upper
  going : 0 < S.ticks → ∃ t', createInitialResult mode S.m t ResState.init = .ok (S.res, t') ∧
    ∃ c, S.cols = some c ∧ makeCols mode S.m.starts.length S.m.n = .ok c

theorem Solver.make_ok (hw : IntWeights rows w) (hsz : rows + 2 * starts.length ≤ 2 ^ 70) {S : Solver}
    (h : Solver.make rows rows w starts ends mode t = .ok S) : S.Made rows w starts ends mode t := by
  unfold Solver.make at h
  cases hm : WM.make rows rows w starts ends with
  | error e => rw [hm] at h; simp at h
  | ok m =>
    rw [hm] at h
    dsimp only at h
    have hn := (WM.size_le hm).trans hsz
    rcases initial_cases hm hw hn mode t with ⟨_, he⟩ | ⟨hfree, r, t1, he, h1, h2, h3, h4, h5, h6⟩
    · rw [he] at h; simp at h
    rw [he] at h
    dsimp only at h
    unfold spend at h
    by_cases ht1 : 1 ≤ t1
    · rw [if_pos ht1] at h
      dsimp only at h
      rcases makeCols_cases mode m.starts.length m.n with ⟨c, hc⟩ | ⟨_, hc⟩
      · rw [hc] at h
        dsimp only at h
        by_cases ht2 : 2 + m.deps.arcs.length + m.n ≤ t1 - 1
        · rw [if_pos ht2] at h
          simp only [Except.ok.injEq] at h
          subst h
          refine ⟨hm, rfl, hfree, h1, ⟨h3, h4⟩, fun h => ?_, h5, fun h => ?_, ⟨t1, r, he, rfl, rfl⟩, fun _ => ⟨t1, he, c, rfl, hc⟩⟩
          · rw [h2] at h; cases h
          · have := (h6 h).2.2; omega
        · rw [if_neg ht2] at h
          simp only [Except.ok.injEq] at h
          subst h
          exact ⟨hm, rfl, hfree, h1, ⟨h3, h4⟩, fun _ => rfl, h5, fun h => ⟨(h6 h).1, (h6 h).2.1, rfl⟩, ⟨t1, r, he, rfl, rfl⟩, fun h => absurd h (lt_irrefl _)⟩
      · rw [hc] at h; simp at h
    · rw [if_neg ht1] at h
      simp only [Except.ok.injEq] at h
      subst h
      exact ⟨hm, rfl, hfree, h1, ⟨h3, h4⟩, fun _ => rfl, h5, fun h => ⟨(h6 h).1, (h6 h).2.1, rfl⟩, ⟨t1, r, he, rfl, rfl⟩, fun h => absurd h (lt_irrefl _)⟩

theorem Solver.make_error (hw : IntWeights rows w) (hsz : rows + 2 * starts.length ≤ 2 ^ 70) {e : Err}
    (h : Solver.make rows rows w starts ends mode t = .error e) :
    WM.make rows rows w starts ends = .error e ∨ ∃ m, WM.make rows rows w starts ends = .ok m ∧
      ((e = .incompatible ∧
        ∃ a b s s' : Nat, a < b ∧ m.starts[a]? = some s ∧ m.starts[b]? = some s' ∧ Linked m.starts m.ends (DepIn m.n m.w) s s') ∨
       (e = .runtime "Too many variables" ∧ 2147483647 < starts.length * m.n * m.n ∧
         ∀ a b s s' : Nat, a < b → m.starts[a]? = some s → m.starts[b]? = some s' → ¬ Linked m.starts m.ends (DepIn m.n m.w) s s')) := by
  unfold Solver.make at h
  cases hm : WM.make rows rows w starts ends with
  | error e' =>
    rw [hm] at h
    simp only [Except.error.injEq] at h
    subst h; exact Or.inl rfl
  | ok m =>
    rw [hm] at h
    dsimp only at h
    refine Or.inr ⟨m, rfl, ?_⟩
    have hn := (WM.size_le hm).trans hsz
    rcases initial_cases hm hw hn mode t with ⟨hl, he⟩ | ⟨hfree, r, t1, he, _⟩
    · rw [he] at h
      simp only [Except.error.injEq] at h
      exact Or.inl ⟨h.symm, hl⟩
    rw [he] at h
    dsimp only at h
    unfold spend at h
    by_cases ht1 : 1 ≤ t1
    · rw [if_pos ht1] at h
      dsimp only at h
      rcases makeCols_cases mode m.starts.length m.n with ⟨c, hc⟩ | ⟨hbig, hc⟩
      · rw [hc] at h
        dsimp only at h
        split at h <;> simp at h
      · rw [hc] at h
        simp only [Except.error.injEq] at h
        rw [(C18_own_starts_and_ends hm).2.2.1] at hbig
        exact Or.inr ⟨h.symm, hbig, hfree⟩
    · rw [if_neg ht1] at h
      simp at h

/-- the solver always gets constructed unless one of the errors occurs -/
theorem Solver.make_linked (hw : IntWeights rows w) (hsz : rows + 2 * starts.length ≤ 2 ^ 70) (hm : WM.make rows rows w starts ends = .ok m)
    (hl : ∃ a b s s' : Nat, a < b ∧ m.starts[a]? = some s ∧ m.starts[b]? = some s' ∧ Linked m.starts m.ends (DepIn m.n m.w) s s') :
    Solver.make rows rows w starts ends mode t = .error .incompatible := by
  unfold Solver.make
  rw [hm]
  dsimp only
  rcases initial_cases hm hw ((WM.size_le hm).trans hsz) mode t with ⟨_, he⟩ | ⟨hfree, _⟩
  · rw [he]
  · obtain ⟨a, b, s, s', h1, h2, h3, h4⟩ := hl
    exact absurd h4 (hfree a b s s' h1 h2 h3)

/-! ### solving -/

/-- the contracts of the library functions -/
structure Lib.Correct (L : Lib) : Prop where
  sw : L.sw.Near
  mf : L.mf.Near
  gh : L.gh.Proper
  fl : Rounding L.fl
  precise : Precise L.fl

theorem Solver.Made.good {S : Solver} (h : S.Made rows w starts ends mode t) (hw : IntWeights rows w) {L : Lib} (hL : L.Correct) (given : Nat)
    {c : LPModel} (hc : makeCols mode S.m.starts.length S.m.n = .ok c) : (S.env L given c).Good rows w starts ends :=
  ⟨h.make, hw, by unfold Solver.env; dsimp only; rw [h.mode_eq]; exact hc, hL.sw, hL.mf, hL.gh, hL.fl, hL.precise⟩

theorem updUpper_bounds {s : ResState} (h : s.lower ≤ s.upper) (v : ℚ) (p : Paths) :
    (s.updateUpperBound v p).1.lower ≤ (s.updateUpperBound v p).1.upper := by
  unfold ResState.updateUpperBound
  dsimp only
  split
  · exact min_le_right _ _
  · exact h

theorem updLower_bounds {s : ResState} (h : s.lower ≤ s.upper) (v : ℚ) : (s.updateLowerBound v).1.lower ≤ (s.updateLowerBound v).1.upper := by
  unfold ResState.updateLowerBound
  dsimp only
  split
  · exact min_le_right _ _
  · exact h

theorem updUpper_hit (s : ResState) (v : ℚ) (p : Paths) : (s.updateUpperBound v p).1.timeoutHit = s.timeoutHit := by
  unfold ResState.updateUpperBound
  dsimp only
  split <;> rfl

theorem updLower_hit (s : ResState) (v : ℚ) : (s.updateLowerBound v).1.timeoutHit = s.timeoutHit := by
  unfold ResState.updateLowerBound
  dsimp only
  split <;> rfl

/-- a step changes the result only by the two update operations -/
theorem step_res (e : BEnv) (s : BState) (u : Nat) (i : Inp) :
    (s.step e u i).res = s.res ∨ (∃ v, (s.step e u i).res = (s.res.updateLowerBound v).1) ∨
    ∃ v p, (s.step e u i).res = (s.res.updateUpperBound v p).1 := by
  unfold BState.step
  split
  all_goals try dsimp only
  all_goals repeat' split
  all_goals simp only [BState.goto, BState.setWk]
  all_goals first
    | exact Or.inl rfl
    | exact Or.inl trivial
    | (simp; done)
    | exact Or.inr (Or.inl ⟨_, rfl⟩)
    | exact Or.inr (Or.inr ⟨_, _, rfl⟩)

theorem start_res {e : BEnv} {r : ResState} {s : BState} (h : BState.start e r = .ok s) : s.res = r := by
  unfold BState.start at h
  split at h
  · simp at h
  · split at h
    · simp at h
    · simp only [Except.ok.injEq] at h; subst h; rfl

theorem run_res {e : BEnv} {r : ResState} {tr : List (Nat × Inp)} {s : BState} (h : BRun e r tr s) :
    (r.lower ≤ r.upper → s.res.lower ≤ s.res.upper) ∧ s.res.timeoutHit = r.timeoutHit := by
  induction h with
  | start s h => rw [start_res h]; exact ⟨id, rfl⟩
  | step tr s u i _ _ _ ih =>
    rcases step_res e s u i with h | ⟨v, h⟩ | ⟨v, p, h⟩ <;> rw [h]
    · exact ih
    · exact ⟨fun hr => updLower_bounds (ih.1 hr) v, (updLower_hit _ _).trans ih.2⟩
    · exact ⟨fun hr => updUpper_bounds (ih.1 hr) v p, (updUpper_hit _ _ _).trans ih.2⟩

/-- what a successful call leaves behind -/
theorem Solver.solve_ok {S : Solver} (h : S.Made rows w starts ends mode t) (hw : IntWeights rows w) {L : Lib} (hL : L.Correct)
    {given : Nat} {tr : List (Nat × Inp)} {r : ResState} (hs : S.Solve L given tr (.ok r)) :
    r.lower ≤ r.upper ∧ r.upper < dblMax ∧ (r.lower < r.upper ↔ r.timeoutHit = true) ∧
    (S.m.n ≤ t → IsResult S.m r.paths) ∧ (t < S.m.n → r.paths = [] ∧ r.upper = 0) := by
  generalize ho : Outcome.ok r = o at hs
  cases hs with
  | late h0 =>
    simp only [Outcome.ok.injEq] at ho
    subst ho
    refine ⟨?_, h.upper.2, ?_, h.enough, fun ht => ⟨(h.short ht).1, (h.short ht).2.1⟩⟩
    · show S.res.lower ≤ S.res.upper
      rw [h.lower]; exact h.upper.1.le
    · show S.res.lower < S.res.upper ↔ true = true
      rw [h.lower]; exact ⟨fun _ => rfl, fun _ => h.upper.1⟩
  | refused => simp at ho
  | unfinished => simp at ho
  | failed => simp at ho
  | aborted => simp at ho
  | finished c _ s late r' hpos hc hrun hleft hlate hfin =>
    simp only [Outcome.ok.injEq] at ho
    subst ho
    obtain ⟨t', hr, c', hc', hcols⟩ := h.going hpos
    rw [hc] at hc'
    simp only [Option.some.injEq] at hc'
    subst hc'
    have g := h.good hw hL given hcols
    have hr' : createInitialResult (S.env L given c).mode (S.env L given c).m t ResState.init = .ok (S.res, t') := by
      show createInitialResult S.mode S.m t ResState.init = .ok (S.res, t')
      rw [h.mode_eq]; exact hr
    obtain ⟨hu1, hu2⟩ := run_result g hr' hrun
    obtain ⟨hle, hhit⟩ := run_res hrun
    have hle := hle (by rw [h.lower]; exact h.upper.1.le)
    have hlt : S.m.n ≤ t := by
      by_contra hc
      have := (h.short (by omega)).2.2
      omega
    have hnh : s.res.timeoutHit = false := by
      rw [hhit]
      cases hh : S.res.timeoutHit with
      | false => rfl
      | true => have := h.hit hh; omega
    have hres : IsResult S.m s.res.paths := by
      rcases hu2 with ⟨h1, _⟩ | ⟨_, Q, h1, h2, _⟩
      · rw [h1]; exact h.enough hlt
      · exact ⟨Q, h1, h2⟩
    have hub := lt_of_le_of_lt hu1 h.upper.2
    unfold BState.finish at hfin
    by_cases hcmp : s.res.getBounds.Lower < s.res.getBounds.Upper
    · rw [if_pos hcmp] at hfin
      cases late with
      | false => simp at hfin
      | true =>
        simp only [if_true, Except.ok.injEq] at hfin
        subst hfin
        exact ⟨hle, hub, ⟨fun _ => rfl, fun _ => hcmp⟩, fun _ => hres, fun h => by omega⟩
    · rw [if_neg hcmp] at hfin
      simp only [Except.ok.injEq] at hfin
      subst hfin
      refine ⟨hle, hub, ⟨fun h => absurd h hcmp, fun h => ?_⟩, fun _ => hres, fun h => by omega⟩
      rw [hnh] at h; cases h

/-- the exceptions that can leave the solver -/
theorem Solver.solve_exc {S : Solver} (h : S.Made rows w starts ends mode t) (hw : IntWeights rows w) {L : Lib} (hL : L.Correct)
    {given : Nat} {tr : List (Nat × Inp)} {er : Err} (hs : S.Solve L given tr (.exc er)) :
    (er = .logic "Cannot have zero threads" ∧ given = 0 ∧ L.hw = 0) ∨
    (er = .logic "Timeout not reached, but no optimal solution found." ∧ ∀ x ∈ tr, x.2.late = false) ∨
    (er = .logic "Unexpected error happened while solving LP" ∧ ∃ x ∈ tr, x.2.ans = .error) := by
  generalize ho : (Outcome.exc er : Outcome ResState) = o at hs
  cases hs with
  | late => simp at ho
  | finished => simp at ho
  | aborted => simp at ho
  | refused c er' hpos hc hst =>
    simp only [Outcome.exc.injEq] at ho
    subst ho
    left
    unfold BState.start QState.new at hst
    by_cases h0 : (S.env L given c).threads = 0
    · rw [if_pos h0] at hst
      simp only [Except.error.injEq] at hst
      refine ⟨hst.symm, ?_⟩
      have : threadCount L.hw given = 0 := h0
      unfold threadCount at this
      split at this
      · omega
      · exact ⟨by omega, this⟩
    · rw [if_neg h0] at hst
      have hlb : ¬ (0 : ℚ) < -dblMax := by have := dblMax_pos; push Not; linarith
      simp [QState.step, QState.push, QState.pushNodes, QState.calcLB, hlb] at hst
  | unfinished c _ s late er' hpos hc hrun hleft hlate hfin =>
    simp only [Outcome.exc.injEq] at ho
    subst ho
    right; left
    unfold BState.finish at hfin
    split at hfin
    · cases late with
      | true => simp at hfin
      | false =>
        simp only [Bool.false_eq_true, if_false, Except.error.injEq] at hfin
        refine ⟨hfin.symm, fun x hx => ?_⟩
        cases hl : x.2.late with
        | false => rfl
        | true => exact absurd (hlate x hx hl) (by simp)
    · simp at hfin
  | failed c _ s er' hpos hc hrun hone hpc =>
    simp only [Outcome.exc.injEq] at ho
    subst ho
    right; right
    obtain ⟨t', hr, c', hc', hcols⟩ := h.going hpos
    rw [hc] at hc'
    simp only [Option.some.injEq] at hc'
    subst hc'
    have g := h.good hw hL given hcols
    have hr' : createInitialResult (S.env L given c).mode (S.env L given c).m t ResState.init = .ok (S.res, t') := by
      show createInitialResult S.mode S.m t ResState.init = .ok (S.res, t')
      rw [h.mode_eq]; exact hr
    exact C44_workers_never_fail g hr' hrun (u := 0) (by show 0 < threadCount L.hw given; omega) hpc

theorem Solver.crash_ans {S : Solver} (h : S.Made rows w starts ends mode t) (hw : IntWeights rows w) {L : Lib} (hL : L.Correct)
    {given : Nat} {c : LPModel} {tr : List (Nat × Inp)} {s : BState} {er : Err} {u : Nat} (hpos : 0 < S.ticks) (hc : S.cols = some c)
    (hrun : BRun (S.env L given c) S.res tr s) (hu : u < threadCount L.hw given) (hpc : (s.wk u).pc = .crashed er) :
    ∃ x ∈ tr, x.2.ans = .error := by
  obtain ⟨t', hr, c', hc', hcols⟩ := h.going hpos
  rw [hc] at hc'
  simp only [Option.some.injEq] at hc'
  subst hc'
  have g := h.good hw hL given hcols
  have hr' : createInitialResult (S.env L given c).mode (S.env L given c).m t ResState.init = .ok (S.res, t') := by
    show createInitialResult S.mode S.m t ResState.init = .ok (S.res, t')
    rw [h.mode_eq]; exact hr
  exact (C44_workers_never_fail g hr' hrun (u := u) hu hpc).2

end
end Mtsp
