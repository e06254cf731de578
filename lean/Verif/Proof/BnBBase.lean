import Verif.Spec.Search
import Verif.Props.Fixing
import Verif.Props.Integral
import Verif.Props.CutsNear
import Verif.Props.InitialResult
import Verif.Props.Doubles
import Verif.Proof.Fits

/-! Facts about the LPs of the search: columns, locality of rows, range of the objective. -/

namespace Mtsp
open Finset

/-- number of binary variables -/
def BEnv.B (e : BEnv) : Nat := e.m.starts.length * e.m.n * e.m.n

/-! ### columns -/

theorem lt_length_of_some {α : Type} {l : List α} {i : Nat} {a : α} (h : l[i]? = some a) : i < l.length :=
  (List.getElem?_eq_some_iff.1 h).1

theorem makeCols_spec {mode : Mode} {A N : Nat} {M : LPModel} (h : makeCols mode A N = .ok M) :
    A * N * N ≤ 2147483647 ∧ M.nBin = A * N * N ∧ M.Wf ∧ (∀ i < A * N * N, M.bounds i = (some 0, some 1)) ∧
    (mode = .sum → M.nVars = A * N * N) ∧
    (mode = .max → M.nVars = A * N * N + 1 ∧ M.bounds (A * N * N) = (some 0, some dblMax)) := by
  unfold makeCols at h
  by_cases hs : A * N * N ≤ 2147483647
  · obtain ⟨M0, e0, h1, h2, h3, M', e', h4, h5, h6, h7, h8⟩ := C53_columns (A * N * N) hs 0 dblMax
    have wf : ∀ M1 : LPModel, M1.nBin = A * N * N → (∀ i < A * N * N, M1.lo[i]? = some 0 ∧ M1.up[i]? = some 1) → M1.Wf := by
      intro M1 hb hi
      rcases Nat.eq_zero_or_pos (A * N * N) with hz | hz
      · exact ⟨by omega, by omega⟩
      · obtain ⟨a, b⟩ := hi (A * N * N - 1) (by omega)
        have := lt_length_of_some a; have := lt_length_of_some b
        exact ⟨by omega, by omega⟩
    rw [e0] at h
    dsimp only at h
    cases mode with
    | sum =>
      simp only [Except.ok.injEq] at h; subst h
      refine ⟨hs, h2, wf _ h2 h3, ?_, fun _ => h1, by simp⟩
      intro i hi; unfold LPModel.bounds; rw [(h3 i hi).1, (h3 i hi).2]
    | max =>
      rw [e'] at h
      simp only [Except.map, Except.ok.injEq] at h; subst h
      refine ⟨hs, h5, wf _ h5 h8, ?_, by simp, fun _ => ⟨h4, ?_⟩⟩
      · intro i hi; unfold LPModel.bounds; rw [(h8 i hi).1, (h8 i hi).2]
      · unfold LPModel.bounds; rw [h6, h7]
  · unfold LPModel.make at h
    rw [if_pos (by omega)] at h
    simp at h

section
variable {e : BEnv} {rows : Nat} {w : Weights} {starts ends : List Nat}

theorem BEnv.Good.size (g : e.Good rows w starts ends) : e.B ≤ 2147483647 := (makeCols_spec g.colsOk).1
theorem BEnv.Good.nBin (g : e.Good rows w starts ends) : e.cols.nBin = e.B := (makeCols_spec g.colsOk).2.1
theorem BEnv.Good.wf (g : e.Good rows w starts ends) : e.cols.Wf := (makeCols_spec g.colsOk).2.2.1
theorem BEnv.Good.bin (g : e.Good rows w starts ends) : ∀ i < e.B, e.cols.bounds i = (some 0, some 1) :=
  (makeCols_spec g.colsOk).2.2.2.1
theorem BEnv.Good.le_nVars (g : e.Good rows w starts ends) : e.B ≤ e.cols.nVars := by
  obtain ⟨_, _, _, _, h1, h2⟩ := makeCols_spec g.colsOk
  rcases hm : e.mode with _ | _
  · have := h1 hm; unfold BEnv.B; omega
  · have := (h2 hm).1; unfold BEnv.B; omega
/-- a column is a binary one, or the last one of Max mode -/
theorem BEnv.Good.col_cases (g : e.Good rows w starts ends) {i : Nat} (hi : i < e.cols.nVars) :
    i < e.B ∨ (e.mode = .max ∧ i = e.B ∧ e.cols.bounds i = (some 0, some dblMax)) := by
  obtain ⟨_, _, _, _, h1, h2⟩ := makeCols_spec g.colsOk
  rcases hm : e.mode with _ | _
  · left; have := h1 hm; unfold BEnv.B; omega
  · obtain ⟨h3, h4⟩ := h2 hm
    by_cases h : i < e.B
    · exact Or.inl h
    · right
      have : i = e.B := by unfold BEnv.B at *; omega
      refine ⟨rfl, this, ?_⟩
      rw [this]; exact h4

/-! ### weights -/

theorem BEnv.Good.weight (g : e.Good rows w starts ends) {u v : Nat} (hu : u < e.m.n) (hv : v < e.m.n) :
    ∃ z : ℤ, e.m.w u v = z ∧ -1 ≤ z ∧ z < 2 ^ 31 ∧ (z = -1 → DepIn e.m.n e.m.w v u) := by
  have hlt := (C18_own_starts_and_ends g.make).2.2.2.2.2.2.2.2.1
  rcases C19_weights_mirror_input g.make u v hu hv with ⟨h, _⟩ | ⟨h, _⟩ | ⟨h, _, h2⟩
  · exact ⟨-1, by rw [h]; norm_num, by norm_num, by norm_num, fun _ => ⟨hv, hu, h⟩⟩
  · exact ⟨0, by rw [h]; norm_num, by norm_num, by norm_num, by norm_num⟩
  · obtain ⟨z, h3, h4, h5⟩ := g.weights _ (hlt u hu) _ (hlt v hv)
    refine ⟨z, by rw [h, h3], h4, h5, ?_⟩
    rintro rfl
    exact absurd (by rw [h3]; norm_num) h2

theorem BEnv.Good.weight_range (g : e.Good rows w starts ends) {u v : Nat} (hu : u < e.m.n) (hv : v < e.m.n) :
    -1 ≤ e.m.w u v ∧ e.m.w u v ≤ 2 ^ 31 := by
  obtain ⟨z, h, h1, h2, _⟩ := g.weight hu hv
  rw [h]; constructor
  · exact_mod_cast h1
  · exact_mod_cast h2.le

theorem BEnv.Good.weight_int (g : e.Good rows w starts ends) {u v : Nat} (hu : u < e.m.n) (hv : v < e.m.n) :
    ∃ z : ℤ, e.m.w u v = z := by obtain ⟨z, h, _⟩ := g.weight hu hv; exact ⟨z, h⟩

theorem BEnv.Good.weight_nonneg (g : e.Good rows w starts ends) {u v : Nat} (hu : u < e.m.n) (hv : v < e.m.n)
    (hd : ¬ DepIn e.m.n e.m.w v u) : 0 ≤ e.m.w u v := by
  obtain ⟨z, h, h1, _, h3⟩ := g.weight hu hv
  have : z ≠ -1 := fun hz => hd (h3 hz)
  rw [h]; exact_mod_cast (by omega : 0 ≤ z)

theorem two70_lt : (2 : ℚ) ^ 70 < dblMax := by
  have h : (2 : ℚ) ^ 70 ≤ 2 ^ 971 := pow_le_pow_right₀ (by norm_num) (by norm_num)
  have h2 : (1 : ℚ) < 2 ^ 53 - 1 := by norm_num
  have h3 : (0 : ℚ) < 2 ^ 971 := by positivity
  unfold dblMax
  generalize (2 : ℚ) ^ 971 = b at h h3 ⊢
  generalize (2 : ℚ) ^ 70 = a at h ⊢
  generalize (2 : ℚ) ^ 53 - 1 = c at h2 ⊢
  nlinarith

theorem BEnv.Good.smallDeltas (g : e.Good rows w starts ends) : SmallDeltas e.m.starts.length e.m.n (fun _ => e.m.w) := by
  intro a i j k _ hi hj hk
  have h1 := g.weight_range hi hk
  have h2 := g.weight_range hk hj
  have h3 := g.weight_range hi hj
  have := two70_lt
  have : (2 : ℚ) ^ 31 + 2 ^ 31 + 1 < 2 ^ 70 := by norm_num
  dsimp only
  linarith [h1.2, h2.2, h3.1]

theorem BEnv.Good.n_le19 (g : e.Good rows w starts ends) : e.m.n ≤ 2 ^ 19 := by
  have h := g.size
  unfold BEnv.B at h
  have hA := WM.starts_pos g.make
  by_contra hc
  have h1 : 1 * 2 ^ 19 ≤ e.m.starts.length * e.m.n := Nat.mul_le_mul hA (by omega)
  have h2 : 1 * 2 ^ 19 * 2 ^ 19 ≤ e.m.starts.length * e.m.n * e.m.n := Nat.mul_le_mul h1 (by omega)
  omega

/-- what the heuristic submits during the search, with rounding -/
theorem BEnv.Good.heuristic_backed (g : e.Good rows w starts ends) {y : Nat → ℚ} (hy : ∀ i < e.B, 0 ≤ y i ∧ y i ≤ 1)
    {t t' : Nat} {v : ℚ} {q : Paths}
    (hr : exploitCandidateF e.fl e.mode e.m (fun a u v => y (varId e.m.n a u v)) t = .ok (some (v, q), t')) :
    ∃ P, IsCover e.m.n e.m.starts e.m.ends P ∧ q = P.map (·.map e.m.orig) ∧ IsObjective e.mode e.m.w P v ∧
      Grouped (DepIn e.m.n e.m.w) P :=
  C73_search_heuristic_backed g.flOk g.make g.weights g.n_le19 (fun _ _ _ ha hu hv => hy _ (varId_lt ha hu hv)) hr

/-! ### which variables a row mentions -/

theorem rows_fits (g : e.Good rows w starts ends) :
    ∀ c ∈ buildConstraints e.m.n e.m.starts e.m.ends e.m.deps.arcs, c.Fits e.B := by
  have hi := WM.inst g.make
  have hA := hi.pos
  have hs : ∀ a, a < e.m.starts.length → e.m.starts.getD a 0 < e.m.n := fun a ha =>
    hi.lt _ (List.mem_append_left _ (List.mem_of_getElem? (getElem?_getD ha)))
  have he : ∀ a, a < e.m.starts.length → e.m.ends.getD a 0 < e.m.n := fun a ha =>
    hi.lt _ (List.mem_append_right _ (List.mem_of_getElem? (getElem?_getD (hi.lenEq ▸ ha))))
  have V : ∀ {a u v : Nat}, a < e.m.starts.length → u < e.m.n → v < e.m.n → varId e.m.n a u v < e.B := varId_lt
  intro c hc
  unfold buildConstraints at hc
  simp only [List.mem_append] at hc
  rcases hc with (((hc | hc) | hc) | hc) | hc
  · unfold conDiag at hc
    simp only [List.mem_flatMap, List.mem_map, List.mem_range] at hc
    obtain ⟨a, ha, n, hn, rfl⟩ := hc
    exact .eq (.var (V ha hn hn)) (.const _ _)
  · unfold conDegree at hc
    simp only [List.mem_flatMap, List.mem_range, List.mem_cons] at hc
    obtain ⟨n, hn, hc⟩ := hc
    rcases hc with rfl | rfl | hc
    · refine .eq (.sumVars ?_) (.const _ _)
      intro i hi
      simp only [idsIn, List.mem_flatMap, List.mem_map, List.mem_range] at hi
      obtain ⟨a, ha, k, hk, rfl⟩ := hi
      exact V ha hk hn
    · refine .eq (.sumVars ?_) (.const _ _)
      intro i hi
      simp only [idsOut, List.mem_flatMap, List.mem_map, List.mem_range] at hi
      obtain ⟨a, ha, k, hk, rfl⟩ := hi
      exact V ha hn hk
    · split at hc
      · simp at hc
      · simp only [List.mem_map, List.mem_range] at hc
        obtain ⟨a, ha, rfl⟩ := hc
        refine .eq (.sumVars ?_) (.sumVars ?_)
        · intro i hi
          simp only [List.mem_map, List.mem_range] at hi
          obtain ⟨k, hk, rfl⟩ := hi
          exact V ha hk hn
        · intro i hi
          simp only [List.mem_map, List.mem_range] at hi
          obtain ⟨k, hk, rfl⟩ := hi
          exact V ha hn hk
  · unfold conStartEnd at hc
    simp only [List.mem_flatMap, List.mem_range, List.mem_cons, List.not_mem_nil, or_false] at hc
    obtain ⟨a, ha, hc⟩ := hc
    rcases hc with rfl | rfl | rfl
    · refine .eq (.sumVars ?_) (.const _ _)
      intro i hi
      simp only [List.mem_map, List.mem_range] at hi
      obtain ⟨k, hk, rfl⟩ := hi
      exact V ha (hs a ha) hk
    · refine .eq (.sumVars ?_) (.const _ _)
      intro i hi
      simp only [List.mem_map, List.mem_range] at hi
      obtain ⟨k, hk, rfl⟩ := hi
      exact V ha hk (he a ha)
    · exact .eq (.var (V ha (he a ha) (hs _ (Nat.mod_lt _ hA)))) (.const _ _)
  · obtain ⟨⟨u, v⟩, huv, hc⟩ := List.mem_flatMap.1 hc
    obtain ⟨hu, hv, _⟩ := (WM.arcs_iff g.make u v).1 huv
    unfold conDep at hc
    simp only [List.mem_append] at hc
    rcases hc with ((hc | hc) | hc) | hc
    · split at hc
      · rw [List.mem_singleton] at hc; subst hc
        refine .eq (.sumVars ?_) (.const _ _)
        intro i hi
        simp only [List.mem_map, List.mem_range] at hi
        obtain ⟨a, ha, rfl⟩ := hi
        exact V ha hv hu
      · simp at hc
    · split at hc
      · simp only [List.mem_map, List.mem_range] at hc
        obtain ⟨a, ha, rfl⟩ := hc
        refine .eq (.sumVars ?_) (.sumVars ?_)
        · intro i hi
          simp only [List.mem_map, List.mem_range] at hi
          obtain ⟨k, hk, rfl⟩ := hi
          exact V ha hu hk
        · intro i hi
          simp only [List.mem_map, List.mem_range] at hi
          obtain ⟨k, hk, rfl⟩ := hi
          exact V ha hk hv
      · simp at hc
    · simp only [List.mem_map] at hc
      obtain ⟨s, hs', rfl⟩ := hc
      have hsn := hi.lt s (List.mem_append_left _ (List.mem_filter.1 hs').1)
      refine .eq (.sumVars ?_) (.const _ _)
      intro i hi
      simp only [List.mem_map, List.mem_range] at hi
      obtain ⟨a, ha, rfl⟩ := hi
      exact V ha hsn hv
    · simp only [List.mem_map] at hc
      obtain ⟨s, hs', rfl⟩ := hc
      have hsn := hi.lt s (List.mem_append_right _ (List.mem_filter.1 hs').1)
      refine .eq (.sumVars ?_) (.const _ _)
      intro i hi
      simp only [List.mem_map, List.mem_range] at hi
      obtain ⟨a, ha, rfl⟩ := hi
      exact V ha hu hsn
  · unfold conTwoCycles at hc
    simp only [List.mem_flatMap, List.mem_map, List.mem_range, List.mem_range'_1] at hc
    obtain ⟨u, hu, v, hv, rfl⟩ := hc
    refine .le (.sumVars ?_) (.const _ _)
    intro i hi
    simp only [List.mem_flatMap, List.mem_range, List.mem_cons, List.not_mem_nil, or_false] at hi
    obtain ⟨a, ha, rfl | rfl⟩ := hi
    · exact V ha hu (by omega)
    · exact V ha (by omega) hu

theorem rows_local (g : e.Good rows w starts ends) :
    ∀ c ∈ buildConstraints e.m.n e.m.starts e.m.ends e.m.deps.arcs, c.Local e.B := fun c hc => (rows_fits g c hc).local

/-- a usable cut: it mentions binary variables only and no feasible solution violates it -/
def CutOk (e : BEnv) (c : LinCon) : Prop :=
  c.Fits e.B ∧ ∀ P x, e.Feasible P → IsPoint e.m.n e.m.starts e.m.ends P x → c.Sat x

theorem ucutF_fits {fl : ℚ → ℚ} {sw : GlobalCut} {A N : Nat} {y : Nat → ℚ} {c : LinCon} (h : ucutF fl sw A N y = some c) : c.Fits (A * N * N) := by
  unfold ucutF at h
  split at h
  · simp at h
  · cases h
    refine .ge (.sumVars ?_) (.const _ _)
    intro i hi
    simp only [ucutIds, List.mem_flatMap, List.mem_range] at hi
    obtain ⟨u, hu, v, hv, hi⟩ := hi
    split at hi
    · simp only [List.mem_map, List.mem_range] at hi
      obtain ⟨a, ha, rfl⟩ := hi
      exact varId_lt ha hu hv
    · simp at hi

theorem cutConstraint_fits {A N : Nat} {es : List (Nat × Nat)} (h : ∀ p ∈ es, p.1 < N ∧ p.2 < N) :
    (cutConstraint A N es).Fits (A * N * N) := by
  refine .ge (.sumVars ?_) (.const _ _)
  intro i hi
  simp only [List.mem_flatMap, List.mem_map, List.mem_range] at hi
  obtain ⟨p, hp, a, ha, rfl⟩ := hi
  exact varId_lt ha (h p hp).1 (h p hp).2

theorem tryCutF_fits {fl : ℚ → ℚ} {mf : MaxFlow} {A N : Nat} {d : DepGraph} {y : Nat → ℚ} {s t : Nat} {k : CutKind} {c : LinCon}
    (h : tryCutF fl mf A N d y s t k = some c) : c.Fits (A * N * N) := by
  unfold tryCutF at h
  dsimp only at h
  by_cases hlt : (findMinCutF fl mf A N d y s t k).1 < limitF fl 1
  · rw [if_pos hlt, Option.some.injEq] at h
    rw [← h]
    apply cutConstraint_fits
    intro p hp
    unfold findMinCutF at hp
    dsimp only at hp
    split at hp
    · simp at hp
    · simp only [cutEdges, List.mem_flatMap, List.mem_map, List.mem_filter, List.mem_range] at hp
      obtain ⟨u', hu, v', ⟨hv, _⟩, rfl⟩ := hp
      exact ⟨hu, hv⟩
  · rw [if_neg hlt] at h; simp at h

theorem edgePart_fits {A N u v : Nat} (hu : u < N) (hv : v < N) : (edgePart A N u v).Fits (A * N * N) := by
  unfold edgePart
  suffices h : ∀ (l : List Nat) (c : LinComp), (∀ a ∈ l, a < A) → c.Fits (A * N * N) →
      (l.foldl (fun c a => (c.addAssign (.ofVar (varId N a u v))).addAssign (.ofVar (varId N a v u))) c).Fits (A * N * N) from
    h _ _ (by simp) (.zero _)
  intro l
  induction l with
  | nil => intro c _ h; exact h
  | cons a l ih =>
    intro c hl h
    have ha := hl a List.mem_cons_self
    exact ih _ (fun b hb => hl b (List.mem_cons_of_mem _ hb))
      ((h.addAssign (.var (varId_lt ha hu hv))).addAssign (.var (varId_lt ha hv hu)))

theorem combConstraint_fits {A N : Nat} {pairs : List (Nat × Nat)} (inF : Nat × Nat → Bool)
    (hp : ∀ p ∈ pairs, p.1 < N ∧ p.2 < N) : (combConstraint A N pairs inF).Fits (A * N * N) := by
  unfold combConstraint
  suffices h : ∀ (l : List (Nat × Nat)) (s : LinComp × LinComp), (∀ p ∈ l, p.1 < N ∧ p.2 < N) →
      s.1.Fits (A * N * N) → s.2.Fits (A * N * N) →
      (l.foldl (fun (s : LinComp × LinComp) e =>
        if inF e then (s.1, s.2.addAssign ((edgePart A N e.1 e.2).sub (.ofConst 1)))
        else (s.1.addAssign (edgePart A N e.1 e.2), s.2)) s).1.Fits (A * N * N) ∧
      (l.foldl (fun (s : LinComp × LinComp) e =>
        if inF e then (s.1, s.2.addAssign ((edgePart A N e.1 e.2).sub (.ofConst 1)))
        else (s.1.addAssign (edgePart A N e.1 e.2), s.2)) s).2.Fits (A * N * N) by
    obtain ⟨h1, h2⟩ := h pairs (.ofConst 0, .ofConst 1) hp (.const _ _) (.const _ _)
    exact .ge h1 h2
  intro l
  induction l with
  | nil => intro s _ h1 h2; exact ⟨h1, h2⟩
  | cons p l ih =>
    intro s hl h1 h2
    obtain ⟨ha, hb⟩ := hl p List.mem_cons_self
    have he := edgePart_fits (A := A) ha hb
    simp only [List.foldl_cons]
    by_cases hin : inF p
    · rw [if_pos hin]
      exact ih _ (fun q hq => hl q (List.mem_cons_of_mem _ hq)) h1 (h2.addAssign (he.sub (.const _ _)))
    · rw [if_neg hin]
      exact ih _ (fun q hq => hl q (List.mem_cons_of_mem _ hq)) (h1.addAssign he) h2

theorem combForF_fits {fl : ℚ → ℚ} {A N : Nat} {tab : List ℚ} {sz : ℚ} {U V : List Nat} (hp : (U ++ V).Perm (List.range N)) {c : LinCon}
    (h : combForF fl A N tab sz U V = some c) : c.Fits (A * N * N) := by
  have hlt : ∀ p ∈ cutPairs U V, p.1 < N ∧ p.2 < N := by
    intro p hpm
    simp only [cutPairs, List.mem_flatMap, List.mem_map] at hpm
    obtain ⟨u, hu, v, hv, rfl⟩ := hpm
    have h1 : u < N := List.mem_range.1 (hp.mem_iff.1 (List.mem_append_left _ hu))
    have h2 : v < N := List.mem_range.1 (hp.mem_iff.1 (List.mem_append_right _ hv))
    exact ⟨by simp [h1, h2], by simp [h1]⟩
  unfold combForF at h
  split at h
  · simp at h
  · split at h
    · cases h; exact combConstraint_fits _ hlt
    · dsimp only at h
      split at h
      · cases h; exact combConstraint_fits _ hlt
      · simp at h

theorem separate_ok (g : e.Good rows w starts ends) {y : Nat → ℚ} (h3 : 3 ≤ e.m.n) :
    ∀ c ∈ separate e y, CutOk e c := by
  intro c hc
  unfold separate at hc
  split at hc
  · rename_i c' h
    rw [List.mem_singleton] at hc; subst hc
    exact ⟨ucutF_fits h, fun P x hf hx => C85_connectivity_cut_valid g.make g.swOk.splits g.size h hf.1 hx⟩
  split at hc
  · rename_i c' h
    rw [List.mem_singleton] at hc; subst hc
    obtain ⟨s, t, _, h'⟩ := piSigmaCutF_some h
    exact ⟨tryCutF_fits h', fun P x hf hx => precedence_cuts_valid g.make g.mfOk.sides g.size (Or.inr (Or.inr h)) hf hx⟩
  split at hc
  · rename_i c' h
    rw [List.mem_singleton] at hc; subst hc
    obtain ⟨n, _, s, _, _, h'⟩ := piCutF_some h
    exact ⟨tryCutF_fits h', fun P x hf hx => precedence_cuts_valid g.make g.mfOk.sides g.size (Or.inl h) hf hx⟩
  split at hc
  · rename_i c' h
    rw [List.mem_singleton] at hc; subst hc
    obtain ⟨n, _, s, _, _, h'⟩ := sigmaCutF_some h
    exact ⟨tryCutF_fits h', fun P x hf hx => precedence_cuts_valid g.make g.mfOk.sides g.size (Or.inr (Or.inl h)) hf hx⟩
  refine ⟨?_, fun P x hf hx => stream_cuts_valid g.flOk g.make g.ghOk g.size h3 hc hf.1 hx⟩
  unfold twoMatchingGF at hc
  simp only [List.mem_filterMap] at hc
  obtain ⟨⟨size, U, V⟩, hmem, hcut⟩ := hc
  have hparts := g.ghOk.parts e.m.n _ (WM.two_le g.make) (fun u v => (capF_bounds g.flOk e.m.starts.length e.m.n y u v).1)
    (capF_symm e.m.starts.length e.m.n y) _ hmem
  exact combForF_fits hparts hcut
end

end Mtsp
