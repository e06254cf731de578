import Verif.Props.CutsRounded
import Verif.Props.Exact
import Verif.Props.GomoryHu
import Verif.Proof.CutsNear

/-! C89: separation in floating point finds every inequality that is violated noticeably, and only violated ones. -/

namespace Mtsp
open Finset

variable {rows cols : Nat} {w : Weights} {starts ends : List Nat} {m : WM} {fl : ℚ → ℚ} {y : Nat → ℚ} {sw : GlobalCut} {mf : MaxFlow} {c : LinCon}

theorem agents_lt (h : WM.make rows cols w starts ends = .ok m) (hsize : m.starts.length * m.n * m.n ≤ 2147483647) : m.starts.length < 4000 := by
  have hi := WM.inst h
  have hle : m.starts.length ≤ m.n := by
    have h1 : m.starts.Subperm (List.range m.n) := List.subperm_of_subset (List.nodup_append.1 hi.nodup).1
      fun x hx => List.mem_range.2 (hi.lt x (List.mem_append_left _ hx))
    simpa using h1.length_le
  by_contra hA
  have hA : 4000 ≤ m.starts.length := not_lt.1 hA
  have h1 : 4000 * 4000 * 4000 ≤ m.starts.length * m.n * m.n := Nat.mul_le_mul (Nat.mul_le_mul hA (by omega)) (by omega)
  omega

section
variable {A N : Nat}

theorem weights_near (hfl : Precise fl) (hA : A < 4000) (hy : ∀ i < A * N * N, 0 ≤ y i) (hy1 : ∀ u < N, ∀ v < N, arcUse A N y u v ≤ 3 / 2)
    {u v : Nat} (hu : u < N) (hv : v < N) :
    ((1 - 1 / 10 ^ 12) * undirWeight A N y u v ≤ undirWeightF fl A N y u v ∧
      undirWeightF fl A N y u v ≤ (1 + 1 / 10 ^ 12) * undirWeight A N y u v) ∧ 0 ≤ undirWeightF fl A N y u v ∧ undirWeightF fl A N y u v ≤ 4 := by
  have hn := undirWeightF_near (y := y) hfl hA (u := u) (v := v)
    fun a ha => ⟨hy _ (varId_lt ha hu hv), hy _ (varId_lt ha hv hu)⟩
  have h0 : 0 ≤ undirWeight A N y u v ∧ undirWeight A N y u v ≤ 3 := by
    rw [undirWeight_eq, Finset.sum_add_distrib]
    have e1 := hy1 u hu v hv
    have e2 := hy1 v hv u hu
    have p1 : 0 ≤ ∑ a ∈ range A, y (varId N a u v) := Finset.sum_nonneg fun a ha => hy _ (varId_lt (Finset.mem_range.1 ha) hu hv)
    have p2 : 0 ≤ ∑ a ∈ range A, y (varId N a v u) := Finset.sum_nonneg fun a ha => hy _ (varId_lt (Finset.mem_range.1 ha) hv hu)
    unfold arcUse at e1 e2
    unfold varId at p1 p2 ⊢
    constructor <;> linarith
  refine ⟨hn, le_trans (mul_nonneg (by norm_num) h0.1) hn.1, hn.2.trans ?_⟩
  have := mul_le_mul_of_nonneg_left h0.2 (show (0 : ℚ) ≤ 1 + 1 / 10 ^ 12 by norm_num)
  refine this.trans (by norm_num)

theorem capacities_near (hfl : Precise fl) (hA : A < 4000) (hy : ∀ i < A * N * N, 0 ≤ y i) (hy1 : ∀ u < N, ∀ v < N, arcUse A N y u v ≤ 3 / 2)
    {u v : Nat} (hu : u < N) (hv : v < N) :
    ((1 - 1 / 10 ^ 12) * arcCapacity A N y u v ≤ arcCapacityF fl A N y u v ∧
      arcCapacityF fl A N y u v ≤ (1 + 1 / 10 ^ 12) * arcCapacity A N y u v) ∧ 0 ≤ arcCapacityF fl A N y u v ∧ arcCapacityF fl A N y u v ≤ 4 := by
  have hn := arcCapacityF_near (y := y) hfl hA (u := u) (v := v) fun a ha => hy _ (varId_lt ha hu hv)
  have h0 : 0 ≤ arcCapacity A N y u v ∧ arcCapacity A N y u v ≤ 3 / 2 := by
    rw [arcCapacity_eq]
    have e1 := hy1 u hu v hv
    have p1 : 0 ≤ ∑ a ∈ range A, y (varId N a u v) := Finset.sum_nonneg fun a ha => hy _ (varId_lt (Finset.mem_range.1 ha) hu hv)
    exact ⟨p1, e1⟩
  refine ⟨hn, le_trans (mul_nonneg (by norm_num) h0.1) hn.1, hn.2.trans ?_⟩
  have := mul_le_mul_of_nonneg_left h0.2 (show (0 : ℚ) ≤ 1 + 1 / 10 ^ 12 by norm_num)
  refine this.trans (by norm_num)

/-- one source and target -/
theorem tryCutF_near {g : DepGraph} (hfl : Precise fl) (hmf : mf.Near) (hA : A < 4000) {s t : Nat} {k : CutKind} (hs : s < N) (ht : t < N) (hst : s ≠ t)
    {R : Nat → Prop} (hR : ∀ v < N, keepVertex g k s t v = true ↔ ¬ R v) (hs' : ¬ R s) (ht' : ¬ R t)
    (hy : ∀ i < A * N * N, 0 ≤ y i) (hy1 : ∀ u < N, ∀ v < N, arcUse A N y u v ≤ 3 / 2) :
    ((∃ W : Nat → Bool, W s = true ∧ W t = false ∧ outflow A N y R W < 1 - 2 / 10 ^ 10) → tryCutF fl mf A N g y s t k ≠ none) ∧
    ∀ c, tryCutF fl mf A N g y s t k = some c → ¬ c.Sat y ∧ ∃ W : Nat → Bool, W s = true ∧ W t = false ∧ outflow A N y R W < 1 - 1 / (2 * 10 ^ 10) := by
  have hks := (hR s hs).2 hs'
  have hkt := (hR t ht).2 ht'
  have hc := fun u v (hu : u < N) (hv : v < N) => (capacities_near hfl hA hy hy1 hu hv).2
  have hw := fun W => flowCut_near (keep := keepVertex g k s t) (B := W) (w := arcCapacity A N y) (w' := arcCapacityF fl A N y)
    fun u v (hu : u < N) (hv : v < N) => (capacities_near hfl hA hy hy1 hu hv).1
  have hsides := hmf.sides N (keepVertex g k s t) (arcCapacityF fl A N y) s t hs ht hst hks hkt
  have hsz := hmf.size N (keepVertex g k s t) (arcCapacityF fl A N y) s t hs ht hst hks hkt hc
  have hmin := hmf.minimal N (keepVertex g k s t) (arcCapacityF fl A N y) s t hs ht hst hks hkt hc
  obtain ⟨l1, l2⟩ := hfl.limit (k := 1) (le_refl _) (by norm_num)
  unfold tryCutF findMinCutF
  simp only
  by_cases hv : (mf N (keepVertex g k s t) (arcCapacityF fl A N y) s t).1 ≥ limitF fl 1
  · rw [if_pos hv, if_neg (not_lt.2 hv)]
    refine ⟨?_, by simp⟩
    rintro ⟨W, h1, h2, h3⟩
    exfalso
    have a1 := hmin W h1 h2
    have a2 := (hw W).2
    rw [← flowCut_outflow hR] at h3
    norm_num at a1 a2 h3 l1 l2
    linarith
  · rw [if_neg hv, if_pos (not_le.1 hv)]
    refine ⟨fun _ => by simp, ?_⟩
    intro c hc
    cases hc
    have hv := not_le.1 hv
    have a2 := (hw (mf N (keepVertex g k s t) (arcCapacityF fl A N y) s t).2).1
    have hlt : flowCut N (keepVertex g k s t) (arcCapacity A N y) (mf N (keepVertex g k s t) (arcCapacityF fl A N y) s t).2 < 1 - 1 / (2 * 10 ^ 10) := by
      norm_num at a2 hsz l1 l2 ⊢
      linarith
    refine ⟨?_, _, hsides.1, hsides.2, by rw [← flowCut_outflow hR]; exact hlt⟩
    intro hsat
    have := ((LinCon.sat_ge_iff _ _ _).1 hsat).1
    rw [← flowCut_eq] at this
    simp only [LinComp.eval_ofConst] at this
    norm_num at hlt
    linarith

/-- the loops of `Pi` -/
theorem piCutF_found {starts ends : List Nat} {g : DepGraph} {D : Nat → Nat → Prop}
    (hspan : ∀ n < N, ∃ l, g.getIncomingSpan n = .ok l ∧ ∀ p, p ∈ l ↔ D p n) (hcut : piCutF fl mf N starts ends g y = some c) :
    ∃ n e, n < N ∧ (∃ p, D p n) ∧ e ∈ ends ∧ n ≠ e ∧ tryCutF fl mf starts.length N g y n e .pi = some c := by
  unfold piCutF at hcut
  split at hcut
  · simp at hcut
  · obtain ⟨n, hn, hcut⟩ := List.exists_of_findSome?_eq_some hcut
    have hn := List.mem_range.1 hn
    obtain ⟨l, hl, hmem⟩ := hspan n hn
    rw [hl] at hcut
    simp only at hcut
    split at hcut
    · simp at hcut
    · rename_i hl0
      obtain ⟨e, he, hcut⟩ := List.exists_of_findSome?_eq_some hcut
      split at hcut
      · simp at hcut
      · rename_i hnee
        obtain ⟨p, hp⟩ := List.exists_mem_of_ne_nil l (by simpa using hl0)
        exact ⟨n, e, hn, ⟨p, (hmem p).1 hp⟩, he, hnee, hcut⟩

theorem piCutF_finds {starts ends : List Nat} {g : DepGraph} {D : Nat → Nat → Prop}
    (hspan : ∀ n < N, ∃ l, g.getIncomingSpan n = .ok l ∧ ∀ p, p ∈ l ↔ D p n) (harcs : ∀ {u v}, D u v → ¬ g.arcs.isEmpty = true)
    {n e p : Nat} (hn : n < N) (hp : D p n) (he : e ∈ ends) (hnee : n ≠ e) (hW : tryCutF fl mf starts.length N g y n e .pi ≠ none) :
    piCutF fl mf N starts ends g y ≠ none := by
  unfold piCutF
  rw [if_neg (harcs hp)]
  refine (findSome_ne_none _ _).2 ⟨n, List.mem_range.2 hn, ?_⟩
  obtain ⟨l, hl, hmem⟩ := hspan n hn
  rw [hl]
  simp only
  rw [if_neg (by rw [List.isEmpty_iff]; exact List.ne_nil_of_mem ((hmem p).2 hp))]
  refine (findSome_ne_none _ _).2 ⟨e, he, ?_⟩
  rw [if_neg hnee]
  exact hW

/-- the loops of `Sigma` -/
theorem sigmaCutF_found {starts : List Nat} {g : DepGraph} {D : Nat → Nat → Prop}
    (hspan : ∀ n < N, ∃ l, g.getOutgoingSpan n = .ok l ∧ ∀ p, p ∈ l ↔ D n p) (hcut : sigmaCutF fl mf N starts g y = some c) :
    ∃ n s, n < N ∧ (∃ p, D n p) ∧ s ∈ starts ∧ n ≠ s ∧ tryCutF fl mf starts.length N g y s n .sigma = some c := by
  unfold sigmaCutF at hcut
  split at hcut
  · simp at hcut
  · obtain ⟨n, hn, hcut⟩ := List.exists_of_findSome?_eq_some hcut
    have hn := List.mem_range.1 hn
    obtain ⟨l, hl, hmem⟩ := hspan n hn
    rw [hl] at hcut
    simp only at hcut
    split at hcut
    · simp at hcut
    · rename_i hl0
      obtain ⟨e, he, hcut⟩ := List.exists_of_findSome?_eq_some hcut
      split at hcut
      · simp at hcut
      · rename_i hnee
        obtain ⟨p, hp⟩ := List.exists_mem_of_ne_nil l (by simpa using hl0)
        exact ⟨n, e, hn, ⟨p, (hmem p).1 hp⟩, he, hnee, hcut⟩

theorem sigmaCutF_finds {starts : List Nat} {g : DepGraph} {D : Nat → Nat → Prop}
    (hspan : ∀ n < N, ∃ l, g.getOutgoingSpan n = .ok l ∧ ∀ p, p ∈ l ↔ D n p) (harcs : ∀ {u v}, D u v → ¬ g.arcs.isEmpty = true)
    {n s p : Nat} (hn : n < N) (hp : D n p) (he : s ∈ starts) (hnee : n ≠ s) (hW : tryCutF fl mf starts.length N g y s n .sigma ≠ none) :
    sigmaCutF fl mf N starts g y ≠ none := by
  unfold sigmaCutF
  rw [if_neg (harcs hp)]
  refine (findSome_ne_none _ _).2 ⟨n, List.mem_range.2 hn, ?_⟩
  obtain ⟨l, hl, hmem⟩ := hspan n hn
  rw [hl]
  simp only
  rw [if_neg (by rw [List.isEmpty_iff]; exact List.ne_nil_of_mem ((hmem p).2 hp))]
  refine (findSome_ne_none _ _).2 ⟨s, he, ?_⟩
  rw [if_neg hnee]
  exact hW

end

/-- both directions, for all four -/
theorem separation_near (hfl : Precise fl) (h : WM.make rows cols w starts ends = .ok m) (hsw : sw.Near) (hmf : mf.Near)
    (hsize : m.starts.length * m.n * m.n ≤ 2147483647)
    (hy : ∀ i < m.starts.length * m.n * m.n, 0 ≤ y i) (hy1 : ∀ u < m.n, ∀ v < m.n, arcUse m.starts.length m.n y u v ≤ 3 / 2) :
    ((ConnViolated m.starts.length m.n y (2 / 10 ^ 10) → ucutF fl sw m.starts.length m.n y ≠ none) ∧
    (∀ c, ucutF fl sw m.starts.length m.n y = some c → ¬ c.Sat y ∧ ConnViolated m.starts.length m.n y (1 / (2 * 10 ^ 10)))) ∧
    ((PiViolated m.starts.length m.n m.ends (DepIn m.n m.w) y (2 / 10 ^ 10) → piCutF fl mf m.n m.starts m.ends m.deps y ≠ none) ∧
    (∀ c, piCutF fl mf m.n m.starts m.ends m.deps y = some c → ¬ c.Sat y ∧ PiViolated m.starts.length m.n m.ends (DepIn m.n m.w) y (1 / (2 * 10 ^ 10)))) ∧
    ((SigmaViolated m.starts.length m.n m.starts (DepIn m.n m.w) y (2 / 10 ^ 10) → sigmaCutF fl mf m.n m.starts m.deps y ≠ none) ∧
    (∀ c, sigmaCutF fl mf m.n m.starts m.deps y = some c → ¬ c.Sat y ∧ SigmaViolated m.starts.length m.n m.starts (DepIn m.n m.w) y (1 / (2 * 10 ^ 10)))) ∧
    ((PiSigmaViolated m.starts.length m.n (DepIn m.n m.w) y (2 / 10 ^ 10) → piSigmaCutF fl mf m.n m.starts m.deps y ≠ none) ∧
    (∀ c, piSigmaCutF fl mf m.n m.starts m.deps y = some c → ¬ c.Sat y ∧ PiSigmaViolated m.starts.length m.n (DepIn m.n m.w) y (1 / (2 * 10 ^ 10)))) := by
  have hi := WM.inst h
  have hA := agents_lt h hsize
  have hq := C16_queries_agree m.n m.w
  have hdeps := (WM.make_ok h).1.deps
  have hno : ∀ {u v}, u < m.n → v < m.n → (m.deps.hasArc u v = false ↔ ¬ DepIn m.n m.w u v) := by
    intro u v hu hv
    rw [← WM.hasArc_iff h hu hv, Bool.not_eq_true]
  have hirr : ∀ u, ¬ DepIn m.n m.w u u := fun u hd => hi.acyclic u (.single hd)
  have has : ∀ u v, DepIn m.n m.w u v → ¬ DepIn m.n m.w v u := fun u v h1 h2 => hi.acyclic u (.tail (.single h1) h2)
  have hempty : ∀ {u v}, DepIn m.n m.w u v → ¬ m.deps.arcs.isEmpty = true := by
    intro u v hd he
    have := (WM.arcs_iff h u v).2 hd
    rw [List.isEmpty_iff.1 he] at this
    simp at this
  have hin : ∀ n < m.n, ∃ l, m.deps.getIncomingSpan n = .ok l ∧ ∀ p, p ∈ l ↔ DepIn m.n m.w p n := by
    intro n hn
    obtain ⟨l, hl, _, hmem⟩ := hq.2.2.2.1 n hn
    rw [← hdeps] at hl
    exact ⟨l, hl, hmem⟩
  have hout : ∀ n < m.n, ∃ l, m.deps.getOutgoingSpan n = .ok l ∧ ∀ p, p ∈ l ↔ DepIn m.n m.w n p := by
    intro n hn
    obtain ⟨l, hl, _, hmem⟩ := hq.2.2.1 n hn
    rw [← hdeps] at hl
    exact ⟨l, hl, hmem⟩
  refine ⟨?_, ?_, ?_, ?_⟩
  · have hval : ∀ W : Nat → Bool, cutWeight m.n (undirWeight m.starts.length m.n y) W =
        ∑ u ∈ range m.n, ∑ v ∈ range m.n, if W u ≠ W v then arcUse m.starts.length m.n y u v else 0 := by
      intro W
      rw [cutWeight_undir, eval_ucutIds]
      rfl
    have hw := fun W => cutWeight_near (N := m.n) (w := undirWeight m.starts.length m.n y) (w' := undirWeightF fl m.starts.length m.n y)
      (fun u v huv hv => (weights_near hfl hA hy hy1 (show u < m.n by omega) hv).1) W
    have hc : ∀ u v, u < v → v < m.n → 0 ≤ undirWeightF fl m.starts.length m.n y u v ∧ undirWeightF fl m.starts.length m.n y u v ≤ 4 :=
      fun u v huv hv => (weights_near hfl hA hy hy1 (show u < m.n by omega) hv).2
    have hsp := hsw.splits m.n (undirWeightF fl m.starts.length m.n y) (WM.two_le h)
    have hsz := hsw.size m.n (undirWeightF fl m.starts.length m.n y) (WM.two_le h) hc
    have hmin := hsw.minimal m.n (undirWeightF fl m.starts.length m.n y) (WM.two_le h) hc
    obtain ⟨l1, l2⟩ := hfl.limit (k := 2) (by norm_num) (le_refl _)
    unfold ucutF
    by_cases hv : (sw m.n (undirWeightF fl m.starts.length m.n y)).1 ≥ limitF fl 2
    · rw [if_pos hv]
      refine ⟨?_, by simp⟩
      rintro ⟨W, h1, h2, h3⟩
      exfalso
      rw [← hval] at h3
      have a1 := hmin W ⟨h1, h2⟩
      have a2 := (hw W).2
      norm_num at a1 a2 h3 l1 l2
      linarith
    · rw [if_neg hv]
      refine ⟨fun _ => by simp, ?_⟩
      intro c hc
      cases hc
      have hv := not_le.1 hv
      have a2 := (hw (sw m.n (undirWeightF fl m.starts.length m.n y)).2).1
      have hlt : cutWeight m.n (undirWeight m.starts.length m.n y) (sw m.n (undirWeightF fl m.starts.length m.n y)).2 < 2 - 1 / (2 * 10 ^ 10) := by
        norm_num at a2 hsz l1 l2 ⊢
        linarith
      refine ⟨?_, _, hsp.1, hsp.2, by rw [← hval]; exact hlt⟩
      intro hsat
      have := ((LinCon.sat_ge_iff _ _ _).1 hsat).1
      rw [← cutWeight_undir] at this
      simp only [LinComp.eval_ofConst] at this
      norm_num at hlt
      linarith
  · have hone : ∀ {n e}, n < m.n → e ∈ m.ends → n ≠ e → _ := fun {n e} hn he hne =>
      tryCutF_near (R := fun v => DepIn m.n m.w v n) (k := .pi) (g := m.deps) hfl hmf hA hn (hi.lt e (List.mem_append_right _ he)) hne
        (fun v hv => by simp only [keepVertex, Bool.not_eq_true']; exact hno hv hn) (hirr n) (hi.noOut e he n) hy hy1
    constructor
    · rintro ⟨n, e, hn, ⟨p, hp⟩, he, hne, hW⟩
      exact piCutF_finds hin hempty hn hp he hne ((hone hn he hne).1 hW)
    · intro c hc
      obtain ⟨n, e, hn, hp, he, hne, hc⟩ := piCutF_found hin hc
      obtain ⟨h1, h2⟩ := (hone hn he hne).2 c hc
      exact ⟨h1, n, e, hn, hp, he, hne, h2⟩
  · have hone : ∀ {n s}, n < m.n → s ∈ m.starts → n ≠ s → _ := fun {n s} hn hs hne =>
      tryCutF_near (R := fun v => DepIn m.n m.w n v) (k := .sigma) (g := m.deps) hfl hmf hA (hi.lt s (List.mem_append_left _ hs)) hn (Ne.symm hne)
        (fun v hv => by simp only [keepVertex, Bool.not_eq_true']; exact hno hn hv) (hi.noIn s hs n) (hirr n) hy hy1
    constructor
    · rintro ⟨n, e, hn, ⟨p, hp⟩, he, hne, hW⟩
      exact sigmaCutF_finds hout hempty hn hp he hne ((hone hn he hne).1 hW)
    · intro c hc
      obtain ⟨n, e, hn, hp, he, hne, hc⟩ := sigmaCutF_found hout hc
      obtain ⟨h1, h2⟩ := (hone hn he hne).2 c hc
      exact ⟨h1, n, e, hn, hp, he, hne, h2⟩
  · have hone : ∀ {s t}, DepIn m.n m.w s t → _ := fun {s t} hd =>
      tryCutF_near (R := fun v => DepIn m.n m.w v s ∨ DepIn m.n m.w t v) (k := .piSigma) (g := m.deps) hfl hmf hA (hi.dlt s t hd).1 (hi.dlt s t hd).2
        (by rintro rfl; exact hirr s hd)
        (fun v hv => by simp only [keepVertex, Bool.and_eq_true, Bool.not_eq_true', hno hv (hi.dlt s t hd).1, hno (hi.dlt s t hd).2 hv, not_or])
        (by rintro (h1 | h1); exacts [hirr s h1, has _ _ hd h1]) (by rintro (h1 | h1); exacts [has _ _ hd h1, hirr t h1]) hy hy1
    constructor
    · rintro ⟨s, t, hd, hW⟩
      unfold piSigmaCutF
      rw [if_neg (hempty hd)]
      exact (findSome_ne_none _ _).2 ⟨(s, t), (WM.arcs_iff h s t).2 hd, (hone hd).1 hW⟩
    · intro c hc
      obtain ⟨s, t, hst, hc⟩ := piSigmaCutF_some hc
      have hd := (WM.arcs_iff h s t).1 hst
      obtain ⟨h1, h2⟩ := (hone hd).2 c hc
      exact ⟨h1, s, t, hd, h2⟩

/-- **C89.** With sums and constants rounded to double precision, and minimum cut algorithms whose numbers are off by at most
`1e-11`: each separation finds a cut whenever some inequality of its kind is violated by more than `2e-10`. -/
theorem C89_separation_complete (hfl : Precise fl) (h : WM.make rows cols w starts ends = .ok m) (hsw : sw.Near) (hmf : mf.Near)
    (hsize : m.starts.length * m.n * m.n ≤ 2147483647)
    (hy : ∀ i < m.starts.length * m.n * m.n, 0 ≤ y i) (hy1 : ∀ u < m.n, ∀ v < m.n, arcUse m.starts.length m.n y u v ≤ 3 / 2) :
    (ConnViolated m.starts.length m.n y (2 / 10 ^ 10) → ucutF fl sw m.starts.length m.n y ≠ none) ∧
    (PiViolated m.starts.length m.n m.ends (DepIn m.n m.w) y (2 / 10 ^ 10) → piCutF fl mf m.n m.starts m.ends m.deps y ≠ none) ∧
    (SigmaViolated m.starts.length m.n m.starts (DepIn m.n m.w) y (2 / 10 ^ 10) → sigmaCutF fl mf m.n m.starts m.deps y ≠ none) ∧
    (PiSigmaViolated m.starts.length m.n (DepIn m.n m.w) y (2 / 10 ^ 10) → piSigmaCutF fl mf m.n m.starts m.deps y ≠ none) := by
  have hh := separation_near hfl h hsw hmf hsize hy hy1
  exact ⟨hh.1.1, hh.2.1.1, hh.2.2.1.1, hh.2.2.2.1⟩

/-- **C89, no false alarms.** Every cut found is violated by the point it was derived from; the inequality is violated by more than `5e-11`. -/
theorem C89_cuts_are_violated (hfl : Precise fl) (h : WM.make rows cols w starts ends = .ok m) (hsw : sw.Near) (hmf : mf.Near)
    (hsize : m.starts.length * m.n * m.n ≤ 2147483647)
    (hy : ∀ i < m.starts.length * m.n * m.n, 0 ≤ y i) (hy1 : ∀ u < m.n, ∀ v < m.n, arcUse m.starts.length m.n y u v ≤ 3 / 2) :
    (∀ c, ucutF fl sw m.starts.length m.n y = some c → ¬ c.Sat y ∧ ConnViolated m.starts.length m.n y (1 / (2 * 10 ^ 10))) ∧
    (∀ c, piCutF fl mf m.n m.starts m.ends m.deps y = some c → ¬ c.Sat y ∧ PiViolated m.starts.length m.n m.ends (DepIn m.n m.w) y (1 / (2 * 10 ^ 10))) ∧
    (∀ c, sigmaCutF fl mf m.n m.starts m.deps y = some c → ¬ c.Sat y ∧ SigmaViolated m.starts.length m.n m.starts (DepIn m.n m.w) y (1 / (2 * 10 ^ 10))) ∧
    (∀ c, piSigmaCutF fl mf m.n m.starts m.deps y = some c → ¬ c.Sat y ∧ PiSigmaViolated m.starts.length m.n (DepIn m.n m.w) y (1 / (2 * 10 ^ 10))) := by
  have hh := separation_near hfl h hsw hmf hsize hy hy1
  exact ⟨hh.1.2, hh.2.1.2, hh.2.2.1.2, hh.2.2.2.2⟩

/-- **C89, integral points.** Let `x` be a 0/1 point that satisfies the rows of the initial LP, and `y` what the solver returns for it:
nonnegative, each value off by less than the tolerance, together by at most a quarter (at most `2^31` values off by `1e-10`).  If connectivity and
pi separation, computed in floating point, find nothing at `y`, then the paths read off `y` are a feasible solution and `x` is their point. -/
theorem C89_uncut_is_feasible {x : Nat → ℚ} {δ : ℚ} (hfl : Precise fl) (h : WM.make rows cols w starts ends = .ok m) (hsw : sw.Near) (hmf : mf.Near)
    (hsize : m.starts.length * m.n * m.n ≤ 2147483647)
    (hδ : 0 ≤ δ) (hδ2 : m.starts.length * m.n * m.n * δ ≤ 1 / 4)
    (hnear : NearInt (m.starts.length * m.n * m.n) δ y x)
    (hone : ∀ i < m.starts.length * m.n * m.n, y i > 1 - 1 / 10 ^ 10 ↔ x i = 1)
    (hrows : ∀ c ∈ buildConstraints m.n m.starts m.ends m.deps.arcs, c.Sat x)
    (hu : ucutF fl sw m.starts.length m.n y = none) (hp : piCutF fl mf m.n m.starts m.ends m.deps y = none) :
    Feasible m.n m.starts m.ends (DepIn m.n m.w) (readPaths m.n m.starts m.ends y) ∧
    IsPoint m.n m.starts m.ends (readPaths m.n m.starts m.ends y) x := by
  have hi := WM.inst h
  have r := (rows_iff _ _ _ _ _).1 hrows
  have h01 : ∀ a < m.starts.length, ∀ u < m.n, ∀ v < m.n, x (varId m.n a u v) = 0 ∨ x (varId m.n a u v) = 1 :=
    fun a ha u hu v hv => by rcases (hnear _ (varId_lt ha hu hv)).2 with h | h; exacts [Or.inl h.1, Or.inr h.1]
  have hle : ∀ a < m.starts.length, ∀ u < m.n, ∀ v < m.n, y (varId m.n a u v) ≤ x (varId m.n a u v) + δ :=
    fun a ha u hu v hv => by rcases (hnear _ (varId_lt ha hu hv)).2 with h | h <;> rw [h.1] <;> linarith [h.2]
  obtain ⟨own, nx, pv, ht⟩ := tour_of_integral r h01
  have hAδ : (m.starts.length : ℚ) * δ ≤ 1 / 4 := by
    refine le_trans ?_ hδ2
    have h1 : (1 : ℚ) ≤ m.n := by exact_mod_cast (show 1 ≤ m.n by have := WM.two_le h; omega)
    have h2 : (0 : ℚ) ≤ m.starts.length := by positivity
    calc (m.starts.length : ℚ) * δ = m.starts.length * 1 * 1 * δ := by ring
      _ ≤ m.starts.length * m.n * m.n * δ := by gcongr
  have hy1 : ∀ u < m.n, ∀ v < m.n, arcUse m.starts.length m.n y u v ≤ 3 / 2 := by
    intro u hu v hv
    have e : ∑ a ∈ range m.starts.length, x (varId m.n a u v) ≤ 1 := by
      have : ∀ a ∈ range m.starts.length, x (varId m.n a u v) ≤ if own u = a then 1 else 0 := by
        intro a ha
        rw [ht.val a (Finset.mem_range.1 ha) u hu v hv]
        split_ifs with h1 h2 <;> simp_all
      refine (Finset.sum_le_sum this).trans ?_
      rw [Finset.sum_ite_eq]
      split_ifs <;> norm_num
    have : ∑ a ∈ range m.starts.length, y (varId m.n a u v) ≤ ∑ a ∈ range m.starts.length, (x (varId m.n a u v) + δ) :=
      Finset.sum_le_sum fun a ha => hle a (Finset.mem_range.1 ha) u hu v hv
    rw [Finset.sum_add_distrib] at this
    simp only [Finset.sum_const, Finset.card_range, nsmul_eq_mul] at this
    show ∑ a ∈ range m.starts.length, y (varId m.n a u v) ≤ 3 / 2
    linarith
  obtain ⟨hc1, hc2, _, _⟩ := C89_separation_complete hfl h hsw hmf hsize (fun i hi => (hnear i hi).1) hy1
  refine feasible_of_cuts h hδ hnear hone hrows ?_ ?_
  · intro par hsp
    by_contra hlt
    refine hc1 ⟨par, hsp.1, hsp.2, ?_⟩ hu
    have : (1 / 4 : ℚ) < 2 - 2 / 10 ^ 10 := by norm_num
    exact lt_of_le_of_lt (not_lt.1 hlt) (lt_of_le_of_lt hδ2 this)
  · intro u v hd e he hve B hB1 hB2
    by_contra hlt
    refine hc2 ⟨v, e, hd.2.1, ⟨u, hd⟩, he, hve, B, hB1, hB2, ?_⟩ hp
    have hR : ∀ z < m.n, keepVertex m.deps .pi v e z = true ↔ ¬ DepIn m.n m.w z v := by
      intro z hz
      simp only [keepVertex, Bool.not_eq_true']
      rw [← WM.hasArc_iff h hz hd.2.1, Bool.not_eq_true]
    rw [← flowCut_outflow hR]
    unfold flowCut
    simp only [arcCapacity_eq]
    have : (1 / 4 : ℚ) < 1 - 2 / 10 ^ 10 := by norm_num
    exact lt_of_le_of_lt (not_lt.1 hlt) (lt_of_le_of_lt hδ2 this)

/-! ### the contracts are met -/

theorem GlobalCut.Correct.near (h : sw.Correct) : sw.Near := by
  refine ⟨h.splits, fun N w hN _ => ?_, fun N w hN hw par hp => ?_⟩
  · rw [← h.size N w hN]
    have : (0 : ℚ) < 1 / 10 ^ 11 := by norm_num
    linarith
  · have := h.minimal N w hN (fun u v h1 h2 => (hw u v h1 h2).1) par hp
    have : (0 : ℚ) < 1 / 10 ^ 11 := by norm_num
    linarith

theorem MaxFlow.Correct.near (h : mf.Correct) : mf.Near := by
  refine ⟨h.sides, fun N keep c s t hs ht hst hks hkt hc => ?_, fun N keep c s t hs ht hst hks hkt hc B h1 h2 => ?_⟩
  · rw [← h.size N keep c s t hs ht hst hks hkt fun u v hu hv => (hc u v hu hv).1]
    have : (0 : ℚ) < 1 / 10 ^ 11 := by norm_num
    linarith
  · have := h.minimal N keep c s t hs ht hst hks hkt (fun u v hu hv => (hc u v hu hv).1) B h1 h2
    have : (0 : ℚ) < 1 / 10 ^ 11 := by norm_num
    linarith

/-- exact constructions meet the weaker contracts -/
theorem CutStream.Correct.proper {gh : CutStream} (h : gh.Correct) : gh.Proper := by
  refine ⟨h.parts, fun N cap hN h0 hs c hc => ?_⟩
  rw [h.size N cap hN h0 hs c hc]
  refine List.sum_nonneg fun q hq => ?_
  obtain ⟨u, _, rfl⟩ := List.mem_map.1 hq
  refine List.sum_nonneg fun q hq => ?_
  obtain ⟨v, _, rfl⟩ := List.mem_map.1 hq
  exact h0 u v

theorem CutStream.Correct.near {gh : CutStream} (h : gh.Correct) {N : Nat} (hN : 2 ≤ N) : gh.Near N := by
  intro cap h0 hs c hc
  rw [h.size N cap hN (fun u v => (h0 u v).1) hs c hc, sub_self]
  norm_num

/-- flow values that are too large by `1e-12` -/
def offFlow : MaxFlow := fun N keep c s t => ((bruteFlow N keep c s t).1 + 1 / 10 ^ 12, (bruteFlow N keep c s t).2)

/-- inexact algorithms meet the contract, too -/
theorem offFlow_near : offFlow.Near := by
  have h := bruteFlow_correct
  refine ⟨h.sides, fun N keep c s t hs ht hst hks hkt hc => ?_, fun N keep c s t hs ht hst hks hkt hc B h1 h2 => ?_⟩
  · show flowCut N keep c (bruteFlow N keep c s t).2 ≤ (bruteFlow N keep c s t).1 + 1 / 10 ^ 12 + 1 / 10 ^ 11
    rw [← h.size N keep c s t hs ht hst hks hkt fun u v hu hv => (hc u v hu hv).1]
    have : (0 : ℚ) < 1 / 10 ^ 11 := by norm_num
    have : (0 : ℚ) < 1 / 10 ^ 12 := by norm_num
    linarith
  · show (bruteFlow N keep c s t).1 + 1 / 10 ^ 12 ≤ _
    have := h.minimal N keep c s t hs ht hst hks hkt (fun u v hu hv => (hc u v hu hv).1) B h1 h2
    have : (1 : ℚ) / 10 ^ 12 ≤ 1 / 10 ^ 11 := by norm_num
    linarith

end Mtsp
