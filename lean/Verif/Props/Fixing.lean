import Verif.Model.Fixing
import Verif.Model.Queue
import Verif.Props.LP
import Verif.Spec.Doubles

/-! C53: variable numbering and columns.  C54: branching variable.  C37: implied fixings.  C11: branching.
C45: a node is solved under its own fixings. -/

namespace Mtsp
open Finset

variable {rows cols : Nat} {w : Weights} {starts ends : List Nat} {m : WM} {P : Paths} {x : Nat → ℚ}

/-! ### C53 -/

/-- **C53, numbering.** The ids of valid triples are exactly the numbers below `A * N * N`, one id per
triple, and the solver's decoding is the inverse. -/
theorem C53_numbering_bijective (A N : Nat) :
    (∀ a u v, a < A → u < N → v < N → varId N a u v < A * N * N ∧ decodeVar N (varId N a u v) = (a, u, v)) ∧
    (∀ id < A * N * N, ∃ a u v, a < A ∧ u < N ∧ v < N ∧ varId N a u v = id ∧ decodeVar N id = (a, u, v)) := by
  constructor
  · intro a u v ha hu hv
    obtain ⟨h1, h2, h3⟩ := varId_decode (a := a) hu hv
    refine ⟨?_, by simp [decodeVar, h1, h2, h3]⟩
    unfold varId
    have e1 : a * N * N + u * N + v < a * N * N + (u + 1) * N := by rw [Nat.add_mul]; omega
    have e2 : a * N * N + (u + 1) * N ≤ a * N * N + N * N := Nat.add_le_add_left (Nat.mul_le_mul_right _ hu) _
    have e3 : a * N * N + N * N = (a + 1) * N * N := by ring
    have e4 : (a + 1) * N * N ≤ A * N * N := Nat.mul_le_mul_right _ (Nat.mul_le_mul_right _ ha)
    omega
  · intro id hid
    have hN : 0 < N := by rcases Nat.eq_zero_or_pos N with h | h; · subst h; simp at hid
                          · exact h
    refine ⟨id / N / N, id / N % N, id % N, ?_, Nat.mod_lt _ hN, Nat.mod_lt _ hN, ?_, rfl⟩
    · rw [Nat.div_div_eq_div_mul, Nat.div_lt_iff_lt_mul (by positivity)]
      rw [Nat.mul_assoc] at hid; exact hid
    · unfold varId
      have h1 := Nat.div_add_mod (id / N) N
      have h2 := Nat.div_add_mod id N
      have e : id / N / N * N * N + id / N % N * N = (N * (id / N / N) + id / N % N) * N := by ring
      rw [e, h1, Nat.mul_comm, h2]

theorem LPModel.addVariable_ok {M : LPModel} (hl : M.lo.length = M.up.length) (hc : M.nVars ≤ M.lo.length) (l u : ℚ) :
    ∃ M', M.addVariable l u = .ok (M.nVars, M') ∧ M'.nVars = M.nVars + 1 ∧ M'.nBin = M.nBin ∧ M'.lo.length = M'.up.length ∧
      M'.nVars ≤ M'.lo.length ∧ M'.lo[M.nVars]? = some l ∧ M'.up[M.nVars]? = some u ∧
      ∀ i < M.nVars, M'.lo[i]? = M.lo[i]? ∧ M'.up[i]? = M.up[i]? := by
  unfold LPModel.addVariable
  dsimp only
  by_cases h : M.nVars + 1 ≥ M.lo.length
  · rw [if_pos h]
    have h1 : M.nVars < (M.lo ++ [0]).length := by simp; omega
    have h2 : M.nVars < (M.up ++ [dblMax]).length := by simp; omega
    simp only [LPModel.setBounds]
    rw [if_pos ⟨h1, h2⟩]
    refine ⟨_, rfl, rfl, rfl, by simp [hl], by simp; omega, List.getElem?_set_self h1, List.getElem?_set_self h2, ?_⟩
    intro i hi
    have hne : M.nVars ≠ i := by omega
    refine ⟨?_, ?_⟩
    · simp only [List.getElem?_set_ne hne]
      rw [List.getElem?_append_left (by omega)]
    · simp only [List.getElem?_set_ne hne]
      rw [List.getElem?_append_left (by omega)]
  · rw [if_neg h]
    have h1 : M.nVars < M.lo.length := by omega
    have h2 : M.nVars < M.up.length := by omega
    simp only [LPModel.setBounds]
    rw [if_pos ⟨h1, h2⟩]
    refine ⟨_, rfl, rfl, rfl, by simp [hl], by simp; omega, by simp [h1], by simp [h2], ?_⟩
    intro i hi
    have hne : M.nVars ≠ i := by omega
    exact ⟨by simp [List.getElem?_set_ne hne], by simp [List.getElem?_set_ne hne]⟩

theorem LPModel.addBinaries_ok (k : Nat) : ∀ (M : LPModel), M.lo.length = M.up.length → M.nVars ≤ M.lo.length →
    (∀ i < M.nVars, M.lo[i]? = some 0 ∧ M.up[i]? = some 1) →
    ∃ M', LPModel.addBinaries k M = .ok M' ∧ M'.nVars = M.nVars + k ∧ M'.nBin = M.nBin ∧ M'.lo.length = M'.up.length ∧
      M'.nVars ≤ M'.lo.length ∧ ∀ i < M'.nVars, M'.lo[i]? = some 0 ∧ M'.up[i]? = some 1 := by
  induction k with
  | zero => intro M h1 h2 h4; exact ⟨M, rfl, rfl, rfl, h1, h2, h4⟩
  | succ k ih =>
    intro M h1 h2 h4
    obtain ⟨M1, e, hn, hb, hl, hc, hlo, hup, hold⟩ := LPModel.addVariable_ok h1 h2 0 1
    obtain ⟨M', e', hn', hb', hl', hc', hall⟩ := ih M1 hl hc (by
      intro i hi
      rw [hn] at hi
      rcases Nat.lt_succ_iff_lt_or_eq.1 hi with h | h
      · obtain ⟨a, b⟩ := hold i h; rw [a, b]; exact h4 i h
      · subst h; exact ⟨hlo, hup⟩)
    refine ⟨M', ?_, by omega, by rw [hb', hb], hl', hc', hall⟩
    simp only [LPModel.addBinaries, e, e']

/-- **C53, columns.** Creating the LP for `n` binary variables (up to the limit of `int`) succeeds without
touching a column that does not exist: variables `0 … n-1` have the bounds `[0, 1]`; the additional
variable of Max mode gets the next id `n`, a column of its own and its bounds, and changes no other. -/
theorem C53_columns (n : Nat) (hn : n ≤ 2147483647) (l u : ℚ) :
    ∃ M, LPModel.make n = .ok M ∧ M.nVars = n ∧ M.nBin = n ∧ (∀ i < n, M.lo[i]? = some 0 ∧ M.up[i]? = some 1) ∧
      ∃ M', M.addVariable l u = .ok (n, M') ∧ M'.nVars = n + 1 ∧ M'.nBin = n ∧
        M'.lo[n]? = some l ∧ M'.up[n]? = some u ∧ ∀ i < n, M'.lo[i]? = some 0 ∧ M'.up[i]? = some 1 := by
  obtain ⟨M, e, h1, h2, h3, h4, h5⟩ := LPModel.addBinaries_ok n ⟨List.replicate n 0, List.replicate n dblMax, 0, n⟩
    (by simp) (by simp) (by intro i hi; exact absurd hi (Nat.not_lt_zero i))
  have h1' : M.nVars = n := by rw [h1]; simp
  rw [h1'] at h5
  refine ⟨M, ?_, h1', h2, h5, ?_⟩
  · unfold LPModel.make; rw [if_neg (by omega)]; exact e
  · obtain ⟨M', e', a1, a2, _, _, a5, a6, a7⟩ := LPModel.addVariable_ok (M := M) h3 h4 l u
    rw [h1'] at e' a1 a5 a6 a7
    refine ⟨M', e', a1, by rw [a2, h2], a5, a6, ?_⟩
    intro i hi
    obtain ⟨p, q⟩ := a7 i hi
    rw [p, q]; exact h5 i hi

example : (LPModel.make 3).toOption.map (fun M => (M.lo.length, M.nVars)) = some (4, 3) := by decide +kernel

/-! ### C54 -/

/-- the tolerance of MtspModel.cpp:35 -/
def Fractional (x : Nat → ℚ) (i : Nat) : Prop := 1 / 10 ^ 10 ≤ x i ∧ x i ≤ 1 - 1 / 10 ^ 10

theorem frac_abs {fl : ℚ → ℚ} (hfl : Precise fl) {x : Nat → ℚ} {eps : ℚ} (he : 0 ≤ eps) {i : Nat} (h : eps ≤ x i ∧ x i ≤ 1 - eps) :
    |fl (x i - 1 / 2)| < 1 ∧ |(|fl (x i - 1 / 2)| - |x i - 1 / 2|)| ≤ 1 / 2 ^ 54 := by
  have h1 : |x i - 1 / 2| ≤ 1 / 2 := by rw [abs_le]; constructor <;> linarith [h.1, h.2]
  have h2 := hfl.rel (x i - 1 / 2)
  have h3 := abs_abs_sub_abs_le (fl (x i - 1 / 2)) (x i - 1 / 2)
  have h4 : |(|fl (x i - 1 / 2)| - |x i - 1 / 2|)| ≤ 1 / 2 ^ 54 := by
    refine h3.trans (h2.trans ?_)
    calc (1 : ℚ) / 2 ^ 53 * |x i - 1 / 2| ≤ 1 / 2 ^ 53 * (1 / 2) := mul_le_mul_of_nonneg_left h1 (by norm_num)
      _ = 1 / 2 ^ 54 := by norm_num
  refine ⟨?_, h4⟩
  have := (abs_le.1 h4).2
  norm_num at this ⊢
  linarith

theorem findFracLoop_spec {fl : ℚ → ℚ} (hfl : Precise fl) {eps : ℚ} (he : 0 < eps) (x : Nat → ℚ) : ∀ (l : List Nat) (mn : ℚ) (c : Option Nat),
    (c = none ∧ mn = 1 ∨ ∃ i, c = some i ∧ (eps ≤ x i ∧ x i ≤ 1 - eps) ∧ |fl (x i - 1 / 2)| = mn) →
    match findFracLoop fl eps (1 - eps) x l mn c with
    | none => c = none ∧ ∀ i ∈ l, ¬ (eps ≤ x i ∧ x i ≤ 1 - eps)
    | some k => (k ∈ l ∨ c = some k) ∧ (eps ≤ x k ∧ x k ≤ 1 - eps) ∧ |fl (x k - 1 / 2)| ≤ mn ∧
        ∀ i ∈ l, (eps ≤ x i ∧ x i ≤ 1 - eps) → |fl (x k - 1 / 2)| < |fl (x i - 1 / 2)| + eps := by
  intro l
  induction l with
  | nil =>
    intro mn c hc
    rcases hc with ⟨rfl, _⟩ | ⟨i, rfl, h1, h2⟩
    · simp [findFracLoop]
    · show (_ ∨ _) ∧ _
      exact ⟨Or.inr rfl, h1, h2.le, by simp⟩
  | cons v vs ih =>
    intro mn c hc
    have hmn : mn ≤ 1 := by
      rcases hc with ⟨_, rfl⟩ | ⟨i, _, h1, rfl⟩
      · exact le_refl _
      · exact (frac_abs hfl he.le h1).1.le
    unfold findFracLoop
    by_cases hv : eps ≤ x v ∧ x v ≤ 1 - eps
    · rw [if_pos hv]
      by_cases hlt : |fl (x v - 1 / 2)| < mn
      · rw [if_pos hlt]
        by_cases hs : |fl (x v - 1 / 2)| < eps
        · rw [if_pos hs]
          refine ⟨Or.inl List.mem_cons_self, hv, hlt.le, ?_⟩
          intro i _ _
          have := abs_nonneg (fl (x i - 1 / 2))
          linarith
        · rw [if_neg hs]
          have := ih |fl (x v - 1 / 2)| (some v) (Or.inr ⟨v, rfl, hv, rfl⟩)
          split at this
          · simp at this
          · rename_i k _
            obtain ⟨a1, a2, a3, a4⟩ := this
            refine ⟨?_, a2, a3.trans hlt.le, ?_⟩
            · rcases a1 with h | h
              · exact Or.inl (List.mem_cons_of_mem _ h)
              · left; simp at h; rw [h]; exact List.mem_cons_self
            · intro i hi hfi
              rcases List.mem_cons.1 hi with rfl | hi
              · linarith
              · exact a4 i hi hfi
      · rw [if_neg hlt]
        have := ih mn c hc
        split at this
        · obtain ⟨rfl, _⟩ := this
          rcases hc with ⟨_, rfl⟩ | ⟨i, h, _⟩
          · exact absurd (frac_abs hfl he.le hv).1 hlt
          · simp at h
        · obtain ⟨a1, a2, a3, a4⟩ := this
          refine ⟨a1.imp_left (List.mem_cons_of_mem _), a2, a3, ?_⟩
          intro i hi hfi
          rcases List.mem_cons.1 hi with rfl | hi
          · push Not at hlt; linarith
          · exact a4 i hi hfi
    · rw [if_neg hv]
      have := ih mn c hc
      split at this
      · refine ⟨this.1, ?_⟩
        intro i hi
        rcases List.mem_cons.1 hi with rfl | hi
        · exact hv
        · exact this.2 i hi
      · obtain ⟨a1, a2, a3, a4⟩ := this
        refine ⟨a1.imp_left (List.mem_cons_of_mem _), a2, a3, ?_⟩
        intro i hi hfi
        rcases List.mem_cons.1 hi with rfl | hi
        · exact absurd hfi hv
        · exact a4 i hi hfi

theorem findFractional_spec {fl : ℚ → ℚ} (hfl : Precise fl) (n : Nat) (x : Nat → ℚ) :
    (findFractional fl n x = none ↔ ∀ i < n, ¬ Fractional x i) ∧
    ∀ k, findFractional fl n x = some k → k < n ∧ Fractional x k ∧
      ∀ i < n, Fractional x i → |fl (x k - 1 / 2)| < |fl (x i - 1 / 2)| + 1 / 10 ^ 10 := by
  have h := findFracLoop_spec hfl (eps := 1 / 10 ^ 10) (by norm_num) x (List.range n) 1 none (Or.inl ⟨rfl, rfl⟩)
  unfold findFractional
  split at h
  · rename_i e
    rw [e]
    refine ⟨⟨fun _ i hi => h.2 i (List.mem_range.2 hi), fun _ => rfl⟩, by simp⟩
  · rename_i k e
    rw [e]
    obtain ⟨a1, a2, _, a4⟩ := h
    have hk : k < n := by simpa using a1
    refine ⟨⟨by simp, fun hh => absurd a2 (hh k hk)⟩, ?_⟩
    intro k' hk'
    simp only [Option.some.injEq] at hk'
    subst hk'
    exact ⟨hk, a2, fun i hi hfi => a4 i (List.mem_range.2 hi) hfi⟩

/-- **C54.** No variable is returned exactly if no binary variable is fractional; a returned variable is
binary, fractional, and closest to 1/2 up to the tolerance (and twice the rounding error of the subtraction). -/
theorem C54_branching_variable {fl : ℚ → ℚ} (hfl : Precise fl) (n : Nat) (x : Nat → ℚ) :
    (findFractional fl n x = none ↔ ∀ i < n, ¬ Fractional x i) ∧
    ∀ k, findFractional fl n x = some k → k < n ∧ Fractional x k ∧
      ∀ i < n, Fractional x i → |x k - 1 / 2| < |x i - 1 / 2| + 1 / 10 ^ 10 + 1 / 2 ^ 53 := by
  refine ⟨(findFractional_spec hfl n x).1, ?_⟩
  intro k hk
  obtain ⟨h1, h2, h3⟩ := (findFractional_spec hfl n x).2 k hk
  refine ⟨h1, h2, ?_⟩
  intro i hi hf
  have a := (abs_le.1 (frac_abs hfl (by norm_num) h2).2).1
  have b := (abs_le.1 (frac_abs hfl (by norm_num) hf).2).2
  have c := h3 i hi hf
  norm_num at a b c ⊢
  linarith

/-- without rounding errors: closest up to the tolerance -/
theorem C54_branching_variable_exact (n : Nat) (x : Nat → ℚ) {k : Nat} (h : findFractional id n x = some k) :
    ∀ i < n, Fractional x i → |x k - 1 / 2| < |x i - 1 / 2| + 1 / 10 ^ 10 :=
  ((findFractional_spec ⟨fun q => by simp⟩ n x).2 k h).2.2

example : findFractional id 4 (fun i => if i = 2 then 1 / 3 else if i = 1 then 1 / 8 else 1) = some 2 := by decide +kernel

/-! ### C37 -/

/-- **C37 (partial).** If a feasible solution uses the arc of variable `id`, it uses none of the arcs that
the solver fixes to zero as a consequence — provided the arc does not lead into a start node, or there is
just one agent.  Missing: with several agents, arcs into start nodes (from an agent's end to the next
agent's start), where it is false (`C37_refuted`). -/
theorem C37_implied_fixings_partial (h : WM.make rows cols w starts ends = .ok m)
    (hf : Feasible m.n m.starts m.ends (DepIn m.n m.w) P) (hx : IsPoint m.n m.starts m.ends P x)
    {id a u v : Nat} (hd : decodeVar m.n id = (a, u, v)) (ha : a < m.starts.length) (hu : u < m.n) (hv : v < m.n)
    (hvs : v ∉ m.starts ∨ m.starts.length = 1) (hone : x (varId m.n a u v) = 1) :
    ∃ l, calcFixable m.n m.starts m.ends m.deps id = .ok l ∧ ∀ i ∈ l, x i = 0 := by
  have hi := WM.inst h
  have hl := hi.lenEq
  have hc := hf.1
  obtain ⟨own, pv, ht, ho⟩ := hx.tour hc hl
  have s := (WM.make_ok h).1
  obtain ⟨_, _, hout, hin, _, _⟩ := C16_queries_agree m.n m.w
  rw [← s.deps] at hout hin
  obtain ⟨outV, ho1, _, ho2⟩ := hout v hv
  obtain ⟨inU, hi1, _, hi2⟩ := hin u hu
  unfold calcFixable
  rw [hd]
  dsimp only
  rw [ho1]; dsimp only; rw [hi1]
  refine ⟨_, rfl, ?_⟩
  have hone' := hone
  rw [ht.val a ha u hu v hv] at hone'
  have huse : own u = a ∧ nxt P.flatten u = v := by by_contra hcon; rw [if_neg hcon] at hone'; norm_num at hone'
  obtain ⟨hou, hnx⟩ := huse
  have hown : ∀ y < m.n, y ∉ m.starts → own (pv y) = own y := by
    intro y hy hs
    have : Uses m.starts m.ends P (own (pv y)) (pv y) y :=
      (uses_iff hc hl _ _ _).2 ⟨(ho _ (ht.pvLt y hy) _).1 rfl, ht.nxpv y hy⟩
    obtain ⟨p, hp, hm⟩ := uses_enter hs this
    exact ((ho y hy _).2 ⟨p, hp, hm⟩).symm
  have hpv : pv v = u := by rw [← hnx]; exact ht.pvnx u hu
  have hov : own v = a := by
    rcases hvs with hvs | h1
    · rw [← hown v hv hvs, hpv, hou]
    · have := ht.ownLt v hv; omega
  -- arcs into and out of a node of agent `a` that is no start are not used by other agents
  have hinto : ∀ aa y z, aa < m.starts.length → y < m.n → z < m.n → y ∉ m.starts → own y = a → aa ≠ a → x (varId m.n aa z y) = 0 := by
    intro aa y z haa hy hz hys hoy hne
    rw [ht.val aa haa z hz y hy, if_neg]
    rintro ⟨e1, e2⟩
    have : pv y = z := by rw [← e2]; exact ht.pvnx z hz
    rw [← hown y hy hys, this, e1] at hoy
    exact hne hoy
  have houtof : ∀ aa y z, aa < m.starts.length → y < m.n → z < m.n → own y = a → aa ≠ a → x (varId m.n aa y z) = 0 := by
    intro aa y z haa hy hz hoy hne
    rw [ht.val aa haa y hy z hz, if_neg]
    rintro ⟨e1, _⟩
    exact hne (e1.symm.trans hoy)
  have hdep : ∀ y z, DepIn m.n m.w y z → own y = own z := by
    intro y z hyz
    obtain ⟨b, p, hp, _, h1, h2⟩ := dep_path hi hf hyz
    rw [(ho y hyz.1 b).2 ⟨p, hp, h1⟩, (ho z hyz.2.1 b).2 ⟨p, hp, h2⟩]
  intro i hmem
  obtain ⟨aa, haa, hmem⟩ := List.mem_flatMap.1 hmem
  have haa := List.mem_range.1 haa
  have harcs : ∀ d, d < m.n → d ∉ m.starts → own d = a → aa ≠ a → ∀ j ∈ arcsAt m.n aa d, x j = 0 := by
    intro d hdn hds hod hne j hj
    obtain ⟨y, hy, hj⟩ := List.mem_flatMap.1 hj
    have hy := List.mem_range.1 hy
    simp only [List.mem_cons, List.not_mem_nil, or_false] at hj
    rcases hj with rfl | rfl
    · exact hinto aa d y haa hdn hy hds hod hne
    · exact houtof aa d y haa hdn hy hod hne
  unfold fixableFor at hmem
  simp only [List.mem_append] at hmem
  rcases hmem with ((((hm | hm) | hm) | hm) | hm) | hm
  · split at hm
    · rename_i hne
      rw [List.mem_singleton.1 hm]
      exact houtof aa u v haa hu hv hou hne
    · simp at hm
  · obtain ⟨vv, hvv, rfl⟩ := List.mem_map.1 hm
    obtain ⟨h1, h2⟩ := List.mem_filter.1 hvv
    rw [ht.val aa haa u hu vv (List.mem_range.1 h1), if_neg]
    rintro ⟨_, e⟩
    simp at h2
    exact h2 (e.symm.trans hnx)
  · obtain ⟨uu, huu, rfl⟩ := List.mem_map.1 hm
    obtain ⟨h1, h2⟩ := List.mem_filter.1 huu
    rw [ht.val aa haa uu (List.mem_range.1 h1) v hv, if_neg]
    rintro ⟨_, e⟩
    simp at h2
    apply h2
    rw [← ht.pvnx uu (List.mem_range.1 h1), e, hpv]
  · split at hm
    · rename_i hcnd
      obtain ⟨y, hy, rfl⟩ := List.mem_map.1 hm
      exact hinto aa u y haa hu (List.mem_range.1 hy) hcnd.1 hou hcnd.2
    · simp at hm
  · split at hm
    · rename_i hcnd
      obtain ⟨y, hy, rfl⟩ := List.mem_map.1 hm
      exact houtof aa v y haa hv (List.mem_range.1 hy) hov hcnd.2
    · simp at hm
  · split at hm
    · rename_i hne
      rcases List.mem_append.1 hm with hm | hm
      · obtain ⟨d, hdm, hm⟩ := List.mem_flatMap.1 hm
        have hD := (ho2 d).1 (List.mem_filter.1 hdm).1
        exact harcs d hD.2.1 (fun hs => hi.noIn d hs v hD) (by rw [← hdep v d hD, hov]) hne i hm
      · obtain ⟨d, hdm, hm⟩ := List.mem_flatMap.1 hm
        obtain ⟨hdm, hds⟩ := List.mem_filter.1 hdm
        have hD := (hi2 d).1 hdm
        exact harcs d hD.1 (by simpa using hds) (by rw [hdep d u hD, hou]) hne i hm
    · simp at hm

/-- **C37 is false in full**: the arc from agent 0's end to agent 1's start is used by every solution, but
as its consequence all arcs out of agent 1's start are forbidden to agent 1. -/
theorem C37_refuted : ∃ (rows : Nat) (w : Weights) (starts ends : List Nat) (m : WM) (P : Paths) (id : Nat) (l : List Nat),
    WM.make rows rows w starts ends = .ok m ∧ Feasible m.n m.starts m.ends (DepIn m.n m.w) P ∧
    calcFixable m.n m.starts m.ends m.deps id = .ok l ∧
    ∀ x, IsPoint m.n m.starts m.ends P x → x id = 1 ∧ ∃ i ∈ l, x i = 1 := by
  have key : testOk (WM.make 4 4 (fun _ _ => 1) [0, 2] [1, 3]) (fun m =>
      decide (m.n = 4 ∧ m.starts = [0, 2] ∧ m.ends = [1, 3]) && feasB m [[0, 1], [2, 3]] &&
      testOk (calcFixable m.n m.starts m.ends m.deps 6) (fun l => decide (27 ∈ l))) = true := by decide +kernel
  obtain ⟨m, hm, k⟩ := testOk_iff key
  rw [Bool.and_eq_true, Bool.and_eq_true] at k
  obtain ⟨hn, hs, he⟩ := of_decide_eq_true k.1.1
  obtain ⟨l, hl, k3⟩ := testOk_iff k.2
  have k3 := of_decide_eq_true k3
  refine ⟨4, _, [0, 2], [1, 3], m, [[0, 1], [2, 3]], 6, l, hm, feasB_sound k.1.2, hl, ?_⟩
  intro x hx
  rw [hn, hs, he] at hx
  refine ⟨(hx 0 1 2 (by simp) (by simp) (by simp)).1 (Or.inr ⟨by simp, rfl, rfl⟩), 27, k3, ?_⟩
  exact (hx 1 2 3 (by simp) (by simp) (by simp)).1 (Or.inl ⟨[2, 3], rfl, [], [], rfl⟩)

/-! ### C11 -/

/-- a point obeys the fixings of a node -/
def ObeysNode (x : Nat → ℚ) (d : SData) : Prop := (∀ i ∈ d.fixed0, x i = 0) ∧ (∀ i ∈ d.fixed1, x i = 1)

/-- variables into a start are never fractional at a point that satisfies the rows -/
theorem start_not_fractional (h : WM.make rows cols w starts ends = .ok m) {y : Nat → ℚ}
    (hy : ∀ c ∈ buildConstraints m.n m.starts m.ends m.deps.arcs, c.Sat y) (hpos : ∀ i < m.starts.length * m.n * m.n, 0 ≤ y i)
    {a u v : Nat} (ha : a < m.starts.length) (hu : u < m.n) (hv : v < m.n)
    (hfr : 0 < y (varId m.n a u v) ∧ y (varId m.n a u v) < 1) : v ∉ m.starts := by
  intro hs
  have r := (rows_iff _ _ _ _ _).1 hy
  have hi := WM.inst h
  obtain ⟨b, hb⟩ := List.mem_iff_getElem?.1 hs
  obtain ⟨hbl, _⟩ := List.getElem?_eq_some_iff.1 hb
  -- the previous agent
  have hprev : ∃ c, c < m.starts.length ∧ (c + 1) % m.starts.length = b := by
    rcases Nat.eq_zero_or_pos b with h0 | h0
    · exact ⟨m.starts.length - 1, by omega, by rw [Nat.sub_add_cancel (by omega), Nat.mod_self, h0]⟩
    · exact ⟨b - 1, by omega, by rw [Nat.sub_add_cancel h0, Nat.mod_eq_of_lt hbl]⟩
  obtain ⟨c, hcl, hcb⟩ := hprev
  have hart := r.art c hcl
  have hsv : m.starts.getD ((c + 1) % m.starts.length) 0 = v := by rw [hcb, List.getD_eq_getElem?_getD, hb]; rfl
  rw [hsv] at hart
  set e := m.ends.getD c 0 with hed
  have hen : e < m.n := hi.lt e (List.mem_append_right _ (List.mem_of_getElem? (getElem?_getD (hi.lenEq ▸ hcl))))
  have hdeg := r.degIn v hv
  have hnn : ∀ b < m.starts.length, ∀ z ∈ range m.n, 0 ≤ y (varId m.n b z v) := fun b hb z hz =>
    hpos _ ((C53_numbering_bijective m.starts.length m.n).1 b z v hb (Finset.mem_range.1 hz) hv).1
  have hin0 : ∀ b ∈ range m.starts.length, 0 ≤ inA m.n y b v := fun b hb => Finset.sum_nonneg (hnn b (Finset.mem_range.1 hb))
  obtain ⟨f1, f2⟩ := hfr
  by_cases hca : c = a
  · subst hca
    by_cases hue : u = e
    · subst hue; rw [hart] at f2; exact absurd f2 (lt_irrefl _)
    · have h1 : y (varId m.n c e v) + y (varId m.n c u v) ≤ inA m.n y c v := by
        unfold inA
        have := Finset.sum_le_sum_of_subset_of_nonneg (f := fun u => y (varId m.n c u v)) (s := {e, u}) (t := range m.n)
          (by intro z hz; simp at hz; rcases hz with rfl | rfl <;> simpa using ‹_›) (fun z hz _ => hnn c hcl z hz)
        rwa [Finset.sum_pair (fun h => hue h.symm)] at this
      have h2 : inA m.n y c v ≤ ∑ a ∈ range m.starts.length, inA m.n y a v :=
        Finset.single_le_sum (f := fun a => inA m.n y a v) hin0 (Finset.mem_range.2 hcl)
      linarith
  · have h1 : y (varId m.n c e v) ≤ inA m.n y c v :=
      Finset.single_le_sum (f := fun u => y (varId m.n c u v)) (hnn c hcl) (Finset.mem_range.2 hen)
    have h1' : y (varId m.n a u v) ≤ inA m.n y a v :=
      Finset.single_le_sum (f := fun u => y (varId m.n a u v)) (hnn a ha) (Finset.mem_range.2 hu)
    have h2 : inA m.n y c v + inA m.n y a v ≤ ∑ a ∈ range m.starts.length, inA m.n y a v := by
      have := Finset.sum_le_sum_of_subset_of_nonneg (f := fun a => inA m.n y a v) (s := {c, a}) (t := range m.starts.length)
          (by intro z hz; simp at hz; rcases hz with rfl | rfl <;> simpa using ‹_›) (fun b hb _ => hin0 b hb)
      rwa [Finset.sum_pair hca] at this
    linarith

/-- **C11.** Let the branching variable `id` be fractional (strictly between 0 and 1) at a point `y` that satisfies the rows of the
LP.  Every feasible solution that obeys the parent's fixings obeys those of exactly one of the two
children, and whatever point obeys a child's fixings obeys the parent's; both children carry the parent's
bound. -/
theorem C11_branching_partitions (h : WM.make rows cols w starts ends = .ok m) {y : Nat → ℚ}
    (hy : ∀ c ∈ buildConstraints m.n m.starts m.ends m.deps.arcs, c.Sat y) (hpos : ∀ i < m.starts.length * m.n * m.n, 0 ≤ y i)
    {id : Nat} (hid : id < m.starts.length * m.n * m.n) (hfr : 0 < y id ∧ y id < 1) (lb : ℚ) (f0 f1 : List Nat) :
    ∃ rec0 c0 c1, calcFixable m.n m.starts m.ends m.deps id = .ok rec0 ∧ branchNodes lb f0 f1 id rec0 = [c0, c1] ∧
      c0.lb = lb ∧ c1.lb = lb ∧
      (∀ P x, Feasible m.n m.starts m.ends (DepIn m.n m.w) P → IsPoint m.n m.starts m.ends P x →
        ObeysNode x { lb := lb, fixed0 := f0, fixed1 := f1 } →
        (ObeysNode x c0 ∧ ¬ ObeysNode x c1) ∨ (ObeysNode x c1 ∧ ¬ ObeysNode x c0)) ∧
      (∀ x, ObeysNode x c0 ∨ ObeysNode x c1 → ObeysNode x { lb := lb, fixed0 := f0, fixed1 := f1 }) := by
  obtain ⟨a, u, v, ha, hu, hv, hvar, hdec⟩ := (C53_numbering_bijective m.starts.length m.n).2 id hid
  have hvs : v ∉ m.starts := start_not_fractional h hy hpos ha hu hv (by rw [hvar]; exact hfr)
  have s := (WM.make_ok h).1
  obtain ⟨_, _, hout, hin, _, _⟩ := C16_queries_agree m.n m.w
  rw [← s.deps] at hout hin
  obtain ⟨outV, ho1, _, _⟩ := hout v hv
  obtain ⟨inU, hi1, _, _⟩ := hin u hu
  obtain ⟨rec0, hrec⟩ : ∃ rec0, calcFixable m.n m.starts m.ends m.deps id = .ok rec0 := by
    unfold calcFixable; rw [hdec]; dsimp only; rw [ho1]; dsimp only; rw [hi1]; exact ⟨_, rfl⟩
  refine ⟨rec0, _, _, hrec, rfl, rfl, rfl, ?_, ?_⟩
  · intro P x hf hx hob
    have h01 := hx a u v ha hu hv
    rw [show a * m.n * m.n + u * m.n + v = id from hvar] at h01
    by_cases huse : Uses m.starts m.ends P a u v
    · right
      have h1 := h01.1 huse
      obtain ⟨l, hl, hz⟩ := C37_implied_fixings_partial h hf hx hdec ha hu hv (Or.inl hvs) (by rw [hvar]; exact h1)
      rw [hrec] at hl; cases hl
      refine ⟨⟨?_, ?_⟩, ?_⟩
      · intro i hi
        rcases List.mem_append.1 hi with hi | hi
        · exact hob.1 i hi
        · exact hz i hi
      · intro i hi
        rcases List.mem_append.1 hi with hi | hi
        · exact hob.2 i hi
        · rw [List.mem_singleton.1 hi]; exact h1
      · intro hcon
        have := hcon.1 id (List.mem_append_right _ (List.mem_singleton.2 rfl))
        rw [h1] at this; norm_num at this
    · left
      have h0 := h01.2 huse
      refine ⟨⟨?_, hob.2⟩, ?_⟩
      · intro i hi
        rcases List.mem_append.1 hi with hi | hi
        · exact hob.1 i hi
        · rw [List.mem_singleton.1 hi]; exact h0
      · intro hcon
        have := hcon.2 id (List.mem_append_right _ (List.mem_singleton.2 rfl))
        rw [h0] at this; norm_num at this
  · rintro x (hc | hc)
    · exact ⟨fun i hi => hc.1 i (List.mem_append_left _ hi), hc.2⟩
    · exact ⟨fun i hi => hc.1 i (List.mem_append_left _ hi), fun i hi => hc.2 i (List.mem_append_left _ hi)⟩

/-! Non-vacuity of C11: a fractional point (the mean of the two solutions 0,1,2,3 and 0,2,1,3) that satisfies
all rows; of C37: an arc of the `niExW` instance with implied fixings. -/

def c11Y : Nat → ℚ := fun i => if i = 12 then 1 else if i ∈ [1, 2, 6, 9, 11, 7] then 1 / 2 else 0

example : ∃ (m : WM), WM.make 4 4 (fun _ _ => 1) [0] [3] = .ok m ∧ 6 < m.starts.length * m.n * m.n ∧
    (∀ c ∈ buildConstraints m.n m.starts m.ends m.deps.arcs, c.Sat c11Y) ∧ (∀ i, 0 ≤ c11Y i) ∧ 0 < c11Y 6 ∧ c11Y 6 < 1 := by
  have key : testOk (WM.make 4 4 (fun _ _ => 1) [0] [3]) (fun m => decide (6 < m.starts.length * m.n * m.n) &&
      (buildConstraints m.n m.starts m.ends m.deps.arcs).all fun c => decide (c.Sat c11Y)) = true := by decide +kernel
  obtain ⟨m, hm, k⟩ := testOk_iff key
  rw [Bool.and_eq_true] at k
  refine ⟨m, hm, of_decide_eq_true k.1, ?_, ?_, ?_⟩
  · intro c hc; exact of_decide_eq_true (List.all_eq_true.1 k.2 c hc)
  · intro i; unfold c11Y; split; · norm_num
    split <;> norm_num
  · constructor <;> norm_num [c11Y]

example : ∃ (m : WM) (P : Paths) (x : Nat → ℚ) (l : List Nat), WM.make 6 6 niExW [0, 0] [0, 4] = .ok m ∧
    Feasible m.n m.starts m.ends (DepIn m.n m.w) P ∧ IsPoint m.n m.starts m.ends P x ∧
    x (varId m.n 0 3 1) = 1 ∧ 1 ∉ m.starts ∧ calcFixable m.n m.starts m.ends m.deps (varId m.n 0 3 1) = .ok l ∧ l.length > 20 := by
  have key : testOk (WM.make 6 6 niExW [0, 0] [0, 4]) (fun m =>
      decide (m.n = 8 ∧ 1 ∉ m.starts ∧ m.starts.length = 2) && feasB m [[0, 3, 1, 5, 6], [7, 2, 4]] &&
      testOk (calcFixable m.n m.starts m.ends m.deps (varId m.n 0 3 1)) (fun l => decide (l.length > 20))) = true := by decide +kernel
  obtain ⟨m, hm, k⟩ := testOk_iff key
  rw [Bool.and_eq_true, Bool.and_eq_true] at k
  obtain ⟨hn, ha, hA⟩ := of_decide_eq_true k.1.1
  obtain ⟨l, hl, k3⟩ := testOk_iff k.2
  refine ⟨m, _, pointOf _ _ _ _, l, hm, feasB_sound k.1.2, pointOf_isPoint _ _ _ _, ?_, ha, hl, of_decide_eq_true k3⟩
  exact (pointOf_isPoint m.n m.starts m.ends [[0, 3, 1, 5, 6], [7, 2, 4]] 0 3 1 (by omega) (by omega) (by omega)).1
    (Or.inl ⟨_, rfl, [0], [5, 6], rfl⟩)

/-! ### C45 -/

/-- all ids belong to binary variables -/
def LPModel.Bin (M : LPModel) (l : List Nat) : Prop := ∀ i ∈ l, i < M.nBin

/-- consistent tables with a column for every binary variable -/
structure LPModel.Wf (M : LPModel) : Prop where
  lo : M.nBin ≤ M.lo.length
  up : M.nBin ≤ M.up.length

theorem setBounds_spec {M : LPModel} (hw : M.Wf) {id : Nat} (hid : id < M.nBin) (l u : ℚ) :
    ∃ M', M.setBounds id l u = .ok M' ∧ M'.Wf ∧ M'.nBin = M.nBin ∧ M'.nVars = M.nVars ∧
      ∀ i, M'.bounds i = if i = id then (some l, some u) else M.bounds i := by
  unfold LPModel.setBounds
  have h1 : id < M.lo.length := by have := hw.lo; omega
  have h2 : id < M.up.length := by have := hw.up; omega
  rw [if_pos ⟨h1, h2⟩]
  refine ⟨_, rfl, ⟨by simpa using hw.lo, by simpa using hw.up⟩, rfl, rfl, ?_⟩
  intro i
  unfold LPModel.bounds
  dsimp only
  by_cases h : i = id
  · subst h; simp [h1, h2]
  · rw [if_neg h, List.getElem?_set_ne (fun e => h e.symm), List.getElem?_set_ne (fun e => h e.symm)]

theorem fixAll_spec (c : ℚ) : ∀ (l : List Nat) (M : LPModel), M.Wf → M.Bin l →
    ∃ M', LPModel.fixAll c l M = .ok M' ∧ M'.Wf ∧ M'.nBin = M.nBin ∧ M'.nVars = M.nVars ∧
      ∀ i, M'.bounds i = if i ∈ l then (some c, some c) else M.bounds i
  | [], M, hw, _ => ⟨M, rfl, hw, rfl, rfl, by simp⟩
  | v :: vs, M, hw, hb => by
    obtain ⟨M1, e1, w1, b1, n1, s1⟩ := setBounds_spec hw (hb v List.mem_cons_self) c c
    obtain ⟨M2, e2, w2, b2, n2, s2⟩ := fixAll_spec c vs M1 w1 (fun i hi => by rw [b1]; exact hb i (List.mem_cons_of_mem _ hi))
    refine ⟨M2, by simp only [LPModel.fixAll, e1, e2], w2, by rw [b2, b1], by rw [n2, n1], ?_⟩
    intro i
    rw [s2, s1]
    by_cases h1 : i ∈ vs <;> by_cases h2 : i = v <;> simp [h1, h2]

theorem unfixAll_spec : ∀ (l : List Nat) (M : LPModel), M.Wf → M.Bin l →
    ∃ M', LPModel.unfixAll l M = .ok M' ∧ M'.Wf ∧ M'.nBin = M.nBin ∧ M'.nVars = M.nVars ∧
      ∀ i, M'.bounds i = if i ∈ l then (some 0, some 1) else M.bounds i
  | [], M, hw, _ => ⟨M, rfl, hw, rfl, rfl, by simp⟩
  | v :: vs, M, hw, hb => by
    obtain ⟨M1, e1, w1, b1, n1, s1⟩ := setBounds_spec hw (hb v List.mem_cons_self) 0 1
    obtain ⟨M2, e2, w2, b2, n2, s2⟩ := unfixAll_spec vs M1 w1 (fun i hi => by rw [b1]; exact hb i (List.mem_cons_of_mem _ hi))
    refine ⟨M2, by simp only [LPModel.unfixAll, e1, e2], w2, by rw [b2, b1], by rw [n2, n1], ?_⟩
    intro i
    rw [s2, s1]
    by_cases h1 : i ∈ vs <;> by_cases h2 : i = v <;> simp [h1, h2]

/-- what a worker does in one round of its loop, as far as bounds are concerned -/
inductive FixOp where
  | node (f0 f1 : List Nat)      -- an ordinary node with these fixings
  | result                       -- a result node
  | reduced (e0 e1 : List Nat)   -- reduced-cost fixing after an ordinary node
  deriving Repr

def FixOp.ids : FixOp → List Nat
  | .node f0 f1 => f0 ++ f1
  | .result => []
  | .reduced e0 e1 => e0 ++ e1

def FixState.step (s : FixState) : FixOp → Except Err FixState
  | .node f0 f1 => s.load f0 f1
  | .result => s.skip
  | .reduced e0 e1 => .ok (s.remember e0 e1)

def FixState.run (s : FixState) : List FixOp → Except Err FixState
  | [] => .ok s
  | o :: os => match s.step o with
    | .error e => .error e
    | .ok s' => FixState.run s' os

/-- invariant: whatever is not remembered has the bounds it started with -/
structure FixInv (M0 : LPModel) (s : FixState) : Prop where
  wf : s.model.Wf
  nBin : s.model.nBin = M0.nBin
  nVars : s.model.nVars = M0.nVars
  bin0 : M0.Bin s.fixed0
  bin1 : M0.Bin s.fixed1
  free : ∀ i, i ∉ s.fixed0 → i ∉ s.fixed1 → s.model.bounds i = M0.bounds i

theorem unfix_both {M0 : LPModel} (h01 : ∀ i < M0.nBin, M0.bounds i = (some 0, some 1)) {s : FixState} (h : FixInv M0 s) :
    ∃ M1 M2, LPModel.unfixAll s.fixed0 s.model = .ok M1 ∧ LPModel.unfixAll s.fixed1 M1 = .ok M2 ∧ M2.Wf ∧
      M2.nBin = M0.nBin ∧ M2.nVars = M0.nVars ∧ ∀ i, M2.bounds i = M0.bounds i := by
  obtain ⟨M1, e1, w1, b1, n1, s1⟩ := unfixAll_spec s.fixed0 s.model h.wf (fun i hi => by rw [h.nBin]; exact h.bin0 i hi)
  obtain ⟨M2, e2, w2, b2, n2, s2⟩ := unfixAll_spec s.fixed1 M1 w1 (fun i hi => by rw [b1, h.nBin]; exact h.bin1 i hi)
  refine ⟨M1, M2, e1, e2, w2, by rw [b2, b1, h.nBin], by rw [n2, n1, h.nVars], ?_⟩
  intro i
  rw [s2, s1]
  by_cases hi1 : i ∈ s.fixed1
  · rw [if_pos hi1, h01 i (h.bin1 i hi1)]
  · rw [if_neg hi1]
    by_cases hi0 : i ∈ s.fixed0
    · rw [if_pos hi0, h01 i (h.bin0 i hi0)]
    · rw [if_neg hi0, h.free i hi0 hi1]

theorem load_spec {M0 : LPModel} (h01 : ∀ i < M0.nBin, M0.bounds i = (some 0, some 1)) {s : FixState} (h : FixInv M0 s)
    {f0 f1 : List Nat} (hb0 : M0.Bin f0) (hb1 : M0.Bin f1) :
    ∃ s', s.load f0 f1 = .ok s' ∧ FixInv M0 s' ∧
      ∀ i, s'.model.bounds i = if i ∈ f1 then (some 1, some 1) else if i ∈ f0 then (some 0, some 0) else M0.bounds i := by
  obtain ⟨M1, M2, e1, e2, w2, b2, n2, s2⟩ := unfix_both h01 h
  obtain ⟨M3, e3, w3, b3, n3, s3⟩ := fixAll_spec 0 f0 M2 w2 (fun i hi => by rw [b2]; exact hb0 i hi)
  obtain ⟨M4, e4, w4, b4, n4, s4⟩ := fixAll_spec 1 f1 M3 w3 (fun i hi => by rw [b3, b2]; exact hb1 i hi)
  have hload : s.load f0 f1 = .ok ⟨M4, f0, f1⟩ := by
    simp [FixState.load, e1, e2, e3, e4, bind, Except.bind, pure, Except.pure]
  have hbd : ∀ i, M4.bounds i = if i ∈ f1 then (some 1, some 1) else if i ∈ f0 then (some 0, some 0) else M0.bounds i := by
    intro i; rw [s4, s3, s2]
  refine ⟨_, hload, ⟨w4, by rw [b4, b3, b2], by rw [n4, n3, n2], hb0, hb1, ?_⟩, hbd⟩
  intro i hi0 hi1
  have := hbd i
  rw [if_neg hi1, if_neg hi0] at this
  exact this

theorem run_inv {M0 : LPModel} (h01 : ∀ i < M0.nBin, M0.bounds i = (some 0, some 1)) : ∀ (ops : List FixOp) (s : FixState), FixInv M0 s →
    (∀ o ∈ ops, M0.Bin o.ids) → ∃ s', s.run ops = .ok s' ∧ FixInv M0 s'
  | [], s, h, _ => ⟨s, rfl, h⟩
  | o :: os, s, h, hb => by
    have ho := hb o List.mem_cons_self
    have hs : ∃ s', s.step o = .ok s' ∧ FixInv M0 s' := by
      cases o with
      | node f0 f1 =>
        obtain ⟨s', e, hi, _⟩ := load_spec h01 h (f0 := f0) (f1 := f1) (fun i hi => ho i (List.mem_append_left _ hi))
          (fun i hi => ho i (List.mem_append_right _ hi))
        exact ⟨s', e, hi⟩
      | result =>
        obtain ⟨M1, M2, e1, e2, w2, b2, n2, s2⟩ := unfix_both h01 h
        refine ⟨⟨M2, s.fixed0, s.fixed1⟩, ?_, ⟨w2, b2, n2, h.bin0, h.bin1, fun i _ _ => s2 i⟩⟩
        simp [FixState.step, FixState.skip, e1, e2, bind, Except.bind, pure, Except.pure]
      | reduced e0 e1 =>
        refine ⟨_, rfl, ⟨h.wf, h.nBin, h.nVars, ?_, ?_, ?_⟩⟩
        · intro i hi
          rcases List.mem_append.1 hi with hi | hi
          · exact h.bin0 i hi
          · exact ho i (List.mem_append_left _ hi)
        · intro i hi
          rcases List.mem_append.1 hi with hi | hi
          · exact h.bin1 i hi
          · exact ho i (List.mem_append_right _ hi)
        · intro i h0 h1
          exact h.free i (fun hm => h0 (List.mem_append_left _ hm)) (fun hm => h1 (List.mem_append_left _ hm))
    obtain ⟨s', e, hi⟩ := hs
    obtain ⟨s'', e', hi'⟩ := run_inv h01 os s' hi (fun o' ho' => hb o' (List.mem_cons_of_mem _ ho'))
    exact ⟨s'', by simp only [FixState.run, e, e'], hi'⟩

/-- **C45.** Start from an LP in which all binary variables have the bounds `[0, 1]` and nothing is
remembered, let the worker process any sequence of nodes, result nodes and reduced-cost fixings (of binary
variables), and load one more node: then no operation touches a column that does not exist, and every
variable has exactly the bounds this node gives it: `[1, 1]` if it is in the second list, else `[0, 0]` if
it is in the first, and otherwise what it had at the very beginning. -/
theorem C45_own_fixings_only {M0 : LPModel} (hw : M0.Wf) (h01 : ∀ i < M0.nBin, M0.bounds i = (some 0, some 1))
    (ops : List FixOp) (hops : ∀ o ∈ ops, M0.Bin o.ids) (f0 f1 : List Nat) (hb0 : M0.Bin f0) (hb1 : M0.Bin f1) :
    ∃ s s', FixState.run ⟨M0, [], []⟩ ops = .ok s ∧ s.load f0 f1 = .ok s' ∧
      ∀ i, s'.model.bounds i = if i ∈ f1 then (some 1, some 1) else if i ∈ f0 then (some 0, some 0) else M0.bounds i := by
  have h0 : FixInv M0 ⟨M0, [], []⟩ := ⟨hw, rfl, rfl, by simp [LPModel.Bin], by simp [LPModel.Bin], fun _ _ _ => rfl⟩
  obtain ⟨s, e, hi⟩ := run_inv h01 ops _ h0 hops
  obtain ⟨s', e', _, hbd⟩ := load_spec h01 hi hb0 hb1
  exact ⟨s, s', e, e', hbd⟩

example : ∃ M, LPModel.make 8 = .ok M ∧ M.Wf ∧ ∀ i < M.nBin, M.bounds i = (some 0, some 1) := by
  obtain ⟨M, h1, h2, h3, h4, _⟩ := C53_columns 8 (by norm_num) 0 1
  refine ⟨M, h1, ⟨?_, ?_⟩, ?_⟩
  · rw [h3]; by_contra hc; have := (h4 7 (by norm_num)).1
    rw [List.getElem?_eq_none (by omega)] at this; simp at this
  · rw [h3]; by_contra hc; have := (h4 7 (by norm_num)).2
    rw [List.getElem?_eq_none (by omega)] at this; simp at this
  · intro i hi; rw [h3] at hi; unfold LPModel.bounds; rw [(h4 i hi).1, (h4 i hi).2]

end Mtsp
