import Verif.Proof.SearchRounded

/-! Instances that are small enough for double precision. -/

namespace Mtsp
open Finset

/-! ### size and number of terms of the objective function -/

/-- the sum of the absolute values of the terms of a list of coefficients -/
def absSum (y : Nat → ℚ) (l : List (Nat × ℚ)) : ℚ := (l.map fun p => |p.2 * y p.1|).sum

theorem upsert_length (id : Nat) (c : ℚ) : ∀ l : List (Nat × ℚ), (LinComp.upsert id c l).length ≤ l.length + 1
  | [] => by simp [LinComp.upsert]
  | (i, d) :: l => by
    unfold LinComp.upsert
    split
    · simp
    · have := upsert_length id c l; simp; omega

theorem upsert_abs (y : Nat → ℚ) (id : Nat) (c : ℚ) : ∀ l : List (Nat × ℚ), absSum y (LinComp.upsert id c l) ≤ absSum y l + |c * y id|
  | [] => by simp [LinComp.upsert, absSum]
  | (i, d) :: l => by
    unfold LinComp.upsert
    split
    · rename_i h
      subst h
      simp only [absSum, List.map_cons, List.sum_cons]
      have : |(d + c) * y i| ≤ |d * y i| + |c * y i| := by rw [add_mul]; exact abs_add_le _ _
      linarith
    · have := upsert_abs y id c l
      simp only [absSum, List.map_cons, List.sum_cons] at this ⊢
      linarith

theorem addTerm_bounds (y : Nat → ℚ) (c : LinComp) (a : ℚ) (i : Nat) :
    (c.addAssign (.smul a (.ofVar i))).coefs.length ≤ c.coefs.length + 1 ∧
    absSum y (c.addAssign (.smul a (.ofVar i))).coefs ≤ absSum y c.coefs + |a * y i| := by
  have h1 := upsert_length i (1 * a) c.coefs
  have h2 := upsert_abs y i (1 * a) c.coefs
  simp only [LinComp.addAssign, LinComp.smul, LinComp.ofVar, List.map_cons, List.map_nil, List.foldl_cons, List.foldl_nil]
  rw [one_mul] at h1 h2 ⊢
  exact ⟨h1, h2⟩

theorem agentCost_bounds (N : Nat) (w : Weights) (a : Nat) (c : LinComp) (y : Nat → ℚ) :
    (addAgentCost N w a c).coefs.length ≤ c.coefs.length + N * N ∧
    absSum y (addAgentCost N w a c).coefs ≤ absSum y c.coefs + ∑ u ∈ range N, ∑ v ∈ range N, |w u v * y (varId N a u v)| := by
  have inner : ∀ (u : Nat) (l : List Nat) (c : LinComp),
      (l.foldl (fun c v => c.addAssign (.smul (w u v) (.ofVar (varId N a u v)))) c).coefs.length ≤ c.coefs.length + l.length ∧
      absSum y (l.foldl (fun c v => c.addAssign (.smul (w u v) (.ofVar (varId N a u v)))) c).coefs ≤
        absSum y c.coefs + (l.map fun v => |w u v * y (varId N a u v)|).sum := by
    intro u l
    induction l with
    | nil => intro c; simp
    | cons v l ih =>
      intro c
      rw [List.foldl_cons]
      obtain ⟨h1, h2⟩ := ih (c.addAssign (.smul (w u v) (.ofVar (varId N a u v))))
      obtain ⟨h3, h4⟩ := addTerm_bounds y c (w u v) (varId N a u v)
      rw [List.length_cons, List.map_cons, List.sum_cons]
      exact ⟨by omega, by linarith⟩
  have outer : ∀ (l : List Nat) (c : LinComp),
      (l.foldl (fun c u => (List.range N).foldl (fun c v => c.addAssign (.smul (w u v) (.ofVar (varId N a u v)))) c) c).coefs.length ≤
        c.coefs.length + l.length * N ∧
      absSum y (l.foldl (fun c u => (List.range N).foldl (fun c v => c.addAssign (.smul (w u v) (.ofVar (varId N a u v)))) c) c).coefs ≤
        absSum y c.coefs + (l.map fun u => ∑ v ∈ range N, |w u v * y (varId N a u v)|).sum := by
    intro l
    induction l with
    | nil => intro c; simp
    | cons u l ih =>
      intro c
      rw [List.foldl_cons]
      obtain ⟨h1, h2⟩ := ih ((List.range N).foldl (fun c v => c.addAssign (.smul (w u v) (.ofVar (varId N a u v)))) c)
      obtain ⟨h3, h4⟩ := inner u (List.range N) c
      rw [list_sum_range] at h4
      rw [List.length_range] at h3
      rw [List.length_cons, List.map_cons, List.sum_cons, Nat.add_mul]
      exact ⟨by omega, by linarith⟩
  have := outer (List.range N) c
  rw [list_sum_range, List.length_range] at this
  exact this

theorem sumObjective_bounds (A N : Nat) (w : Weights) (y : Nat → ℚ) :
    (createSumObjective A N w).coefs.length ≤ A * N * N ∧
    absSum y (createSumObjective A N w).coefs ≤ ∑ a ∈ range A, ∑ u ∈ range N, ∑ v ∈ range N, |w u v * y (varId N a u v)| := by
  have outer : ∀ (l : List Nat) (c : LinComp),
      (l.foldl (fun c a => addAgentCost N w a c) c).coefs.length ≤ c.coefs.length + l.length * (N * N) ∧
      absSum y (l.foldl (fun c a => addAgentCost N w a c) c).coefs ≤
        absSum y c.coefs + (l.map fun a => ∑ u ∈ range N, ∑ v ∈ range N, |w u v * y (varId N a u v)|).sum := by
    intro l
    induction l with
    | nil => intro c; simp
    | cons a l ih =>
      intro c
      rw [List.foldl_cons]
      obtain ⟨h1, h2⟩ := ih (addAgentCost N w a c)
      obtain ⟨h3, h4⟩ := agentCost_bounds N w a c y
      rw [List.length_cons, List.map_cons, List.sum_cons, Nat.add_mul]
      exact ⟨by omega, by linarith⟩
  have := outer (List.range A) .zero
  rw [list_sum_range, List.length_range] at this
  unfold createSumObjective
  refine ⟨?_, ?_⟩
  · have h := this.1
    rw [show LinComp.zero.coefs.length = 0 from rfl, Nat.zero_add] at h
    rw [Nat.mul_assoc]; exact h
  · have h := this.2
    simpa [LinComp.zero, absSum] using h

/-! ### bounds -/

section
variable {e : BEnv} {rows : Nat} {w : Weights} {starts ends : List Nat} {W : Nat}

theorem SmallInstance.weight (hs : SmallInstance e.m.starts.length e.m.n W rows w) (g : e.Good rows w starts ends) {u v : Nat}
    (hu : u < e.m.n) (hv : v < e.m.n) : |e.m.w u v| ≤ W := by
  have h1 : (1 : ℚ) ≤ W := by exact_mod_cast hs.one
  have hlt := (C18_own_starts_and_ends g.make).2.2.2.2.2.2.2.2.1
  have hup : e.m.w u v ≤ W := by
    rcases C19_weights_mirror_input g.make u v hu hv with ⟨h, _⟩ | ⟨h, _⟩ | ⟨h, _, _⟩
    · rw [h]; linarith
    · rw [h]; linarith
    · rw [h]; exact hs.weights _ (hlt u hu) _ (hlt v hv)
  rw [abs_le]
  exact ⟨by linarith [(g.weight_range hu hv).1], hup⟩

/-- the values of the arcs add up to the number of nodes -/
theorem rows_total {N : Nat} {S E : List Nat} {arcs : List (Nat × Nat)} {x : Nat → ℚ} (h : LPRows N S E arcs x) :
    ∑ a ∈ range S.length, ∑ u ∈ range N, ∑ v ∈ range N, x (varId N a u v) = N := by
  rw [sum_comm]
  have : ∀ u ∈ range N, ∑ a ∈ range S.length, ∑ v ∈ range N, x (varId N a u v) = 1 := fun u hu => h.degOut u (mem_range.1 hu)
  rw [sum_congr rfl this]
  simp

/-- the objective value of an LP point -/
theorem SmallInstance.value (hs : SmallInstance e.m.starts.length e.m.n W rows w) (g : e.Good rows w starts ends) {x : Nat → ℚ} {ε : ℚ}
    (h0 : ∀ i < e.B, 0 ≤ x i) (hsum : ∑ a ∈ range e.m.starts.length, ∑ u ∈ range e.m.n, ∑ v ∈ range e.m.n, x (varId e.m.n a u v) ≤ e.m.n + ε) :
    ∑ a ∈ range e.m.starts.length, ∑ u ∈ range e.m.n, ∑ v ∈ range e.m.n, |e.m.w u v * x (varId e.m.n a u v)| ≤ W * (e.m.n + ε) := by
  have hW : (0 : ℚ) ≤ W := Nat.cast_nonneg W
  refine le_trans ?_ (mul_le_mul_of_nonneg_left hsum hW)
  rw [mul_sum]
  refine sum_le_sum fun a ha => ?_
  rw [mul_sum]
  refine sum_le_sum fun u hu => ?_
  rw [mul_sum]
  refine sum_le_sum fun v hv => ?_
  rw [mem_range] at ha hu hv
  have hx := h0 _ (show varId e.m.n a u v < e.B from varId_lt ha hu hv)
  rw [abs_mul, abs_of_nonneg hx]
  exact mul_le_mul_of_nonneg_right (hs.weight g hu hv) hx

/-- an answer of the LP solver with small noise can be evaluated in double precision -/
theorem SmallInstance.answer (hs : SmallInstance e.m.starts.length e.m.n W rows w) (g : e.Good rows w starts ends) (hm : e.mode = .sum)
    {wk : Worker} (hl : Loaded e wk) {y rc : Nat → ℚ} (h : LPAnswer.CorrectWithin (e.prob wk) (1 / 10 ^ 11) (.optimal y rc)) :
    LPAnswer.CorrectF (e.prob wk) (.optimal y rc) := by
  obtain ⟨hy, x, hx⟩ := h
  have hB : (e.prob wk).cols.nBin = e.B := by rw [← g.nBin]; exact hl.nBin
  have inb : ∀ z, (e.prob wk).InBounds z → ∀ i < e.B, 0 ≤ z i := by
    intro z hz i hi
    have : InBox e wk.fix.fixed0 wk.fix.fixed1 z := fun i hi l u hlu =>
      hz i (by rw [show (e.prob wk).cols.nVars = wk.fix.model.nVars from rfl, hl.nVars]; exact hi) l u (by rw [← hlu]; exact hl.box i)
    exact (this.bin g hi).1
  have hrows : LPRows e.m.n e.m.starts e.m.ends e.m.deps.arcs x := by
    rw [← rows_iff]
    intro c hc
    refine hx.admits.rows c (List.mem_append_left _ ?_)
    unfold BEnv.rows0
    exact List.mem_append_right _ hc
  have htot := rows_total hrows
  have hobj : e.obj = createSumObjective e.m.starts.length e.m.n e.m.w := by unfold BEnv.obj createObjective; rw [hm]
  -- the exact optimum
  have hxv := hs.value g (x := x) (ε := 0) (inb x hx.admits.bounds) (by rw [htot, add_zero])
  have hx15 : |e.obj.eval x| ≤ 2 ^ 15 := by
    rw [hobj, eval_sumObjective]
    refine (abs_sum_le_sum_abs _ _).trans ((sum_le_sum fun a _ => (abs_sum_le_sum_abs _ _).trans (sum_le_sum fun u _ => abs_sum_le_sum_abs _ _)).trans
      (hxv.trans ?_))
    have : ((e.m.n * W : Nat) : ℚ) ≤ ((2 ^ 15 : Nat) : ℚ) := by exact_mod_cast hs.cost
    push_cast at this
    linarith
  -- the returned point
  have hyt : ∑ a ∈ range e.m.starts.length, ∑ u ∈ range e.m.n, ∑ v ∈ range e.m.n, y (varId e.m.n a u v) ≤
      e.m.n + (e.m.starts.length * e.m.n * e.m.n : Nat) / 10 ^ 11 := by
    have h1 : ∑ a ∈ range e.m.starts.length, ∑ u ∈ range e.m.n, ∑ v ∈ range e.m.n, y (varId e.m.n a u v) ≤
        ∑ a ∈ range e.m.starts.length, ∑ u ∈ range e.m.n, ∑ v ∈ range e.m.n, (x (varId e.m.n a u v) + 1 / 10 ^ 11) := by
      refine sum_le_sum fun a ha => sum_le_sum fun u hu => sum_le_sum fun v hv => ?_
      rw [mem_range] at ha hu hv
      have := hx.near _ (by rw [hB]; exact varId_lt ha hu hv)
      linarith [(abs_le.1 this).2]
    refine h1.trans (le_of_eq ?_)
    simp only [sum_add_distrib, htot, sum_const, card_range, nsmul_eq_mul]
    push_cast
    ring
  have hyv := hs.value g (inb y hy) hyt
  obtain ⟨b1, b2⟩ := sumObjective_bounds e.m.starts.length e.m.n e.m.w y
  have hterms : (e.prob wk).obj.terms y ≤ e.m.starts.length * e.m.n * e.m.n := by
    refine (List.length_filter_le _ _).trans ?_
    rw [show (e.prob wk).obj = e.obj from rfl, hobj]; exact b1
  have hbig : (((e.m.starts.length * e.m.n * e.m.n + 1) * (e.m.n * W + 1) : Nat) : ℚ) ≤ ((640000 : Nat) : ℚ) := by exact_mod_cast hs.terms
  have hA := WM.starts_pos g.make
  have hN := WM.two_le g.make
  have hsmall : ((W * (e.m.starts.length * e.m.n * e.m.n) : Nat) : ℚ) ≤ 10 ^ 11 := by
    have : W * (e.m.starts.length * e.m.n * e.m.n) ≤ 640000 := by
      refine le_trans ?_ hs.terms
      rw [Nat.mul_comm W]
      refine Nat.mul_le_mul (by omega) ?_
      have : 1 * W ≤ e.m.n * W := Nat.mul_le_mul_right _ (by omega)
      omega
    have h2 : ((W * (e.m.starts.length * e.m.n * e.m.n) : Nat) : ℚ) ≤ ((640000 : Nat) : ℚ) := by exact_mod_cast this
    refine h2.trans (by norm_num)
  have hsize : (e.prob wk).obj.size y ≤ e.m.n * W + 1 := by
    unfold LinComp.size
    rw [show (e.prob wk).obj = e.obj from rfl, obj_const, abs_zero, zero_add]
    change absSum y e.obj.coefs ≤ _
    rw [hobj]
    refine b2.trans (hyv.trans ?_)
    have : (W : ℚ) * ((e.m.starts.length * e.m.n * e.m.n : Nat) / 10 ^ 11) ≤ 1 := by
      rw [← mul_div_assoc, div_le_one (by norm_num)]
      have := hsmall
      push_cast at this ⊢
      exact this
    rw [mul_add]
    linarith
  refine ⟨hy, ?_, ?_, x, hx, hx15⟩
  · refine hterms.trans ?_
    have h1 : (e.m.starts.length * e.m.n * e.m.n + 1) * 1 ≤ (e.m.starts.length * e.m.n * e.m.n + 1) * (e.m.n * W + 1) := Nat.mul_le_mul_left _ (by omega)
    have := hs.terms
    have : e.m.starts.length * e.m.n * e.m.n ≤ 640000 := by omega
    exact this.trans (by norm_num)
  · have h1 : (((e.prob wk).obj.terms y : Nat) : ℚ) ≤ ((e.m.starts.length * e.m.n * e.m.n : Nat) : ℚ) := by exact_mod_cast hterms
    push_cast at hbig h1
    have h0 : (0 : ℚ) ≤ (e.prob wk).obj.size y := by
      unfold LinComp.size
      refine add_nonneg (abs_nonneg _) (List.sum_nonneg ?_)
      intro q hq
      obtain ⟨p, _, rfl⟩ := List.mem_map.1 hq
      exact abs_nonneg _
    calc _ ≤ ((e.m.starts.length : ℚ) * e.m.n * e.m.n + 1) * (e.m.n * W + 1) :=
          mul_le_mul (by linarith) hsize h0 (by positivity)
      _ ≤ _ := hbig

theorem pathCost_le_len {w : Weights} {W : ℚ} (hW : 0 ≤ W) : ∀ (p : List Nat), (∀ u ∈ p, ∀ v ∈ p, w u v ≤ W) → pathCost w p ≤ p.length * W
  | [], _ => by simp [pathCost]
  | [_], _ => by simpa [pathCost] using hW
  | u :: v :: l, h => by
    have ih := pathCost_le_len hW (v :: l) (fun a ha b hb => h a (List.mem_cons_of_mem _ ha) b (List.mem_cons_of_mem _ hb))
    have := h u (by simp) v (by simp)
    rw [pathCost, List.length_cons]
    push_cast
    linarith

/-- every cover costs at most `N * W` -/
theorem SmallInstance.cover (hs : SmallInstance e.m.starts.length e.m.n W rows w) (g : e.Good rows w starts ends) (hm : e.mode = .sum)
    {Q : Paths} (hQ : IsCover e.m.n e.m.starts e.m.ends Q) {c : ℚ} (hc : IsObjective e.mode e.m.w Q c) : c ≤ 2 ^ 15 := by
  rw [hm] at hc
  have hc : c = sumCost (fun _ => e.m.w) Q := hc
  have hW : (0 : ℚ) ≤ W := Nat.cast_nonneg W
  have hmem : ∀ p ∈ Q, ∀ i ∈ p, i < e.m.n := hQ.lt
  have key : ∀ l : Paths, (∀ p ∈ l, ∀ i ∈ p, i < e.m.n) → sumCost (fun _ => e.m.w) l ≤ l.flatten.length * W := by
    intro l
    induction l with
    | nil => intro _; simp [sumCost]
    | cons p l ih =>
      intro h
      have h1 := ih fun q hq => h q (List.mem_cons_of_mem _ hq)
      have h2 := pathCost_le_len hW p fun u hu v hv => (abs_le.1 (hs.weight g (h p (by simp) u hu) (h p (by simp) v hv))).2
      simp only [sumCost, List.mapIdx_cons, List.sum_cons, List.flatten_cons, List.length_append] at h1 ⊢
      push_cast
      linarith
  have := key Q hmem
  rw [hQ.flatten_length] at this
  have h2 : ((e.m.n * W : Nat) : ℚ) ≤ ((2 ^ 15 : Nat) : ℚ) := by exact_mod_cast hs.cost
  push_cast at h2
  rw [hc]
  linarith

/-- on a small instance an LP solver of small noise is all that is needed -/
theorem NoisyFloatRun.float (hs : SmallInstance e.m.starts.length e.m.n W rows w) (g : e.Good rows w starts ends) (hm : e.mode = .sum)
    (hset : Settled e.fl) {ord : List (Nat × ℚ) → List (Nat × ℚ)} (ho : ∀ l, (ord l).Perm l)
    {t t' : Nat} {r : ResState} (hr : createInitialResult e.mode e.m t ResState.init = .ok (r, t')) (hub : r.upper ≤ 2 ^ 15)
    {tr : List (Nat × Inp)} {s : BState} (run : NoisyFloatRun e (1 / 10 ^ 11) ord r tr s) : FloatRun e ord r tr s := by
  induction run with
  | start s h => exact .start s h
  | step tr s u i _ hu hi ih =>
    refine .step tr s u i ih hu ?_
    obtain ⟨tr', s', hrun, hsim, _⟩ := ih.exact g hset ho hr hub
    obtain ⟨_, all, hg⟩ := run_ginv g ⟨t, t', r, hr⟩ hrun
    obtain ⟨_, o, _, hpc⟩ := hg.wk u hu
    have hprob : e.prob (s'.wk u) = e.prob (s.wk u) := by unfold BEnv.prob; rw [hsim.cuts u, hsim.fix u]
    have hpc' := hsim.pc u
    unfold Inp.OkF
    unfold Inp.OkWithin at hi
    split
    · rename_i lb hp
      rw [hp] at hi hpc'
      dsimp only at hi
      have hp' : (s'.wk u).pc = .solve lb := hpc'
      rw [PcOk, hp'] at hpc
      cases ha : i.ans with
      | optimal y rc =>
        rw [ha, ← hprob] at hi
        rw [← hprob]
        exact hs.answer g hm hpc.2.1 hi
      | _ => rw [ha] at hi; exact hi
    · trivial

end

end Mtsp
