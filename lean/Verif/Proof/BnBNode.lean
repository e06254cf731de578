import Verif.Proof.BnBBase

/-! Nodes of the search tree: their LPs, optimality, range of the objective. -/

namespace Mtsp
open Finset

/-- the bounds of a node's LP (C45) -/
def nodeBounds (M : LPModel) (f0 f1 : List Nat) (i : Nat) : Option ℚ × Option ℚ :=
  if i ∈ f1 then (some 1, some 1) else if i ∈ f0 then (some 0, some 0) else M.bounds i

/-- `z` respects the bounds of a node's LP -/
def InBox (e : BEnv) (f0 f1 : List Nat) (z : Nat → ℚ) : Prop :=
  ∀ i < e.cols.nVars, ∀ l u, nodeBounds e.cols f0 f1 i = (some l, some u) → l ≤ z i ∧ z i ≤ u

/-- the point satisfies the rows -/
def SatAll (cs : List LinCon) (z : Nat → ℚ) : Prop := ∀ c ∈ cs, c.Sat z

/-- a node with the cuts `cuts`: fixings of binary variables, `lb` bounds the value of its LP from below -/
structure NodeOk (e : BEnv) (cuts : List LinCon) (lb : ℚ) (f0 f1 : List Nat) : Prop where
  bin0 : e.cols.Bin f0
  bin1 : e.cols.Bin f1
  bound : ∀ z, SatAll (e.rows0 ++ cuts) z → InBox e f0 f1 z → lb ≤ ceilBound (e.obj.eval z)

theorem ceilBound_mono {a b : ℚ} (h : a ≤ b) : ceilBound a ≤ ceilBound b := by
  unfold ceilBound
  exact_mod_cast Int.ceil_mono (by linarith)

theorem ceilBound_lt (a : ℚ) : ceilBound a < a - 1 / 10 ^ 10 + 1 := Int.ceil_lt_add_one _

theorem ceilBound_nonneg {a : ℚ} (h : 0 ≤ a) : 0 ≤ ceilBound a := by
  have : (0 : ℚ) = ceilBound 0 := by
    unfold ceilBound
    have : ⌈(0 : ℚ) - 1 / 10 ^ 10⌉ = 0 := by rw [Int.ceil_eq_iff]; norm_num
    rw [this]; norm_num
  rw [this]; exact ceilBound_mono h

theorem ceilBound_int (z : ℤ) : ceilBound (z : ℚ) = z := by
  unfold ceilBound
  have : ⌈(z : ℚ) - 1 / 10 ^ 10⌉ = z := by
    rw [Int.ceil_eq_iff]
    have : (0 : ℚ) < 1 / 10 ^ 10 := by norm_num
    have : (1 : ℚ) / 10 ^ 10 < 1 := by norm_num
    constructor <;> linarith
  rw [this]

theorem NodeOk.mono {e : BEnv} {cuts cuts' : List LinCon} {lb : ℚ} {f0 f1 : List Nat} (h : NodeOk e cuts lb f0 f1)
    (hs : ∀ c ∈ cuts, c ∈ cuts') : NodeOk e cuts' lb f0 f1 := by
  refine ⟨h.bin0, h.bin1, fun z hz hb => h.bound z ?_ hb⟩
  intro c hc
  rcases List.mem_append.1 hc with hc | hc
  · exact hz c (List.mem_append_left _ hc)
  · exact hz c (List.mem_append_right _ (hs c hc))

section
variable {e : BEnv} {rows : Nat} {w : Weights} {starts ends : List Nat}

theorem InBox.bin (g : e.Good rows w starts ends) {f0 f1 : List Nat} {z : Nat → ℚ} (h : InBox e f0 f1 z) {i : Nat} (hi : i < e.B) :
    0 ≤ z i ∧ z i ≤ 1 := by
  have hn : i < e.cols.nVars := lt_of_lt_of_le hi g.le_nVars
  have hb := g.bin i hi
  by_cases h1 : i ∈ f1
  · have := h i hn 1 1 (by unfold nodeBounds; rw [if_pos h1])
    constructor <;> linarith [this.1, this.2]
  · by_cases h0 : i ∈ f0
    · have := h i hn 0 0 (by unfold nodeBounds; rw [if_neg h1, if_pos h0])
      constructor <;> linarith [this.1, this.2]
    · exact h i hn 0 1 (by unfold nodeBounds; rw [if_neg h1, if_neg h0, hb])

/-- more fixings of free variables: a smaller box -/
theorem InBox.weaken (g : e.Good rows w starts ends) {f0 f1 f0' f1' : List Nat} {z : Nat → ℚ} (h : InBox e f0' f1' z)
    (hb0 : e.cols.Bin f0') (hb1 : e.cols.Bin f1') (h0 : ∀ i ∈ f0, i ∈ f0') (h1 : ∀ i ∈ f1, i ∈ f1')
    (hn : ∀ i ∈ f1', i ∈ f1 ∨ i ∉ f0) : InBox e f0 f1 z := by
  intro i hi l u hlu
  unfold nodeBounds at hlu
  by_cases hi1 : i ∈ f1
  · rw [if_pos hi1] at hlu
    refine h i hi l u ?_
    unfold nodeBounds; rw [if_pos (h1 i hi1)]; exact hlu
  rw [if_neg hi1] at hlu
  by_cases hi0 : i ∈ f0
  · rw [if_pos hi0] at hlu
    refine h i hi l u ?_
    unfold nodeBounds
    rw [if_neg, if_pos (h0 i hi0)]
    · exact hlu
    · intro hc
      rcases hn i hc with hc | hc
      · exact hi1 hc
      · exact hc hi0
  rw [if_neg hi0] at hlu
  by_cases hB : i < e.B
  · rw [g.bin i hB] at hlu
    simp only [Prod.mk.injEq, Option.some.injEq] at hlu
    obtain ⟨rfl, rfl⟩ := hlu
    exact h.bin g hB
  · refine h i hi l u ?_
    unfold nodeBounds
    rw [if_neg, if_neg]
    · exact hlu
    · intro hc; have := hb0 i hc; rw [g.nBin] at this; exact hB this
    · intro hc; have := hb1 i hc; rw [g.nBin] at this; exact hB this

/-! ### the objective -/

theorem BEnv.obj_sum (h : e.mode = .sum) (z : Nat → ℚ) : e.obj.eval z =
    ∑ a ∈ range e.m.starts.length, ∑ u ∈ range e.m.n, ∑ v ∈ range e.m.n, e.m.w u v * z (varId e.m.n a u v) := by
  unfold BEnv.obj; rw [h]; exact eval_sumObjective _ _ _ _

theorem BEnv.obj_max (h : e.mode = .max) (z : Nat → ℚ) : e.obj.eval z = z e.B := by
  unfold BEnv.obj; rw [h]; exact LinComp.eval_ofVar _ _

/-- cost of one agent at an LP point -/
def BEnv.agentCost (e : BEnv) (z : Nat → ℚ) (a : Nat) : ℚ :=
  ∑ u ∈ range e.m.n, ∑ v ∈ range e.m.n, e.m.w u v * z (varId e.m.n a u v)

theorem maxRow_sat (z : Nat → ℚ) (a : Nat) :
    (LinCon.ge (.ofVar e.B) (addAgentCost e.m.n e.m.w a .zero)).Sat z ↔
      e.agentCost z a ≤ z e.B ∧ z e.B - e.agentCost z a ≤ dblMax := by
  have hcost : (addAgentCost e.m.n e.m.w a .zero).eval z = e.agentCost z a := by
    rw [eval_addAgentCost]; simp [BEnv.agentCost]
  have hconst : (addAgentCost e.m.n e.m.w a .zero).const = 0 := by
    have e := eval_addAgentCost e.m.n e.m.w a .zero (fun _ => 0)
    simp [LinComp.eval_eq, LinComp.lin] at e
    exact e
  have hc : (LinComp.sub (.ofVar e.B) (addAgentCost e.m.n e.m.w a .zero)).const = 0 := by
    unfold LinComp.sub LinComp.add LinComp.addAssign LinComp.neg
    split <;> simp [LinComp.ofVar, hconst]
  rw [LinCon.sat_ge_iff, LinCon.value_ge, hc, hcost]
  simp

theorem rows0_iff {cuts : List LinCon} {z : Nat → ℚ} : SatAll (e.rows0 ++ cuts) z ↔
    (e.mode = .max → ∀ a < e.m.starts.length, e.agentCost z a ≤ z e.B ∧ z e.B - e.agentCost z a ≤ dblMax) ∧
    SatAll (buildConstraints e.m.n e.m.starts e.m.ends e.m.deps.arcs) z ∧ SatAll cuts z := by
  unfold SatAll BEnv.rows0
  rw [List.forall_mem_append, List.forall_mem_append, and_assoc]
  refine and_congr ?_ Iff.rfl
  rcases hm : e.mode with _ | _
  · simp [createObjective]
  · simp only [createObjective, createMaxObjective, List.forall_mem_map, List.mem_range, forall_const]
    exact forall_congr' fun a => imp_congr Iff.rfl (maxRow_sat z a)

/-- arcs against a dependency are not used -/
theorem rev_zero (g : e.Good rows w starts ends) {z : Nat → ℚ}
    (hr : SatAll (buildConstraints e.m.n e.m.starts e.m.ends e.m.deps.arcs) z) (hz : ∀ i < e.B, 0 ≤ z i)
    {a u v : Nat} (ha : a < e.m.starts.length) (hd : DepIn e.m.n e.m.w v u) : z (varId e.m.n a u v) = 0 := by
  have r := (rows_iff _ _ _ _ _).1 hr
  have s := (WM.make_ok g.make).1
  have hi := WM.inst g.make
  have h := r.rev v u ((WM.arcs_iff g.make v u).2 hd) (by
    by_contra hcon
    push Not at hcon
    obtain ⟨h1, h2, h3⟩ := hcon
    obtain ⟨base, _, _, hw⟩ := s.weights
    have := (hw u v hd.2.1 hd.1).2 ⟨by have := hi.pos; omega, h3, h2⟩
    rw [hd.2.2] at this; norm_num at this)
  rw [Finset.sum_eq_zero_iff_of_nonneg] at h
  · exact h a (Finset.mem_range.2 ha)
  · intro b hb
    exact hz _ (varId_lt (Finset.mem_range.1 hb) hd.2.1 hd.1)

theorem term_nonneg (g : e.Good rows w starts ends) {z : Nat → ℚ}
    (hr : SatAll (buildConstraints e.m.n e.m.starts e.m.ends e.m.deps.arcs) z) (hz : ∀ i < e.B, 0 ≤ z i)
    {a u v : Nat} (ha : a < e.m.starts.length) (hu : u < e.m.n) (hv : v < e.m.n) : 0 ≤ e.m.w u v * z (varId e.m.n a u v) := by
  by_cases hd : DepIn e.m.n e.m.w v u
  · rw [rev_zero g hr hz ha hd, mul_zero]
  · exact mul_nonneg (g.weight_nonneg hu hv hd) (hz _ (varId_lt ha hu hv))

theorem agentCost_nonneg (g : e.Good rows w starts ends) {z : Nat → ℚ}
    (hr : SatAll (buildConstraints e.m.n e.m.starts e.m.ends e.m.deps.arcs) z) (hz : ∀ i < e.B, 0 ≤ z i)
    {a : Nat} (ha : a < e.m.starts.length) : 0 ≤ e.agentCost z a :=
  Finset.sum_nonneg fun _ hu => Finset.sum_nonneg fun _ hv =>
    term_nonneg g hr hz ha (Finset.mem_range.1 hu) (Finset.mem_range.1 hv)

theorem agentCost_le (g : e.Good rows w starts ends) {z : Nat → ℚ} (hz : ∀ i < e.B, 0 ≤ z i ∧ z i ≤ 1)
    {a : Nat} (ha : a < e.m.starts.length) : e.agentCost z a ≤ e.m.n * e.m.n * 2 ^ 31 := by
  have : ∀ u ∈ range e.m.n, ∑ v ∈ range e.m.n, e.m.w u v * z (varId e.m.n a u v) ≤ e.m.n * 2 ^ 31 := by
    intro u hu
    have hu := Finset.mem_range.1 hu
    have : ∀ v ∈ range e.m.n, e.m.w u v * z (varId e.m.n a u v) ≤ 2 ^ 31 := by
      intro v hv
      have hv := Finset.mem_range.1 hv
      obtain ⟨h0, h1⟩ := hz _ (varId_lt ha hu hv)
      obtain ⟨h2, h3⟩ := g.weight_range hu hv
      nlinarith
    have := Finset.sum_le_card_nsmul _ _ _ this
    simpa using this
  have := Finset.sum_le_card_nsmul _ _ _ this
  simp only [Finset.card_range, nsmul_eq_mul] at this
  unfold BEnv.agentCost
  linarith

theorem agentCost_lt (g : e.Good rows w starts ends) {z : Nat → ℚ} (hz : ∀ i < e.B, 0 ≤ z i ∧ z i ≤ 1)
    {a : Nat} (ha : a < e.m.starts.length) : e.agentCost z a ≤ 2 ^ 62 := by
  refine (agentCost_le g hz ha).trans ?_
  have h1 : e.m.n * e.m.n ≤ e.B := by
    unfold BEnv.B
    have : 1 * (e.m.n * e.m.n) ≤ e.m.starts.length * (e.m.n * e.m.n) := Nat.mul_le_mul_right _ (by omega)
    rw [Nat.mul_assoc]; omega
  have h2 : e.m.n * e.m.n ≤ 2 ^ 31 := by have := g.size; omega
  have h3 : ((e.m.n * e.m.n : Nat) : ℚ) ≤ 2 ^ 31 := by exact_mod_cast h2
  push_cast at h3
  calc (e.m.n : ℚ) * e.m.n * 2 ^ 31 ≤ 2 ^ 31 * 2 ^ 31 := by nlinarith
    _ = 2 ^ 62 := by norm_num

theorem obj_nonneg (g : e.Good rows w starts ends) {cuts : List LinCon} {f0 f1 : List Nat} {z : Nat → ℚ}
    (hr : SatAll (e.rows0 ++ cuts) z) (hb : InBox e f0 f1 z) : 0 ≤ e.obj.eval z := by
  obtain ⟨h1, h2, _⟩ := rows0_iff.1 hr
  have hz : ∀ i < e.B, 0 ≤ z i := fun i hi => (hb.bin g hi).1
  rcases hm : e.mode with _ | _
  · rw [e.obj_sum hm]
    exact Finset.sum_nonneg fun a ha => agentCost_nonneg g h2 hz (Finset.mem_range.1 ha)
  · rw [e.obj_max hm]
    have hp := (WM.inst g.make).pos
    exact le_trans (agentCost_nonneg g h2 hz hp) (h1 hm 0 hp).1

/-- the root of the search tree -/
theorem root_ok (g : e.Good rows w starts ends) (cuts : List LinCon) : NodeOk e cuts 0 [] [] :=
  ⟨by simp [LPModel.Bin], by simp [LPModel.Bin], fun _ hz hb => ceilBound_nonneg (obj_nonneg g hz hb)⟩

/-! ### solved LPs -/

/-- the worker's LP is that of its node, and `y`, `rc` are a correct answer -/
structure Solved (e : BEnv) (wk : Worker) (y rc : Nat → ℚ) : Prop where
  nVars : wk.fix.model.nVars = e.cols.nVars
  nBin : wk.fix.model.nBin = e.cols.nBin
  box : ∀ i, wk.fix.model.bounds i = nodeBounds e.cols wk.fix.fixed0 wk.fix.fixed1 i
  ans : LPAnswer.Correct (e.prob wk) (.optimal y rc)

theorem Solved.inBox {wk : Worker} {y rc : Nat → ℚ} (h : Solved e wk y rc) : InBox e wk.fix.fixed0 wk.fix.fixed1 y := by
  intro i hi l u hlu
  exact h.ans.1 i (by rw [show (e.prob wk).cols.nVars = wk.fix.model.nVars from rfl, h.nVars]; exact hi) l u
    (by rw [← hlu]; exact h.box i)

theorem BEnv.Good.has_bounds (g : e.Good rows w starts ends) : ∀ i < e.cols.nVars, ∃ l u, e.cols.bounds i = (some l, some u) := by
  intro i hi
  rcases g.col_cases hi with h | ⟨_, _, h⟩
  · exact ⟨_, _, g.bin i h⟩
  · exact ⟨_, _, h⟩

/-- the optimum `x` of the worker's LP behind the answer `y`, `rc` of the solver -/
structure Optimum (e : BEnv) (wk : Worker) (y rc x : Nat → ℚ) : Prop where
  sat : SatAll (e.rows0 ++ wk.cuts) x
  inBox : InBox e wk.fix.fixed0 wk.fix.fixed1 x
  least : ∀ z, SatAll (e.rows0 ++ wk.cuts) z → InBox e wk.fix.fixed0 wk.fix.fixed1 z → e.obj.eval x ≤ e.obj.eval z
  /-- the dual bound, for the change of one variable -/
  dual : ∀ z, SatAll (e.rows0 ++ wk.cuts) z → InBox e wk.fix.fixed0 wk.fix.fixed1 z → ∀ v < e.cols.nVars,
    e.obj.eval x + rc v * (z v - x v) ≤ e.obj.eval z + lpNoise
  value : |e.obj.eval y - e.obj.eval x| ≤ lpNoise
  ceil : ceilBound (e.obj.eval y) = ceilBound (e.obj.eval x)
  near : ∀ i < e.B, |y i - x i| ≤ 1 / 10 ^ 10
  zero : ∀ i < e.B, y i < 1 / 10 ^ 10 ↔ x i = 0
  one : ∀ i < e.B, y i > 1 - 1 / 10 ^ 10 ↔ x i = 1

theorem ceilBound_congr {a b : ℚ} (h : ∀ k : ℤ, (k : ℚ) + 1 / 10 ^ 10 < a ↔ (k : ℚ) + 1 / 10 ^ 10 < b) : ceilBound a = ceilBound b := by
  unfold ceilBound
  have key : ⌈a - 1 / 10 ^ 10⌉ = ⌈b - 1 / 10 ^ 10⌉ := by
    apply le_antisymm
    · rw [Int.ceil_le]
      by_contra hc
      have h1 := (h ⌈b - 1 / 10 ^ 10⌉).1 (by linarith [not_le.1 hc])
      have h2 := Int.le_ceil (b - 1 / 10 ^ 10)
      linarith
    · rw [Int.ceil_le]
      by_contra hc
      have h1 := (h ⌈a - 1 / 10 ^ 10⌉).2 (by linarith [not_le.1 hc])
      have h2 := Int.le_ceil (a - 1 / 10 ^ 10)
      linarith
  rw [key]

theorem Solved.opt (g : e.Good rows w starts ends) {wk : Worker} {y rc : Nat → ℚ} (h : Solved e wk y rc) :
    ∃ x, Optimum e wk y rc x := by
  obtain ⟨_, x, hx⟩ := h.ans
  have hn : (e.prob wk).cols.nVars = e.cols.nVars := h.nVars
  have hB : (e.prob wk).cols.nBin = e.B := by
    rw [show (e.prob wk).cols.nBin = wk.fix.model.nBin from rfl, h.nBin, g.nBin]
  have adm : ∀ z, SatAll (e.rows0 ++ wk.cuts) z → InBox e wk.fix.fixed0 wk.fix.fixed1 z → (e.prob wk).Admits z := by
    intro z hz hb
    refine ⟨hz, fun i hi l u hlu => hb i (hn ▸ hi) l u ?_⟩
    rw [← hlu]; exact (h.box i).symm
  refine ⟨x, hx.admits.rows, ?_, fun z hz hb => hx.least z (adm z hz hb), fun z hz hb v hv => hx.dual z (adm z hz hb) v (by rw [hn]; exact hv),
    hx.value, ceilBound_congr hx.round, fun i hi => hx.near i (by rw [hB]; exact hi), fun i hi => hx.zero i (by rw [hB]; exact hi), fun i hi => hx.one i (by rw [hB]; exact hi)⟩
  intro i hi l u hlu
  exact hx.admits.bounds i (by rw [hn]; exact hi) l u (by rw [← hlu]; exact h.box i)

/-- a solved LP has at least three nodes -/
theorem Solved.three (g : e.Good rows w starts ends) {wk : Worker} {y rc : Nat → ℚ} (h : Solved e wk y rc) : 3 ≤ e.m.n := by
  obtain ⟨x, hx⟩ := h.opt g
  exact small_no_point g.make (rows0_iff.1 hx.sat).2.1

/-- raising the maximum variable keeps the rows satisfied -/
theorem raise_max (g : e.Good rows w starts ends) (hm : e.mode = .max) {cuts : List LinCon} (hc : ∀ c ∈ cuts, c.Local e.B)
    {f0 f1 : List Nat} (hb0 : e.cols.Bin f0) (hb1 : e.cols.Bin f1)
    {y : Nat → ℚ} (hy : SatAll (e.rows0 ++ cuts) y) (hb : InBox e f0 f1 y) {t : ℚ} (ht : ∀ a < e.m.starts.length, e.agentCost y a ≤ t)
    (ht0 : 0 ≤ t) (htM : t ≤ dblMax) :
    SatAll (e.rows0 ++ cuts) (fun i => if i = e.B then t else y i) ∧ InBox e f0 f1 (fun i => if i = e.B then t else y i) := by
  obtain ⟨_, h2, h3⟩ := rows0_iff.1 hy
  have hag : ∀ i < e.B, y i = if i = e.B then t else y i := fun i hi => by rw [if_neg (by omega)]
  have hcost : ∀ a < e.m.starts.length, e.agentCost (fun i => if i = e.B then t else y i) a = e.agentCost y a := by
    intro a ha
    unfold BEnv.agentCost
    refine Finset.sum_congr rfl fun u hu => Finset.sum_congr rfl fun v hv => ?_
    dsimp only
    rw [← hag _ (varId_lt ha (Finset.mem_range.1 hu) (Finset.mem_range.1 hv))]
  constructor
  · refine rows0_iff.2 ⟨fun _ a ha => ?_, fun c hcm => rows_local g c hcm y _ hag (h2 c hcm), fun c hcm => hc c hcm y _ hag (h3 c hcm)⟩
    rw [hcost a ha]
    rw [if_pos rfl]
    have := agentCost_nonneg g h2 (fun i hi => (hb.bin g hi).1) ha
    exact ⟨ht a ha, by linarith⟩
  · intro i hi l u hlu
    rcases g.col_cases hi with h | ⟨_, h, hbd⟩
    · dsimp only
      rw [← hag i h]; exact hb i hi l u hlu
    · have hn0 : i ∉ f0 := fun hc => by have := hb0 i hc; rw [g.nBin] at this; omega
      have hn1 : i ∉ f1 := fun hc => by have := hb1 i hc; rw [g.nBin] at this; omega
      unfold nodeBounds at hlu
      rw [if_neg hn1, if_neg hn0, hbd] at hlu
      simp only [Prod.mk.injEq, Option.some.injEq] at hlu
      obtain ⟨rfl, rfl⟩ := hlu
      dsimp only
      rw [if_pos h]; exact ⟨ht0, htM⟩

theorem Optimum.obj_le (g : e.Good rows w starts ends) {wk : Worker} {y' rc y : Nat → ℚ} (h : Optimum e wk y' rc y)
    (hf : FixInv e.cols wk.fix) (hc : ∀ c ∈ wk.cuts, c.Local e.B) : e.obj.eval y ≤ 2 ^ 69 := by
  have hbin : ∀ i < e.B, 0 ≤ y i ∧ y i ≤ 1 := fun i hi => h.inBox.bin g hi
  rcases hm : e.mode with _ | _
  · rw [e.obj_sum hm]
    have : ∀ a ∈ range e.m.starts.length, e.agentCost y a ≤ e.m.n * e.m.n * 2 ^ 31 := fun a ha =>
      agentCost_le g hbin (Finset.mem_range.1 ha)
    have h2 := Finset.sum_le_card_nsmul _ _ _ this
    simp only [Finset.card_range, nsmul_eq_mul] at h2
    refine le_trans h2 ?_
    have h3 : ((e.B : Nat) : ℚ) ≤ 2 ^ 31 := by exact_mod_cast (by have := g.size; omega : e.B ≤ 2 ^ 31)
    unfold BEnv.B at h3
    push_cast at h3
    calc (e.m.starts.length : ℚ) * (e.m.n * e.m.n * 2 ^ 31) = (e.m.starts.length * e.m.n * e.m.n) * 2 ^ 31 := by ring
      _ ≤ 2 ^ 31 * 2 ^ 31 := by nlinarith
      _ ≤ 2 ^ 69 := by norm_num
  · have hp : ∀ a < e.m.starts.length, e.agentCost y a ≤ 2 ^ 69 := fun a ha => (agentCost_lt g hbin ha).trans (by norm_num)
    have hM : (2 : ℚ) ^ 69 ≤ dblMax := le_trans (by norm_num) two70_lt.le
    obtain ⟨hz, hb⟩ := raise_max g hm hc hf.bin0 hf.bin1 h.sat h.inBox hp (by norm_num) hM
    have := h.least _ hz hb
    rw [e.obj_max hm, e.obj_max hm] at this
    rw [e.obj_max hm]
    simpa using this

/-- the bound derived from a solved LP is a bound the queue accepts -/
theorem Solved.range (g : e.Good rows w starts ends) {wk : Worker} {y rc : Nat → ℚ} (h : Solved e wk y rc)
    (hf : FixInv e.cols wk.fix) (hc : ∀ c ∈ wk.cuts, c.Local e.B) :
    -dblMax ≤ ceilBound (e.obj.eval y) ∧ ceilBound (e.obj.eval y) < dblMax := by
  obtain ⟨x, hx⟩ := h.opt g
  rw [hx.ceil]
  constructor
  · have := ceilBound_nonneg (obj_nonneg g hx.sat hx.inBox)
    have := dblMax_pos
    linarith
  · have h1 := ceilBound_lt (e.obj.eval x)
    have h2 := hx.obj_le g hf hc
    have h3 := two70_lt
    have : (2 : ℚ) ^ 69 + 1 < 2 ^ 70 := by norm_num
    have : (0 : ℚ) < 1 / 10 ^ 10 := by norm_num
    linarith

/-- a node whose box lies inside the box of a solved LP -/
theorem Solved.nodeOk (g : e.Good rows w starts ends) {wk : Worker} {y rc : Nat → ℚ} (h : Solved e wk y rc)
    {cuts : List LinCon} (hs : ∀ c ∈ wk.cuts, c ∈ cuts) {f0 f1 : List Nat} (hb0 : e.cols.Bin f0) (hb1 : e.cols.Bin f1)
    (h0 : ∀ i ∈ wk.fix.fixed0, i ∈ f0) (h1 : ∀ i ∈ wk.fix.fixed1, i ∈ f1)
    (hn : ∀ i ∈ f1, i ∈ wk.fix.fixed1 ∨ i ∉ wk.fix.fixed0) : NodeOk e cuts (ceilBound (e.obj.eval y)) f0 f1 := by
  obtain ⟨x, hx⟩ := h.opt g
  rw [hx.ceil]
  refine ⟨hb0, hb1, fun z hz hb => ceilBound_mono ?_⟩
  refine hx.least z ?_ (hb.weaken g hb0 hb1 h0 h1 hn)
  intro c hc
  rcases List.mem_append.1 hc with hc | hc
  · exact hz c (List.mem_append_left _ hc)
  · exact hz c (List.mem_append_right _ (hs c hc))

end

end Mtsp
