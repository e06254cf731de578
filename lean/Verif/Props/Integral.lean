import Verif.Proof.Integral

/-! C35: an integral point of the LP at which no cut is found is a feasible solution. -/

namespace Mtsp
open Finset Relation

variable {rows cols : Nat} {w : Weights} {starts ends : List Nat} {m : WM} {y : Nat → ℚ}
  {sw : GlobalCut} {mf : MaxFlow}

theorem varId_lt {A N a u v : Nat} (ha : a < A) (hu : u < N) (hv : v < N) : varId N a u v < A * N * N := by
  unfold varId
  have h1 : (a + 1) * (N * N) ≤ A * (N * N) := Nat.mul_le_mul_right _ ha
  have h2 : (u + 1) * N ≤ N * N := Nat.mul_le_mul_right _ hu
  rw [Nat.mul_assoc, Nat.mul_assoc]
  rw [Nat.add_mul] at h1 h2
  omega

/-- the sum of the values of some arcs, when each value is off by at most `δ` -/
theorem noisy_sum_le {A N : Nat} {x y : Nat → ℚ} {δ : ℚ} (hδ : 0 ≤ δ)
    (hn : ∀ a < A, ∀ u < N, ∀ v < N, y (varId N a u v) ≤ x (varId N a u v) + δ) (p : Nat → Nat → Prop) [∀ u v, Decidable (p u v)] :
    (∑ u ∈ range N, ∑ v ∈ range N, if p u v then ∑ a ∈ range A, y (varId N a u v) else 0) ≤
      (∑ u ∈ range N, ∑ v ∈ range N, if p u v then ∑ a ∈ range A, x (varId N a u v) else 0) + A * N * N * δ := by
  have h1 : ∀ u ∈ range N, ∀ v ∈ range N, (if p u v then ∑ a ∈ range A, y (varId N a u v) else 0) ≤
      (if p u v then ∑ a ∈ range A, x (varId N a u v) else 0) + A * δ := by
    intro u hu v hv
    have hA : (0 : ℚ) ≤ A * δ := by positivity
    split
    · have : ∑ a ∈ range A, y (varId N a u v) ≤ ∑ a ∈ range A, (x (varId N a u v) + δ) :=
        Finset.sum_le_sum fun a ha => hn a (Finset.mem_range.1 ha) u (Finset.mem_range.1 hu) v (Finset.mem_range.1 hv)
      rw [Finset.sum_add_distrib] at this
      simpa using this
    · simpa using hA
  calc _ ≤ ∑ u ∈ range N, ∑ v ∈ range N, ((if p u v then ∑ a ∈ range A, x (varId N a u v) else 0) + A * δ) :=
        Finset.sum_le_sum fun u hu => Finset.sum_le_sum fun v hv => h1 u hu v hv
    _ = _ := by
      simp only [Finset.sum_add_distrib, Finset.sum_const, Finset.card_range, nsmul_eq_mul]
      ring

/-- a point near one of the LP at which no partition is light: connected -/
theorem connected_of_cuts {x : Nat → ℚ} {δ : ℚ} {own nx pv : Nat → Nat} (h : WM.make rows cols w starts ends = .ok m)
    (ht : TourPoint m.n m.starts.length x own nx pv) (hδ : 0 ≤ δ)
    (hnear : ∀ a < m.starts.length, ∀ u < m.n, ∀ v < m.n, y (varId m.n a u v) ≤ x (varId m.n a u v) + δ)
    (hcut : ∀ par : Nat → Bool, Splits m.n par → (m.starts.length * m.n * m.n * δ : ℚ) <
      ∑ u ∈ range m.n, ∑ v ∈ range m.n, if par u ≠ par v then ∑ a ∈ range m.starts.length, y (varId m.n a u v) else 0) :
    ∀ u < m.n, ∃ i j, nx^[i] (m.starts.getD 0 0) = nx^[j] u := by
  classical
  have hi := WM.inst h
  by_contra hno
  push Not at hno
  obtain ⟨v, hv, hno⟩ := hno
  let par : Nat → Bool := fun u => decide (∃ i j, nx^[i] (m.starts.getD 0 0) = nx^[j] u)
  have hs0 : m.starts.getD 0 0 < m.n := hi.lt _ (List.mem_append_left _ (List.mem_of_getElem? (getElem?_getD hi.pos)))
  have hsp : Splits m.n par := by
    refine ⟨⟨m.starts.getD 0 0, hs0, ?_⟩, ⟨v, hv, ?_⟩⟩
    · exact decide_eq_true ⟨0, 0, rfl⟩
    · apply decide_eq_false; rintro ⟨i, j, e⟩; exact hno i j e
  have hpar : ∀ u, par u = par (nx u) := by
    intro u
    apply decide_eq_decide.2
    constructor
    · rintro ⟨i, j, e⟩
      refine ⟨i + 1, j, ?_⟩
      rw [Function.iterate_succ_apply', e, ← Function.iterate_succ_apply' nx, Function.iterate_succ_apply]
    · rintro ⟨i, j, e⟩
      exact ⟨i, j + 1, by rw [Function.iterate_succ_apply]; exact e⟩
  have hmin := (hcut par hsp).trans_le (noisy_sum_le hδ hnear fun u v => par u ≠ par v)
  rw [tour_sum_eq ht fun u v => par u ≠ par v] at hmin
  have h0 : ∑ u ∈ range m.n, (if par u ≠ par (nx u) then (1 : ℚ) else 0) = 0 := by
    refine Finset.sum_eq_zero fun u _ => ?_
    rw [if_neg (by rw [hpar u]; simp)]
  rw [h0] at hmin
  linarith

/-- without a connectivity cut no partition is light -/
theorem cuts_of_ucut_none (h : WM.make rows cols w starts ends = .ok m) (hsw : sw.Correct)
    (h0 : ∀ a < m.starts.length, ∀ u < m.n, ∀ v < m.n, 0 ≤ y (varId m.n a u v))
    (hu : ucut sw m.starts.length m.n y = none) {par : Nat → Bool} (hsp : Splits m.n par) : 2 - 1 / 10 ^ 10 ≤
      ∑ u ∈ range m.n, ∑ v ∈ range m.n, if par u ≠ par v then ∑ a ∈ range m.starts.length, y (varId m.n a u v) else 0 := by
  have hmin := hsw.minimal m.n (undirWeight m.starts.length m.n y) (WM.two_le h) (by
    intro u v huv hv
    rw [undirWeight_eq]
    refine Finset.sum_nonneg fun a ha => ?_
    have ha := Finset.mem_range.1 ha
    have h1 := h0 a ha u (by omega) v hv
    have h2 := h0 a ha v hv u (by omega)
    linarith) par hsp
  rw [cutWeight_undir, eval_ucutIds] at hmin
  unfold ucut at hu
  split at hu
  · rename_i hge
    exact le_trans hge hmin
  · simp at hu

/-- source and target of a pi cut stay in the graph -/
theorem keep_pi_ends (h : WM.make rows cols w starts ends = .ok m) {v e : Nat} (hv : v < m.n) (he : e ∈ m.ends) :
    keepVertex m.deps .pi v e v = true ∧ keepVertex m.deps .pi v e e = true := by
  have hi := WM.inst h
  have hen : e < m.n := hi.lt e (List.mem_append_right _ he)
  constructor
  · simp only [keepVertex, Bool.not_eq_true']
    rw [Bool.eq_false_iff]; intro hh
    exact hi.acyclic v (.single ((WM.hasArc_iff h hv hv).1 hh))
  · simp only [keepVertex, Bool.not_eq_true']
    rw [Bool.eq_false_iff]; intro hh
    exact hi.noOut e he v ((WM.hasArc_iff h hen hv).1 hh)

/-- a cover near whose point no set with the later node of a dependency but without an end is light respects the dependencies on one path -/
theorem order_of_cuts {x : Nat → ℚ} {δ : ℚ} {P : Paths} (h : WM.make rows cols w starts ends = .ok m)
    (hc : IsCover m.n m.starts m.ends P) (hx : IsPoint m.n m.starts m.ends P x) (hδ : 0 ≤ δ)
    (hnear : ∀ a < m.starts.length, ∀ u < m.n, ∀ v < m.n, y (varId m.n a u v) ≤ x (varId m.n a u v) + δ)
    {u v a : Nat} {p : List Nat} (hd : DepIn m.n m.w u v)
    (hcut : ∀ e ∈ m.ends, v ≠ e → ∀ B : Nat → Bool, B v = true → B e = false → (m.starts.length * m.n * m.n * δ : ℚ) <
      ∑ u' ∈ range m.n, ∑ v' ∈ range m.n, if u' ≠ v' ∧ keepVertex m.deps .pi v e u' = true ∧
        keepVertex m.deps .pi v e v' = true ∧ B u' = true ∧ B v' = false then ∑ a ∈ range m.starts.length, y (varId m.n a u' v') else 0)
    (hpa : P[a]? = some p) (hup : u ∈ p) (hvp : v ∈ p) : Before p u v := by
  have hi := WM.inst h
  have hl := hi.lenEq
  obtain ⟨own, pv, ht, _⟩ := hx.tour hc hl
  have hnd := hc.nodup (List.mem_of_getElem? hpa)
  have huv : u ≠ v := by rintro rfl; exact hi.acyclic u (.single hd)
  rcases before_total hnd hup hvp huv with hb | hb
  · exact hb
  exfalso
  -- the end of this path
  have hal : a < m.starts.length := by rw [← hc.len]; exact (List.getElem?_eq_some_iff.1 hpa).1
  have he? : m.ends[a]? = some (m.ends.getD a 0) := getElem?_getD (hl ▸ hal)
  set e := m.ends.getD a 0 with hed
  have he : e ∈ m.ends := List.mem_of_getElem? he?
  have hlast : p.getLast? = some e := by rw [hc.last a p hpa, he?]
  have hep : e ∈ p := List.mem_of_getLast? hlast
  have hve : v ≠ e := by rintro rfl; exact not_before_last hnd hlast hb
  have hen : e < m.n := hi.lt e (List.mem_append_right _ he)
  have hu := hd.1
  have hv := hd.2.1
  have hlt : P.flatten.idxOf v < P.flatten.idxOf u := before_idx hc hpa hb
  have hle : P.flatten.idxOf u ≤ P.flatten.idxOf e := by
    by_cases hue : u = e
    · rw [hue]
    · rcases before_total hnd hup hep hue with h1 | h1
      · exact (before_idx hc hpa h1).le
      · exact absurd h1 (not_before_last hnd hlast)
  let B : Nat → Bool := fun z => decide (P.flatten.idxOf v ≤ P.flatten.idxOf z ∧ P.flatten.idxOf z < P.flatten.idxOf u)
  have hku : keepVertex m.deps .pi v e u = false := by
    simp only [keepVertex, Bool.not_eq_false']
    exact (WM.hasArc_iff h hu hv).2 hd
  have hmin := (hcut e he hve B (by simp [B, hlt]) (by simp only [B, decide_eq_false_iff_not]; omega)).trans_le
    (noisy_sum_le hδ hnear fun u' v' => u' ≠ v' ∧ keepVertex m.deps .pi v e u' = true ∧
      keepVertex m.deps .pi v e v' = true ∧ B u' = true ∧ B v' = false)
  rw [tour_sum_eq ht (fun u' v' => u' ≠ v' ∧ keepVertex m.deps .pi v e u' = true ∧ keepVertex m.deps .pi v e v' = true ∧
        B u' = true ∧ B v' = false)] at hmin
  have h0 : (∑ z ∈ range m.n, if z ≠ nxt P.flatten z ∧ keepVertex m.deps .pi v e z = true ∧
      keepVertex m.deps .pi v e (nxt P.flatten z) = true ∧ B z = true ∧ B (nxt P.flatten z) = false then (1 : ℚ) else 0) = 0 := by
    refine Finset.sum_eq_zero fun z hz => ?_
    rw [if_neg]
    rintro ⟨_, _, hk, hB1, hB2⟩
    have hzm := (hc.mem_flatten z).2 (Finset.mem_range.1 hz)
    have hum := (hc.mem_flatten u).2 hu
    have hul := List.idxOf_lt_length_of_mem hum
    simp only [B, decide_eq_true_eq, decide_eq_false_iff_not] at hB1 hB2
    have hidx := idxOf_nxt hc.flatten_nodup hzm
    rw [Nat.mod_eq_of_lt (by omega)] at hidx
    have : nxt P.flatten z = u := by
      apply mem_eq_of_idxOf (nxt_mem (List.ne_nil_of_mem hum)) hum
      omega
    rw [this, hku] at hk
    simp at hk
  rw [h0] at hmin
  linarith

/-- without a pi cut no such set is light -/
theorem cuts_of_piCut_none (h : WM.make rows cols w starts ends = .ok m) (hmf : mf.Correct)
    (h0 : ∀ a < m.starts.length, ∀ u < m.n, ∀ v < m.n, 0 ≤ y (varId m.n a u v))
    (hp : piCut mf m.n m.starts m.ends m.deps y = none) {u v : Nat} (hd : DepIn m.n m.w u v) {e : Nat} (he : e ∈ m.ends) (hve : v ≠ e)
    {B : Nat → Bool} (hB1 : B v = true) (hB2 : B e = false) : 1 - 1 / 10 ^ 10 ≤
      ∑ u' ∈ range m.n, ∑ v' ∈ range m.n, if u' ≠ v' ∧ keepVertex m.deps .pi v e u' = true ∧
        keepVertex m.deps .pi v e v' = true ∧ B u' = true ∧ B v' = false then ∑ a ∈ range m.starts.length, y (varId m.n a u' v') else 0 := by
  have hi := WM.inst h
  have hen : e < m.n := hi.lt e (List.mem_append_right _ he)
  have hv := hd.2.1
  obtain ⟨hkv, hke⟩ := keep_pi_ends h hv he
  have hmin := hmf.minimal m.n (keepVertex m.deps .pi v e) (arcCapacity m.starts.length m.n y) v e hv hen hve hkv hke (by
    intro u' v' hu' hv'
    rw [arcCapacity_eq]
    exact Finset.sum_nonneg fun a ha => h0 a (Finset.mem_range.1 ha) u' hu' v' hv') B hB1 hB2
  rw [flowCut_eq, eval_sum_cutIds, sum_cutEdges m.n _ B (fun u v => ∑ a ∈ range m.starts.length, y (varId m.n a u v))] at hmin
  exact le_trans (piCut_none h hmf hp hd he hve) hmin

/-- `y` is, up to `δ`, the 0/1 point `x` (the first `B` entries) -/
def NearInt (B : Nat) (δ : ℚ) (y x : Nat → ℚ) : Prop :=
  ∀ i < B, 0 ≤ y i ∧ ((x i = 0 ∧ y i ≤ δ) ∨ (x i = 1 ∧ 1 - δ ≤ y i ∧ y i ≤ 1))

theorem find?_congr_mem {α : Type} {l : List α} {p q : α → Bool} (h : ∀ a ∈ l, p a = q a) : l.find? p = l.find? q := by
  induction l with
  | nil => rfl
  | cons a l ih =>
    rw [List.find?_cons, List.find?_cons, h a List.mem_cons_self, ih fun b hb => h b (List.mem_cons_of_mem _ hb)]

theorem followPath_congr {A N : Nat} {x y : Nat → ℚ} (hxy : ∀ i < A * N * N, y i > 1 - 1 / 10 ^ 10 ↔ x i > 1 - 1 / 10 ^ 10)
    {a : Nat} (ha : a < A) (en : Nat) : ∀ (k : Nat) (p : List Nat), p.getLastD 0 < N → followPath N y a en k p = followPath N x a en k p
  | 0, _, _ => rfl
  | k + 1, p, hp => by
    have h1 : followArc N y a p = followArc N x a p := by
      unfold followArc
      have : (List.range N).find? (fun n => decide (y (varId N a (p.getLastD 0) n) > 1 - 1 / 10 ^ 10)) =
          (List.range N).find? (fun n => decide (x (varId N a (p.getLastD 0) n) > 1 - 1 / 10 ^ 10)) := by
        exact find?_congr_mem fun n hn => decide_eq_decide.2 (hxy _ (varId_lt ha hp (List.mem_range.1 hn)))
      rw [this]
    have h2 : (followArc N x a p).getLastD 0 < N := by
      unfold followArc
      split
      · rename_i n hn
        have := List.mem_range.1 (List.mem_of_find?_eq_some hn)
        simpa using this
      · exact hp
    simp only [followPath, h1]
    rw [followPath_congr hxy ha en k _ h2]

theorem readPaths_congr {N : Nat} {starts ends : List Nat} {x y : Nat → ℚ} (hs : ∀ s ∈ starts, s < N)
    (hxy : ∀ i < starts.length * N * N, y i > 1 - 1 / 10 ^ 10 ↔ x i > 1 - 1 / 10 ^ 10) :
    readPaths N starts ends y = readPaths N starts ends x := by
  unfold readPaths
  apply List.map_congr_left
  intro a ha
  have ha := List.mem_range.1 ha
  exact followPath_congr hxy ha _ _ _ (by
    have := hs _ (List.mem_of_getElem? (getElem?_getD ha))
    simpa using this)

/-- the core of **C35**, without algorithms: near an integral point of the LP, no partition and no set with the later node of a
dependency but without an end is light -/
theorem feasible_of_cuts {x : Nat → ℚ} {δ : ℚ} (h : WM.make rows cols w starts ends = .ok m)
    (hδ : 0 ≤ δ) (hnear : NearInt (m.starts.length * m.n * m.n) δ y x)
    (hone : ∀ i < m.starts.length * m.n * m.n, y i > 1 - 1 / 10 ^ 10 ↔ x i = 1)
    (hrows : ∀ c ∈ buildConstraints m.n m.starts m.ends m.deps.arcs, c.Sat x)
    (hu : ∀ par : Nat → Bool, Splits m.n par → (m.starts.length * m.n * m.n * δ : ℚ) <
      ∑ u ∈ range m.n, ∑ v ∈ range m.n, if par u ≠ par v then ∑ a ∈ range m.starts.length, y (varId m.n a u v) else 0)
    (hp : ∀ u v, DepIn m.n m.w u v → ∀ e ∈ m.ends, v ≠ e → ∀ B : Nat → Bool, B v = true → B e = false → (m.starts.length * m.n * m.n * δ : ℚ) <
      ∑ u' ∈ range m.n, ∑ v' ∈ range m.n, if u' ≠ v' ∧ keepVertex m.deps .pi v e u' = true ∧
        keepVertex m.deps .pi v e v' = true ∧ B u' = true ∧ B v' = false then ∑ a ∈ range m.starts.length, y (varId m.n a u' v') else 0) :
    Feasible m.n m.starts m.ends (DepIn m.n m.w) (readPaths m.n m.starts m.ends y) ∧
    IsPoint m.n m.starts m.ends (readPaths m.n m.starts m.ends y) x := by
  have hi := WM.inst h
  have hl := hi.lenEq
  have r := (rows_iff _ _ _ _ _).1 hrows
  have h01 : ∀ a < m.starts.length, ∀ u < m.n, ∀ v < m.n, x (varId m.n a u v) = 0 ∨ x (varId m.n a u v) = 1 :=
    fun a ha u hu v hv => by rcases (hnear _ (varId_lt ha hu hv)).2 with h | h; exacts [Or.inl h.1, Or.inr h.1]
  have hle : ∀ a < m.starts.length, ∀ u < m.n, ∀ v < m.n, y (varId m.n a u v) ≤ x (varId m.n a u v) + δ :=
    fun a ha u hu v hv => by rcases (hnear _ (varId_lt ha hu hv)).2 with h | h <;> rw [h.1] <;> linarith [h.2]
  obtain ⟨own, nx, pv, ht⟩ := tour_of_integral r h01
  have o := owned_of_rows hi r ht
  obtain ⟨P, hc, huse⟩ := cover_of_owned hi o (connected_of_cuts h ht hδ hle hu)
  have hx : IsPoint m.n m.starts m.ends P x := by
    intro a u v ha hu hv
    rw [huse a u v ha hu hv]
    have hval := ht.val a ha u hu v hv
    unfold varId at hval
    constructor
    · intro hq; rw [hval, if_pos hq]
    · intro hq; rw [hval, if_neg hq]
  have hrp := C36_read_paths_inverse h hc hx
  rw [← readPaths_congr (y := y) (x := x) (fun s hs => hi.lt s (List.mem_append_left _ hs)) (by
    intro i hi
    rw [hone i hi]
    constructor
    · intro h; rw [h]; norm_num
    · intro h
      rcases (hnear i hi).2 with h' | h'
      · rw [h'.1] at h; norm_num at h
      · exact h'.1)] at hrp
  rw [hrp]
  refine ⟨⟨hc, ?_⟩, hx⟩
  -- dependencies
  have hownp : ∀ u < m.n, ∃ p, P[own u]? = some p ∧ u ∈ p := by
    intro u hu
    have := (huse (own u) u (nx u) (ht.ownLt u hu) hu (ht.nxLt u hu)).2 ⟨rfl, rfl⟩
    exact ((uses_iff hc hl _ _ _).1 this).1
  intro u v hd
  have hun := hd.1
  have hvn := hd.2.1
  have hsame : own u = own v := by
    by_cases hA : m.starts.length > 1
    · have hs := r.same u v ((WM.arcs_iff h u v).2 hd) hA (own u) (ht.ownLt u hun)
      rw [ht.out_eq (ht.ownLt u hun) hun, ht.in_eq (ht.ownLt u hun) hvn, if_pos rfl] at hs
      have h1 : own (pv v) = own u := by
        by_contra hne
        rw [if_neg hne] at hs; norm_num at hs
      have h2 : own v = own (pv v) := by
        have := o.keep (pv v) (ht.pvLt v hvn) (by rw [ht.nxpv v hvn]; exact fun hs => hi.noIn v hs u hd)
        rwa [ht.nxpv v hvn] at this
      rw [h2, h1]
    · have h1 := ht.ownLt u hun
      have h2 := ht.ownLt v hvn
      omega
  obtain ⟨p, hpa, hup⟩ := hownp u hun
  obtain ⟨q, hqa, hvq⟩ := hownp v hvn
  rw [hsame, hqa] at hpa
  cases hpa
  exact ⟨_, List.mem_of_getElem? hqa, order_of_cuts h hc hx hδ hle hd (hp u v hd) hqa hup hvq⟩

/-- **C35**, with numerical noise: let `x` be a 0/1 point that satisfies the rows of the initial LP and `y` what the solver
returns for it: nonnegative values, each off by less than the tolerance `1e-10`, together by at most one half (the model has at
most `2^31` variables).  If neither the connectivity nor the pi separation finds a violated cut at `y`, then the paths
read off `y` are a feasible solution, and `x` is the point of these paths. -/
theorem C35_noisy_uncut_is_feasible {x : Nat → ℚ} {δ : ℚ} (h : WM.make rows cols w starts ends = .ok m) (hsw : sw.Correct) (hmf : mf.Correct)
    (hδ : 0 ≤ δ) (hδ2 : m.starts.length * m.n * m.n * δ ≤ 1 / 2)
    (hnear : NearInt (m.starts.length * m.n * m.n) δ y x)
    (hone : ∀ i < m.starts.length * m.n * m.n, y i > 1 - 1 / 10 ^ 10 ↔ x i = 1)
    (hrows : ∀ c ∈ buildConstraints m.n m.starts m.ends m.deps.arcs, c.Sat x)
    (hu : ucut sw m.starts.length m.n y = none) (hp : piCut mf m.n m.starts m.ends m.deps y = none) :
    Feasible m.n m.starts m.ends (DepIn m.n m.w) (readPaths m.n m.starts m.ends y) ∧
    IsPoint m.n m.starts m.ends (readPaths m.n m.starts m.ends y) x := by
  have hpos : ∀ a < m.starts.length, ∀ u < m.n, ∀ v < m.n, 0 ≤ y (varId m.n a u v) :=
    fun a ha u hu v hv => (hnear _ (varId_lt ha hu hv)).1
  refine feasible_of_cuts h hδ hnear hone hrows ?_ ?_
  · intro par hsp
    have := cuts_of_ucut_none h hsw hpos hu hsp
    have h2 : (1 / 2 : ℚ) < 2 - 1 / 10 ^ 10 := by norm_num
    linarith
  · intro u v hd e he hve B hB1 hB2
    have := cuts_of_piCut_none h hmf hpos hp hd he hve hB1 hB2
    have h2 : (1 / 2 : ℚ) < 1 - 1 / 10 ^ 10 := by norm_num
    linarith

/-- **C35.** Let `y` be a 0/1 point that satisfies the rows of the initial LP and for which neither the
connectivity nor the pi separation finds a violated cut.  Then the paths read off `y` are a feasible
solution, and `y` is the point of these paths. -/
theorem C35_integral_uncut_is_feasible (h : WM.make rows cols w starts ends = .ok m) (hsw : sw.Correct) (hmf : mf.Correct)
    (hint : ∀ i < m.starts.length * m.n * m.n, y i = 0 ∨ y i = 1)
    (hrows : ∀ c ∈ buildConstraints m.n m.starts m.ends m.deps.arcs, c.Sat y)
    (hu : ucut sw m.starts.length m.n y = none) (hp : piCut mf m.n m.starts m.ends m.deps y = none) :
    Feasible m.n m.starts m.ends (DepIn m.n m.w) (readPaths m.n m.starts m.ends y) ∧
    IsPoint m.n m.starts m.ends (readPaths m.n m.starts m.ends y) y := by
  refine C35_noisy_uncut_is_feasible (δ := 0) h hsw hmf (le_refl _) (by norm_num) ?_ ?_ hrows hu hp
  · intro i hi
    rcases hint i hi with h | h <;> rw [h] <;> norm_num
  · intro i hi
    rcases hint i hi with h | h <;> rw [h] <;> norm_num

/-- The converse: at the point of a feasible solution (of at least three nodes) neither separation finds a
cut, so the hypotheses of `C35_integral_uncut_is_feasible` are exactly what characterises solutions. -/
theorem C35_feasible_is_uncut {P : Paths} (h : WM.make rows cols w starts ends = .ok m) (hsw : sw.Correct) (hmf : mf.Correct)
    (hsize : m.starts.length * m.n * m.n ≤ 2147483647) (h3 : 3 ≤ m.n)
    (hf : Feasible m.n m.starts m.ends (DepIn m.n m.w) P) (hx : IsPoint m.n m.starts m.ends P y) :
    (∀ i < m.starts.length * m.n * m.n, y i = 0 ∨ y i = 1) ∧
    (∀ c ∈ buildConstraints m.n m.starts m.ends m.deps.arcs, c.Sat y) ∧
    ucut sw m.starts.length m.n y = none ∧ piCut mf m.n m.starts m.ends m.deps y = none ∧
    sigmaCut mf m.n m.starts m.deps y = none ∧ piSigmaCut mf m.n m.starts m.deps y = none := by
  have h01 : ∀ i < m.starts.length * m.n * m.n, y i = 0 ∨ y i = 1 := by
    intro i hlt
    have hn : 0 < m.n := by omega
    have h1 : i / m.n / m.n < m.starts.length := by
      rw [Nat.div_div_eq_div_mul, Nat.div_lt_iff_lt_mul (Nat.mul_pos hn hn), ← Nat.mul_assoc]; exact hlt
    have h2 : i / m.n % m.n < m.n := Nat.mod_lt _ hn
    have h3 : i % m.n < m.n := Nat.mod_lt _ hn
    have e : i / m.n / m.n * m.n * m.n + i / m.n % m.n * m.n + i % m.n = i := by
      have e1 := Nat.div_add_mod (i / m.n) m.n
      have e2 := Nat.div_add_mod i m.n
      calc _ = m.n * (m.n * (i / m.n / m.n) + i / m.n % m.n) + i % m.n := by ring
        _ = i := by rw [e1, e2]
    have hh := hx _ _ _ h1 h2 h3
    rw [e] at hh
    by_cases hu : Uses m.starts m.ends P (i / m.n / m.n) (i / m.n % m.n) (i % m.n)
    · exact Or.inr (hh.1 hu)
    · exact Or.inl (hh.2 hu)
  have hnn : ∀ i < m.starts.length * m.n * m.n, 0 ≤ y i := by
    intro i hi; rcases h01 i hi with e | e <;> rw [e]; norm_num
  refine ⟨h01, C33_lp_admits_feasible_partial h hf hx h3, ?_, ?_, ?_, ?_⟩
  · cases e : ucut sw m.starts.length m.n y with
    | none => rfl
    | some c => exact absurd (C38_connectivity_cut_valid h hsw hsize e hf.1 hx) (C59_cuts_are_violated h hsw hmf hnn (Or.inl e))
  · cases e : piCut mf m.n m.starts m.ends m.deps y with
    | none => rfl
    | some c => exact absurd (C39_precedence_cuts_valid h hmf hsize (Or.inl e) hf hx) (C59_cuts_are_violated h hsw hmf hnn (Or.inr (Or.inl e)))
  · cases e : sigmaCut mf m.n m.starts m.deps y with
    | none => rfl
    | some c => exact absurd (C39_precedence_cuts_valid h hmf hsize (Or.inr (Or.inl e)) hf hx) (C59_cuts_are_violated h hsw hmf hnn (Or.inr (Or.inr (Or.inl e))))
  · cases e : piSigmaCut mf m.n m.starts m.deps y with
    | none => rfl
    | some c => exact absurd (C39_precedence_cuts_valid h hmf hsize (Or.inr (Or.inr e)) hf hx) (C59_cuts_are_violated h hsw hmf hnn (Or.inr (Or.inr (Or.inr e))))

/-! Non-vacuity: the instance of `niExW` has such points. -/

example (sw : GlobalCut) (mf : MaxFlow) (hsw : sw.Correct) (hmf : mf.Correct) :
    ∃ (m : WM) (y : Nat → ℚ), WM.make 6 6 niExW [0, 0] [0, 4] = .ok m ∧ m.deps.arcs ≠ [] ∧
      (∀ i < m.starts.length * m.n * m.n, y i = 0 ∨ y i = 1) ∧
      (∀ c ∈ buildConstraints m.n m.starts m.ends m.deps.arcs, c.Sat y) ∧
      ucut sw m.starts.length m.n y = none ∧ piCut mf m.n m.starts m.ends m.deps y = none := by
  have key : testOk (WM.make 6 6 niExW [0, 0] [0, 4]) (fun m =>
      decide (m.n = 8 ∧ m.starts.length = 2 ∧ m.deps.arcs ≠ []) && feasB m [[0, 3, 1, 5, 6], [7, 2, 4]]) = true := by decide +kernel
  obtain ⟨m, hm, k⟩ := testOk_iff key
  rw [Bool.and_eq_true] at k
  obtain ⟨hn, hl, ha⟩ := of_decide_eq_true k.1
  obtain ⟨h1, h2, h3, h4, _⟩ := C35_feasible_is_uncut hm hsw hmf (by rw [hn, hl]; decide) (by omega) (feasB_sound k.2)
    (pointOf_isPoint _ _ _ _)
  exact ⟨m, _, hm, ha, h1, h2, h3, h4⟩

end Mtsp
