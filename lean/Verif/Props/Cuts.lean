import Verif.Proof.Cuts
import Verif.Props.LP

/-! C38, C39: cuts never remove a feasible solution.  C59: every cut removes the point it was derived
from.  All of this is for arbitrary minimum cut algorithms that keep their contract (Spec/Cuts.lean). -/

namespace Mtsp
open Finset Relation

variable {rows cols : Nat} {w : Weights} {starts ends : List Nat} {m : WM} {P : Paths} {x y : Nat → ℚ}
  {sw : GlobalCut} {mf : MaxFlow} {c : LinCon}

/-! ### correct minimum cut algorithms exist -/

theorem exists_min_of_finite (N : Nat) (Q : (Nat → Bool) → Prop) (hQ : ∃ B, Q B)
    (f : (Nat → Bool) → ℚ) (hf : ∀ B B', (∀ u < N, B u = B' u) → f B = f B') :
    ∃ B, Q B ∧ ∀ B', Q B' → f B ≤ f B' := by
  classical
  -- finitely many values
  let S : Finset ℚ := (Finset.powerset (range N)).image fun s => f fun u => decide (u ∈ s)
  have hval : ∀ B, f B ∈ S := by
    intro B
    refine Finset.mem_image.2 ⟨(range N).filter fun u => B u = true, by simp, ?_⟩
    apply hf
    intro u hu; simp [hu]
  let S' := S.filter fun v => ∃ B, Q B ∧ f B = v
  have hne : S'.Nonempty := by
    obtain ⟨B, hB⟩ := hQ
    exact ⟨f B, Finset.mem_filter.2 ⟨hval B, B, hB, rfl⟩⟩
  obtain ⟨v, hv, hmin⟩ := S'.exists_min_image id hne
  obtain ⟨_, B, hB, rfl⟩ := Finset.mem_filter.1 hv
  refine ⟨B, hB, fun B' hB' => ?_⟩
  exact hmin (f B') (Finset.mem_filter.2 ⟨hval B', B', hB', rfl⟩)

/-- the contract of `stoer_wagner_min_cut` can be met -/
theorem GlobalCut.correct_exists : ∃ sw : GlobalCut, sw.Correct := by
  have h : ∀ (N : Nat) (w : Nat → Nat → ℚ), ∃ r : ℚ × (Nat → Bool), 2 ≤ N →
      Splits N r.2 ∧ r.1 = cutWeight N w r.2 ∧ ∀ par, Splits N par → r.1 ≤ cutWeight N w par := by
    intro N w
    by_cases hN : 2 ≤ N
    · obtain ⟨B, hB, hmin⟩ := exists_min_of_finite N (Splits N)
        ⟨fun u => decide (u = 0), ⟨0, by omega, rfl⟩, ⟨1, by omega, rfl⟩⟩ (cutWeight N w) (by
          intro B B' h
          unfold cutWeight
          refine Finset.sum_congr rfl fun u hu => Finset.sum_congr rfl fun v hv => ?_
          rw [h u (Finset.mem_range.1 hu), h v (Finset.mem_range.1 hv)])
      exact ⟨(cutWeight N w B, B), fun _ => ⟨hB, rfl, hmin⟩⟩
    · exact ⟨(0, fun _ => true), fun h => absurd h hN⟩
  choose r hr using h
  exact ⟨r, ⟨fun N w hN => (hr N w hN).1, fun N w hN => (hr N w hN).2.1, fun N w hN _ => (hr N w hN).2.2⟩⟩

/-- the contract of `boykov_kolmogorov_max_flow` can be met -/
theorem MaxFlow.correct_exists : ∃ mf : MaxFlow, mf.Correct := by
  have h : ∀ (N : Nat) (keep : Nat → Bool) (c : Nat → Nat → ℚ) (s t : Nat), ∃ r : ℚ × (Nat → Bool), s ≠ t →
      (r.2 s = true ∧ r.2 t = false) ∧ r.1 = flowCut N keep c r.2 ∧
      ∀ B : Nat → Bool, B s = true → B t = false → r.1 ≤ flowCut N keep c B := by
    intro N keep c s t
    by_cases hst : s ≠ t
    · obtain ⟨B, hB, hmin⟩ := exists_min_of_finite N (fun B => B s = true ∧ B t = false)
        ⟨fun u => decide (u = s), by simp, by simpa using Ne.symm hst⟩ (flowCut N keep c) (by
          intro B B' h
          unfold flowCut
          refine Finset.sum_congr rfl fun u hu => Finset.sum_congr rfl fun v hv => ?_
          rw [h u (Finset.mem_range.1 hu), h v (Finset.mem_range.1 hv)])
      exact ⟨(flowCut N keep c B, B), fun _ => ⟨hB, rfl, fun B' h1 h2 => hmin B' ⟨h1, h2⟩⟩⟩
    · exact ⟨(0, fun _ => true), fun h => absurd h hst⟩
  choose r hr using h
  refine ⟨r, ⟨?_, ?_, ?_⟩⟩
  · intro N keep c s t _ _ hst _ _; exact (hr N keep c s t hst).1
  · intro N keep c s t _ _ hst _ _ _; exact (hr N keep c s t hst).2.1
  · intro N keep c s t _ _ hst _ _ _; exact (hr N keep c s t hst).2.2

/-! ### C38 -/

theorem WM.two_le (h : WM.make rows cols w starts ends = .ok m) : 2 ≤ m.n := by
  have s := (WM.make_ok h).1
  have := s.two; have := s.n_eq; omega

/-- **C38.** Whatever point `y` a connectivity cut was derived from, no feasible solution (indeed no cover)
violates it.  `hsize` is the limit the solver itself puts on the number of variables. -/
theorem C38_connectivity_cut_valid (h : WM.make rows cols w starts ends = .ok m) (hsw : sw.Correct)
    (hsize : m.starts.length * m.n * m.n ≤ 2147483647)
    (hcut : ucut sw m.starts.length m.n y = some c)
    (hc : IsCover m.n m.starts m.ends P) (hx : IsPoint m.n m.starts m.ends P x) : c.Sat x := by
  have hi := WM.inst h
  obtain ⟨own, pv, ht, _⟩ := hx.tour hc hi.lenEq
  unfold ucut at hcut
  split at hcut
  · simp at hcut
  · cases hcut
    set par := (sw m.n (undirWeight m.starts.length m.n y)).2 with hpar
    obtain ⟨⟨u, hu, hu1⟩, ⟨v, hv, hv0⟩⟩ := hsw.splits m.n (undirWeight m.starts.length m.n y) (WM.two_le h)
    have hsum := eval_ucutIds m.starts.length m.n x par
    have hN : m.n ≤ 2147483647 := by
      have hp := hi.pos
      have h2 := WM.two_le h
      have : 1 * 1 * m.n ≤ m.starts.length * m.n * m.n := Nat.mul_le_mul_right _ (Nat.mul_le_mul hp (by omega))
      omega
    apply sat_ge_const
    · rw [hsum]
      exact (tour_sum_le ht fun u v => par u ≠ par v).trans (nat_le_dblMax hN)
    · rw [hsum, tour_sum_eq ht fun u v => par u ≠ par v, Finset.sum_boole]
      obtain ⟨⟨z1, hz1, h1, h1'⟩, ⟨z2, hz2, h2, h2'⟩⟩ := cross_both hc.flatten_nodup (B := par)
        ((hc.mem_flatten u).2 hu) ((hc.mem_flatten v).2 hv) hu1 hv0
      have : 1 < #{z ∈ range m.n | par z ≠ par (nxt P.flatten z)} := by
        rw [Finset.one_lt_card]
        refine ⟨z1, ?_, z2, ?_, ?_⟩
        · simp [h1, h1', (hc.mem_flatten z1).1 hz1]
        · simp [h2, h2', (hc.mem_flatten z2).1 hz2]
        · rintro rfl; rw [h1] at h2; simp at h2
      exact_mod_cast this

/-! ### C39 -/

theorem idxOf_flatten (hc : IsCover m.n m.starts m.ends P) {a z : Nat} {p : List Nat} (hp : P[a]? = some p) (hz : z ∈ p) :
    P.flatten.idxOf z = (P.take a).flatten.length + p.idxOf z := by
  have hn := hc.flatten_nodup
  have e : P.flatten = (P.take a).flatten ++ (p ++ (P.drop (a + 1)).flatten) := by
    conv_lhs => rw [split_at hp]
    simp
  rw [e] at hn ⊢
  have h1 : z ∉ (P.take a).flatten := fun hm => (List.nodup_append.1 hn).2.2 z hm z (by simp [hz]) rfl
  rw [List.idxOf_append_of_notMem h1, List.idxOf_append_of_mem hz]

/-- what lies between two nodes of a path is on this path -/
theorem mem_block (hc : IsCover m.n m.starts m.ends P) {a u v z : Nat} {p : List Nat} (hp : P[a]? = some p)
    (hu : u ∈ p) (hv : v ∈ p) (hz : z < m.n) (h1 : P.flatten.idxOf u ≤ P.flatten.idxOf z)
    (h2 : P.flatten.idxOf z ≤ P.flatten.idxOf v) : z ∈ p := by
  rw [idxOf_flatten hc hp hu] at h1
  rw [idxOf_flatten hc hp hv] at h2
  have hvl := List.idxOf_lt_length_of_mem hv
  have hzm := (hc.mem_flatten z).2 hz
  have e : P.flatten = (P.take a).flatten ++ (p ++ (P.drop (a + 1)).flatten) := by
    conv_lhs => rw [split_at hp]
    simp
  have : P.flatten[P.flatten.idxOf z]? = some z := by
    rw [List.getElem?_eq_getElem (List.idxOf_lt_length_of_mem hzm), List.getElem_idxOf]
  generalize P.flatten.idxOf z = k at *
  rw [e, List.getElem?_append_right (by omega), List.getElem?_append_left (by omega)] at this
  exact List.mem_of_getElem? this

theorem before_idx (hc : IsCover m.n m.starts m.ends P) {a u v : Nat} {p : List Nat} (hp : P[a]? = some p) (h : Before p u v) :
    P.flatten.idxOf u < P.flatten.idxOf v := by
  obtain ⟨hu, hv, hlt⟩ := (before_iff_idxOf (hc.nodup (List.mem_of_getElem? hp)) u v).1 h
  rw [idxOf_flatten hc hp hu, idxOf_flatten hc hp hv]; omega

theorem WM.hasArc_iff (h : WM.make rows cols w starts ends = .ok m) {u v : Nat} (hu : u < m.n) (hv : v < m.n) :
    m.deps.hasArc u v = true ↔ DepIn m.n m.w u v := by
  rw [(WM.make_ok h).1.deps]; exact (C16_queries_agree m.n m.w).2.2.2.2.1 u v hu hv

/-- the constraint of one cut, if all nodes on the way from `s` to `t` are in the graph -/
theorem tryCut_valid (h : WM.make rows cols w starts ends = .ok m) (hmf : mf.Correct)
    (hsize : m.starts.length * m.n * m.n ≤ 2147483647) {s t : Nat} {k : CutKind} (hs : s < m.n) (htn : t < m.n) (hst : s ≠ t)
    (hcut : tryCut mf m.starts.length m.n m.deps y s t k = some c)
    (hc : IsCover m.n m.starts m.ends P) (hx : IsPoint m.n m.starts m.ends P x)
    (hkeep : ∀ z < m.n, OnWay P.flatten s t z → keepVertex m.deps k s t z = true) : c.Sat x := by
  have hi := WM.inst h
  obtain ⟨own, pv, ht, _⟩ := hx.tour hc hi.lenEq
  have hks : keepVertex m.deps k s t s = true := hkeep s hs (by unfold OnWay; split <;> simp; omega)
  have hkt : keepVertex m.deps k s t t = true := hkeep t htn (by unfold OnWay; split <;> simp; omega)
  obtain ⟨hbs, hbt⟩ := hmf.sides m.n (keepVertex m.deps k s t) (arcCapacity m.starts.length m.n y) s t hs htn hst hks hkt
  unfold tryCut findMinCut at hcut
  simp only at hcut
  set r := mf m.n (keepVertex m.deps k s t) (arcCapacity m.starts.length m.n y) s t with hr
  by_cases hv : r.1 ≥ 1 - 1 / 10 ^ 10
  · rw [if_pos hv] at hcut
    rw [if_neg (not_lt.2 hv)] at hcut
    simp at hcut
  · rw [if_neg hv] at hcut
    rw [if_pos (not_le.1 hv)] at hcut
    cases hcut
    have hN : m.n ≤ 2147483647 := by
      have hp := hi.pos
      have h2 := WM.two_le h
      have : 1 * 1 * m.n ≤ m.starts.length * m.n * m.n := Nat.mul_le_mul_right _ (Nat.mul_le_mul hp (by omega))
      omega
    have hsum := eval_sum_cutIds m.starts.length m.n x (cutEdges m.n (keepVertex m.deps k s t) r.2)
    rw [sum_cutEdges m.n (keepVertex m.deps k s t) r.2 (fun u v => ∑ a ∈ range m.starts.length, x (varId m.n a u v))] at hsum
    apply sat_ge_const
    · rw [hsum]
      exact (tour_sum_le ht _).trans (nat_le_dblMax hN)
    · rw [hsum, tour_sum_eq ht (fun u v => u ≠ v ∧ keepVertex m.deps k s t u = true ∧ keepVertex m.deps k s t v = true ∧
        r.2 u = true ∧ r.2 v = false), Finset.sum_boole]
      obtain ⟨z, hz, hz1, hz2, hw1, hw2⟩ := cross_walk hc.flatten_nodup (B := r.2)
        ((hc.mem_flatten s).2 hs) ((hc.mem_flatten t).2 htn) hbs hbt
      have hzn := (hc.mem_flatten z).1 hz
      have hzn' := ht.nxLt z hzn
      have : 0 < #{u ∈ range m.n | u ≠ nxt P.flatten u ∧ keepVertex m.deps k s t u = true ∧
          keepVertex m.deps k s t (nxt P.flatten u) = true ∧ r.2 u = true ∧ r.2 (nxt P.flatten u) = false} := by
        rw [Finset.card_pos]
        refine ⟨z, Finset.mem_filter.2 ⟨Finset.mem_range.2 hzn, ?_, hkeep z hzn hw1, hkeep _ hzn' hw2, hz1, hz2⟩⟩
        intro e; rw [← e, hz1] at hz2; simp at hz2
      exact_mod_cast this

section
variable (h : WM.make rows cols w starts ends = .ok m) (hf : Feasible m.n m.starts m.ends (DepIn m.n m.w) P)
include h hf

theorem keep_pi {n e z : Nat} (hn : n < m.n) (he : e ∈ m.ends) (hz : z < m.n) (hw : OnWay P.flatten n e z) :
    keepVertex m.deps .pi n e z = true := by
  have hi := WM.inst h
  simp only [keepVertex, Bool.not_eq_true']
  rw [Bool.eq_false_iff]
  intro harc
  have hd := (WM.hasArc_iff h hz hn).1 harc
  obtain ⟨a, p, hp, hb, hzp, hnp⟩ := dep_path hi hf hd
  have hlt := before_idx hf.1 hp hb
  unfold OnWay at hw
  split at hw
  · omega
  · rename_i hne
    have h1 : P.flatten.idxOf z ≤ P.flatten.idxOf e := by omega
    have hep := mem_block hf.1 hp hzp hnp (hi.lt e (List.mem_append_right _ he)) h1 (by omega)
    have hlast := end_last hf.1 hi.lenEq he hp hep
    have hnd := hf.1.nodup (List.mem_of_getElem? hp)
    have hne' : n ≠ e := by rintro rfl; omega
    rcases before_total hnd hnp hep hne' with hb' | hb'
    · have := before_idx hf.1 hp hb'; omega
    · exact not_before_last hnd hlast hb'

theorem keep_sigma {s n z : Nat} (hs : s ∈ m.starts) (hn : n < m.n) (hz : z < m.n) (hw : OnWay P.flatten s n z) :
    keepVertex m.deps .sigma s n z = true := by
  have hi := WM.inst h
  simp only [keepVertex, Bool.not_eq_true']
  rw [Bool.eq_false_iff]
  intro harc
  have hd := (WM.hasArc_iff h hn hz).1 harc
  obtain ⟨a, p, hp, hb, hnp, hzp⟩ := dep_path hi hf hd
  have hlt := before_idx hf.1 hp hb
  unfold OnWay at hw
  split at hw
  · omega
  · rename_i hne
    have h1 : P.flatten.idxOf s ≤ P.flatten.idxOf z := by omega
    have hsp := mem_block hf.1 hp hnp hzp (hi.lt s (List.mem_append_left _ hs)) (by omega) h1
    have hfirst := start_first hf.1 hs hp hsp
    have hnd := hf.1.nodup (List.mem_of_getElem? hp)
    have hne' : n ≠ s := by rintro rfl; omega
    rcases before_total hnd hnp hsp hne' with hb' | hb'
    · exact not_before_head hnd hfirst hb'
    · have := before_idx hf.1 hp hb'; omega

theorem keep_piSigma {s t z : Nat} (hst : DepIn m.n m.w s t) (hz : z < m.n) (hw : OnWay P.flatten s t z) :
    keepVertex m.deps .piSigma s t z = true := by
  have hi := WM.inst h
  obtain ⟨b, q, hq, hbq, _, _⟩ := dep_path hi hf hst
  have hltq := before_idx hf.1 hq hbq
  obtain ⟨hs, ht⟩ := hi.dlt s t hst
  unfold OnWay at hw
  rw [if_pos hltq.le] at hw
  simp only [keepVertex, Bool.and_eq_true, Bool.not_eq_true']
  constructor
  · rw [Bool.eq_false_iff]
    intro harc
    obtain ⟨a, p, hp, hb, _, _⟩ := dep_path hi hf ((WM.hasArc_iff h hz hs).1 harc)
    have := before_idx hf.1 hp hb; omega
  · rw [Bool.eq_false_iff]
    intro harc
    obtain ⟨a, p, hp, hb, _, _⟩ := dep_path hi hf ((WM.hasArc_iff h ht hz).1 harc)
    have := before_idx hf.1 hp hb; omega

end

/-- where a precedence cut comes from -/
theorem piCut_some {N : Nat} {starts ends : List Nat} {g : DepGraph} (hcut : piCut mf N starts ends g y = some c) :
    ∃ n < N, ∃ e ∈ ends, n ≠ e ∧ tryCut mf starts.length N g y n e .pi = some c := by
  unfold piCut at hcut
  split at hcut
  · simp at hcut
  · obtain ⟨n, hn, hcut⟩ := List.exists_of_findSome?_eq_some hcut
    split at hcut
    · simp at hcut
    · split at hcut
      · simp at hcut
      · obtain ⟨e, he, hcut⟩ := List.exists_of_findSome?_eq_some hcut
        split at hcut
        · simp at hcut
        · exact ⟨n, List.mem_range.1 hn, e, he, by assumption, hcut⟩

theorem sigmaCut_some {N : Nat} {starts : List Nat} {g : DepGraph} (hcut : sigmaCut mf N starts g y = some c) :
    ∃ n < N, ∃ s ∈ starts, n ≠ s ∧ tryCut mf starts.length N g y s n .sigma = some c := by
  unfold sigmaCut at hcut
  split at hcut
  · simp at hcut
  · obtain ⟨n, hn, hcut⟩ := List.exists_of_findSome?_eq_some hcut
    split at hcut
    · simp at hcut
    · split at hcut
      · simp at hcut
      · obtain ⟨e, he, hcut⟩ := List.exists_of_findSome?_eq_some hcut
        split at hcut
        · simp at hcut
        · exact ⟨n, List.mem_range.1 hn, e, he, by assumption, hcut⟩

theorem piSigmaCut_some {N : Nat} {starts : List Nat} {g : DepGraph} (hcut : piSigmaCut mf N starts g y = some c) :
    ∃ s t, (s, t) ∈ g.arcs ∧ tryCut mf starts.length N g y s t .piSigma = some c := by
  unfold piSigmaCut at hcut
  split at hcut
  · simp at hcut
  · obtain ⟨⟨s, t⟩, hst, hcut⟩ := List.exists_of_findSome?_eq_some hcut
    exact ⟨s, t, hst, hcut⟩

/-- **C39.** Whatever point `y` a precedence cut (pi, sigma or pi-sigma) was derived from, no feasible
solution violates it. -/
theorem C39_precedence_cuts_valid (h : WM.make rows cols w starts ends = .ok m) (hmf : mf.Correct)
    (hsize : m.starts.length * m.n * m.n ≤ 2147483647)
    (hcut : piCut mf m.n m.starts m.ends m.deps y = some c ∨ sigmaCut mf m.n m.starts m.deps y = some c ∨
      piSigmaCut mf m.n m.starts m.deps y = some c)
    (hf : Feasible m.n m.starts m.ends (DepIn m.n m.w) P) (hx : IsPoint m.n m.starts m.ends P x) : c.Sat x := by
  have hi := WM.inst h
  rcases hcut with hcut | hcut | hcut
  · obtain ⟨n, hn, e, he, hne, hcut⟩ := piCut_some hcut
    exact tryCut_valid h hmf hsize hn (hi.lt e (List.mem_append_right _ he)) hne hcut hf.1 hx
      fun z hz hw => keep_pi h hf hn he hz hw
  · obtain ⟨n, hn, s, hs, hne, hcut⟩ := sigmaCut_some hcut
    exact tryCut_valid h hmf hsize (hi.lt s (List.mem_append_left _ hs)) hn (Ne.symm hne) hcut hf.1 hx
      fun z hz hw => keep_sigma h hf hs hn hz hw
  · obtain ⟨s, t, hst, hcut⟩ := piSigmaCut_some hcut
    have hd := (WM.arcs_iff h s t).1 hst
    refine tryCut_valid h hmf hsize (hi.dlt _ _ hd).1 (hi.dlt _ _ hd).2 ?_ hcut hf.1 hx
      fun z hz hw => keep_piSigma h hf hd hz hw
    rintro rfl
    exact hi.acyclic s (.single hd)

/-! ### C59 -/

theorem cutWeight_undir (A N : Nat) (y : Nat → ℚ) (par : Nat → Bool) :
    cutWeight N (undirWeight A N y) par = (sumVars (ucutIds A N par)).eval y := by
  rw [eval_ucutIds]
  unfold cutWeight
  have e1 : ∀ u v : Nat, (if par u ≠ par v then ∑ a ∈ range A, y (varId N a u v) else 0) =
      (if u < v ∧ par u ≠ par v then ∑ a ∈ range A, y (varId N a u v) else 0) +
      (if v < u ∧ par v ≠ par u then ∑ a ∈ range A, y (varId N a u v) else 0) := by
    intro u v
    by_cases hp : par u = par v
    · simp [hp]
    · have hp' : ¬ par v = par u := fun e => hp e.symm
      rcases Nat.lt_trichotomy u v with h | h | h
      · simp [hp, h, Nat.lt_asymm h]
      · exact absurd (by rw [h]) hp
      · simp [hp, hp', h, Nat.lt_asymm h]
  have e2 : ∀ u v : Nat, (if u < v ∧ par u ≠ par v then undirWeight A N y u v else 0) =
      (if u < v ∧ par u ≠ par v then ∑ a ∈ range A, y (varId N a u v) else 0) +
      (if u < v ∧ par u ≠ par v then ∑ a ∈ range A, y (varId N a v u) else 0) := by
    intro u v
    split
    · rw [undirWeight_eq, Finset.sum_add_distrib]
    · simp
  simp only [e1, e2, Finset.sum_add_distrib]
  congr 1
  exact Finset.sum_comm

theorem flowCut_eq (A N : Nat) (y : Nat → ℚ) (keep B : Nat → Bool) :
    flowCut N keep (arcCapacity A N y) B =
      (sumVars ((cutEdges N keep B).flatMap fun uv => (List.range A).map fun a => varId N a uv.1 uv.2)).eval y := by
  rw [eval_sum_cutIds, sum_cutEdges N keep B (fun u v => ∑ a ∈ range A, y (varId N a u v))]
  unfold flowCut
  simp only [arcCapacity_eq]

theorem tryCut_violated {A N : Nat} {g : DepGraph} (hmf : mf.Correct) {s t : Nat} {k : CutKind}
    (hs : s < N) (ht : t < N) (hst : s ≠ t) (hks : keepVertex g k s t s = true) (hkt : keepVertex g k s t t = true)
    (hy : ∀ a u v, a < A → u < N → v < N → 0 ≤ y (varId N a u v))
    (hcut : tryCut mf A N g y s t k = some c) : ¬ c.Sat y := by
  unfold tryCut findMinCut at hcut
  simp only at hcut
  have hcap : ∀ u v, u < N → v < N → 0 ≤ arcCapacity A N y u v := by
    intro u v hu hv
    rw [arcCapacity_eq]
    exact Finset.sum_nonneg fun a ha => hy a u v (Finset.mem_range.1 ha) hu hv
  have hsz := hmf.size N (keepVertex g k s t) (arcCapacity A N y) s t hs ht hst hks hkt hcap
  set r := mf N (keepVertex g k s t) (arcCapacity A N y) s t with hr
  by_cases hv : r.1 ≥ 1 - 1 / 10 ^ 10
  · rw [if_pos hv] at hcut
    rw [if_neg (not_lt.2 hv)] at hcut
    simp at hcut
  · rw [if_neg hv] at hcut
    rw [if_pos (not_le.1 hv)] at hcut
    cases hcut
    rw [flowCut_eq] at hsz
    intro hsat
    have := ((LinCon.sat_ge_iff _ _ _).1 hsat).1
    rw [← hsz] at this
    simp only [LinComp.eval_ofConst] at this
    have hv := not_le.1 hv
    have : (0 : ℚ) < 1 / 10 ^ 10 := by norm_num
    linarith

/-- **C59.** A connectivity or precedence cut is violated by the point it was derived from, so adding it
makes progress. -/
theorem C59_cuts_are_violated (h : WM.make rows cols w starts ends = .ok m) (hsw : sw.Correct) (hmf : mf.Correct)
    (hy : ∀ i < m.starts.length * m.n * m.n, 0 ≤ y i)
    (hcut : ucut sw m.starts.length m.n y = some c ∨ piCut mf m.n m.starts m.ends m.deps y = some c ∨
      sigmaCut mf m.n m.starts m.deps y = some c ∨ piSigmaCut mf m.n m.starts m.deps y = some c) : ¬ c.Sat y := by
  have hi := WM.inst h
  have hy' : ∀ a u v, a < m.starts.length → u < m.n → v < m.n → 0 ≤ y (varId m.n a u v) := by
    intro a u v ha hu hv
    apply hy
    unfold varId
    have h1 : (a + 1) * (m.n * m.n) ≤ m.starts.length * (m.n * m.n) := Nat.mul_le_mul_right _ ha
    have h2 : (u + 1) * m.n ≤ m.n * m.n := Nat.mul_le_mul_right _ hu
    rw [Nat.mul_assoc, Nat.mul_assoc]
    rw [Nat.add_mul] at h1 h2
    omega
  have keepNot : ∀ {u v}, u < m.n → v < m.n → ¬ DepIn m.n m.w u v → m.deps.hasArc u v = false := by
    intro u v hu hv hd
    rw [Bool.eq_false_iff]; intro ha; exact hd ((WM.hasArc_iff h hu hv).1 ha)
  have hirr : ∀ u, ¬ DepIn m.n m.w u u := fun u hd => hi.acyclic u (.single hd)
  have has : ∀ u v, DepIn m.n m.w u v → ¬ DepIn m.n m.w v u := fun u v h1 h2 => hi.acyclic u (.tail (.single h1) h2)
  rcases hcut with hcut | hcut | hcut | hcut
  · unfold ucut at hcut
    split at hcut
    · simp at hcut
    · rename_i hv
      cases hcut
      have hsz := hsw.size m.n (undirWeight m.starts.length m.n y) (WM.two_le h)
      rw [cutWeight_undir] at hsz
      intro hsat
      have := ((LinCon.sat_ge_iff _ _ _).1 hsat).1
      rw [← hsz] at this
      simp only [LinComp.eval_ofConst] at this
      have hv := not_le.1 hv
      have : (0 : ℚ) < 1 / 10 ^ 10 := by norm_num
      linarith
  · obtain ⟨n, hn, e, he, hne, hcut⟩ := piCut_some hcut
    have hen := hi.lt e (List.mem_append_right _ he)
    refine tryCut_violated hmf hn hen hne ?_ ?_ hy' hcut
    · simp [keepVertex, keepNot hn hn (hirr n)]
    · simp [keepVertex, keepNot hen hn (hi.noOut e he n)]
  · obtain ⟨n, hn, s, hs, hne, hcut⟩ := sigmaCut_some hcut
    have hsn := hi.lt s (List.mem_append_left _ hs)
    refine tryCut_violated hmf hsn hn (Ne.symm hne) ?_ ?_ hy' hcut
    · simp [keepVertex, keepNot hn hsn (hi.noIn s hs n)]
    · simp [keepVertex, keepNot hn hn (hirr n)]
  · obtain ⟨s, t, hst, hcut⟩ := piSigmaCut_some hcut
    have hd := (WM.arcs_iff h s t).1 hst
    obtain ⟨hsn, htn⟩ := hi.dlt _ _ hd
    refine tryCut_violated hmf hsn htn ?_ ?_ ?_ hy' hcut
    · rintro rfl; exact hirr s hd
    · simp [keepVertex, keepNot hsn hsn (hirr s), keepNot htn hsn (has _ _ hd)]
    · simp [keepVertex, keepNot htn htn (hirr t), keepNot htn hsn (has _ _ hd)]

/-! Non-vacuity: at the point 0 every correct algorithm finds cuts for the instance `niExW`. -/

theorem piCut_none (h : WM.make rows cols w starts ends = .ok m) (hmf : mf.Correct)
    (hnone : piCut mf m.n m.starts m.ends m.deps y = none) {u n e : Nat} (hd : DepIn m.n m.w u n) (he : e ∈ m.ends) (hne : n ≠ e) :
    (mf m.n (keepVertex m.deps .pi n e) (arcCapacity m.starts.length m.n y) n e).1 ≥ 1 - 1 / 10 ^ 10 := by
  have hq := C16_queries_agree m.n m.w
  have hdeps := (WM.make_ok h).1.deps
  have hn := hd.2.1
  unfold piCut at hnone
  rw [if_neg] at hnone
  · have h1 := List.findSome?_eq_none_iff.1 hnone n (List.mem_range.2 hn)
    obtain ⟨l, hl, _, hmem⟩ := hq.2.2.2.1 n hn
    rw [← hdeps] at hl
    rw [hl] at h1
    have hlne : l.isEmpty = false := by
      rw [List.isEmpty_eq_false_iff]
      exact List.ne_nil_of_mem ((hmem u).2 hd)
    simp only [hlne] at h1
    have h2 := List.findSome?_eq_none_iff.1 h1 e he
    rw [if_neg hne] at h2
    unfold tryCut findMinCut at h2
    simp only at h2
    by_contra hlt
    rw [if_neg hlt, if_pos (not_le.1 hlt)] at h2
    simp at h2
  · rw [List.isEmpty_iff]
    intro h0
    have := (WM.arcs_iff h u n).2 hd
    rw [h0] at this; simp at this

example (sw : GlobalCut) (mf : MaxFlow) (hsw : sw.Correct) (hmf : mf.Correct) :
    ∃ (m : WM) (c c' : LinCon) (P : Paths), WM.make 6 6 niExW [0, 0] [0, 4] = .ok m ∧
      m.starts.length * m.n * m.n ≤ 2147483647 ∧
      ucut sw m.starts.length m.n (fun _ => 0) = some c ∧
      piCut mf m.n m.starts m.ends m.deps (fun _ => 0) = some c' ∧
      Feasible m.n m.starts m.ends (DepIn m.n m.w) P := by
  have key : testOk (WM.make 6 6 niExW [0, 0] [0, 4]) (fun m =>
      decide (m.n = 8 ∧ m.starts.length = 2 ∧ m.ends ≠ [] ∧ (3, 1) ∈ m.deps.arcs ∧ 1 ∉ m.ends) &&
        feasB m [[0, 3, 1, 5, 6], [7, 2, 4]]) = true := by decide +kernel
  obtain ⟨m, hm, k⟩ := testOk_iff key
  rw [Bool.and_eq_true] at k
  obtain ⟨hn, hl, hne, ha, h1⟩ := of_decide_eq_true k.1
  have hcap : ∀ u v, arcCapacity m.starts.length m.n (fun _ => 0) u v = 0 := by intro u v; rw [arcCapacity_eq]; simp
  have hund : ∀ u v, undirWeight m.starts.length m.n (fun _ => 0) u v = 0 := by intro u v; rw [undirWeight_eq]; simp
  have hd := (WM.arcs_iff hm 3 1).1 ha
  obtain ⟨e, he⟩ := List.exists_mem_of_ne_nil _ hne
  have hi := WM.inst hm
  have hen := hi.lt e (List.mem_append_right _ he)
  have h1n : 1 < m.n := by omega
  have he1 : (1 : Nat) ≠ e := by rintro rfl; exact h1 he
  have hex : ∃ c', piCut mf m.n m.starts m.ends m.deps (fun _ => 0) = some c' := by
    by_contra hno
    have hnone : piCut mf m.n m.starts m.ends m.deps (fun _ => 0) = none := by
      cases hq : piCut mf m.n m.starts m.ends m.deps (fun _ => 0) with
      | none => rfl
      | some c => exact absurd ⟨c, hq⟩ hno
    have hge := piCut_none hm hmf hnone hd he he1
    rw [hmf.size _ _ _ _ _ h1n hen he1 ?_ ?_ ?_] at hge
    · unfold flowCut at hge
      simp only [hcap, ite_self, Finset.sum_const_zero] at hge
      norm_num at hge
    · simp only [keepVertex, Bool.not_eq_true']
      rw [Bool.eq_false_iff]; intro hh
      exact hi.acyclic 1 (.single ((WM.hasArc_iff hm h1n h1n).1 hh))
    · simp only [keepVertex, Bool.not_eq_true']
      rw [Bool.eq_false_iff]; intro hh
      exact hi.noOut e he 1 ((WM.hasArc_iff hm hen h1n).1 hh)
    · intro u v _ _; rw [hcap]
  obtain ⟨c', hc'⟩ := hex
  have hu : ucut sw m.starts.length m.n (fun _ => 0) =
      some (.ge (sumVars (ucutIds m.starts.length m.n (sw m.n (undirWeight m.starts.length m.n fun _ => 0)).2)) (.ofConst 2)) := by
    unfold ucut
    rw [if_neg]
    rw [hsw.size m.n _ (by omega)]
    unfold cutWeight
    simp only [hund, ite_self, Finset.sum_const_zero]
    norm_num
  exact ⟨m, _, c', _, hm, by rw [hn, hl]; decide, hu, hc', feasB_sound k.2⟩

end Mtsp
