import Verif.Proof.CutsRounded
import Verif.Props.Cuts
import Verif.Props.Comb
import Verif.Props.Doubles
import Verif.Props.GomoryHu

/-! C85: cuts computed with rounded numbers are valid. -/

namespace Mtsp
open Finset

variable {rows cols : Nat} {w : Weights} {starts ends : List Nat} {m : WM} {fl : ℚ → ℚ} {sw : GlobalCut} {mf : MaxFlow} {pt : Partition}
  {P : Paths} {x y : Nat → ℚ} {c : LinCon}

theorem WM.n_le (h : WM.make rows cols w starts ends = .ok m) (hsize : m.starts.length * m.n * m.n ≤ 2147483647) : m.n ≤ 2147483647 := by
  have hp := (WM.inst h).pos
  have h2 := WM.two_le h
  have : 1 * 1 * m.n ≤ m.starts.length * m.n * m.n := Nat.mul_le_mul_right _ (Nat.mul_le_mul hp (by omega))
  omega

/-- every proper partition gives a valid connectivity constraint -/
theorem partition_valid (h : WM.make rows cols w starts ends = .ok m) (hsize : m.starts.length * m.n * m.n ≤ 2147483647)
    {par : Nat → Bool} (hpar : Splits m.n par) (hc : IsCover m.n m.starts m.ends P) (hx : IsPoint m.n m.starts m.ends P x) :
    (LinCon.ge (sumVars (ucutIds m.starts.length m.n par)) (.ofConst 2)).Sat x := by
  obtain ⟨own, pv, ht, _⟩ := hx.tour hc (WM.inst h).lenEq
  obtain ⟨⟨u, hu, hu1⟩, ⟨v, hv, hv0⟩⟩ := hpar
  have hsum := eval_ucutIds m.starts.length m.n x par
  apply sat_ge_const
  · rw [hsum]
    exact (tour_sum_le ht fun u v => par u ≠ par v).trans (nat_le_dblMax (WM.n_le h hsize))
  · rw [hsum, tour_sum_eq ht fun u v => par u ≠ par v, Finset.sum_boole]
    obtain ⟨⟨z1, hz1, h1, h1'⟩, ⟨z2, hz2, h2, h2'⟩⟩ := cross_both hc.flatten_nodup (B := par)
      ((hc.mem_flatten u).2 hu) ((hc.mem_flatten v).2 hv) hu1 hv0
    have : 1 < #{z ∈ range m.n | par z ≠ par (nxt P.flatten z)} := by
      rw [Finset.one_lt_card]
      refine ⟨z1, ?_, z2, ?_, ?_⟩
      · simp [h1, h1', (hc.mem_flatten z1).1 hz1]
      · simp [h2, h2', (hc.mem_flatten z2).1 hz2]
      · rintro rfl; rw [h1] at h2; simp at h2
    exact_mod_cast this

/-- every set that contains the source and not the target gives a valid precedence constraint, if all nodes on the way are in the graph -/
theorem separation_valid (h : WM.make rows cols w starts ends = .ok m) (hsize : m.starts.length * m.n * m.n ≤ 2147483647)
    {s t : Nat} {keep black : Nat → Bool} (hs : s < m.n) (htn : t < m.n) (hbs : black s = true) (hbt : black t = false)
    (hc : IsCover m.n m.starts m.ends P) (hx : IsPoint m.n m.starts m.ends P x)
    (hkeep : ∀ z < m.n, OnWay P.flatten s t z → keep z = true) : (cutConstraint m.starts.length m.n (cutEdges m.n keep black)).Sat x := by
  obtain ⟨own, pv, ht, _⟩ := hx.tour hc (WM.inst h).lenEq
  have hsum := eval_sum_cutIds m.starts.length m.n x (cutEdges m.n keep black)
  rw [sum_cutEdges m.n keep black (fun u v => ∑ a ∈ range m.starts.length, x (varId m.n a u v))] at hsum
  apply sat_ge_const
  · rw [hsum]
    exact (tour_sum_le ht _).trans (nat_le_dblMax (WM.n_le h hsize))
  · rw [hsum, tour_sum_eq ht (fun u v => u ≠ v ∧ keep u = true ∧ keep v = true ∧ black u = true ∧ black v = false), Finset.sum_boole]
    obtain ⟨z, hz, hz1, hz2, hw1, hw2⟩ := cross_walk hc.flatten_nodup (B := black)
      ((hc.mem_flatten s).2 hs) ((hc.mem_flatten t).2 htn) hbs hbt
    have hzn := (hc.mem_flatten z).1 hz
    have hzn' := ht.nxLt z hzn
    have : 0 < #{u ∈ range m.n | u ≠ nxt P.flatten u ∧ keep u = true ∧ keep (nxt P.flatten u) = true ∧ black u = true ∧
        black (nxt P.flatten u) = false} := by
      rw [Finset.card_pos]
      refine ⟨z, Finset.mem_filter.2 ⟨Finset.mem_range.2 hzn, ?_, hkeep z hzn hw1, hkeep _ hzn' hw2, hz1, hz2⟩⟩
      intro e; rw [← e, hz1] at hz2; simp at hz2
    exact_mod_cast this

/-- **C85, connectivity cuts.** However the sums and constants are rounded and whatever cut the minimum cut algorithm finds
with its rounded numbers, as long as it is a cut, no feasible solution violates the constraint. -/
theorem C85_connectivity_cut_valid (h : WM.make rows cols w starts ends = .ok m) (hsw : sw.Proper)
    (hsize : m.starts.length * m.n * m.n ≤ 2147483647) (hcut : ucutF fl sw m.starts.length m.n y = some c)
    (hc : IsCover m.n m.starts m.ends P) (hx : IsPoint m.n m.starts m.ends P x) : c.Sat x := by
  unfold ucutF at hcut
  split at hcut
  · simp at hcut
  · cases hcut
    exact partition_valid h hsize (hsw _ _ (WM.two_le h)) hc hx

/-- source and target are on different sides -/
def MaxFlow.Sides (mf : MaxFlow) : Prop := ∀ N keep c s t, s < N → t < N → s ≠ t → keep s = true → keep t = true →
  (mf N keep c s t).2 s = true ∧ (mf N keep c s t).2 t = false

theorem tryCutF_valid (h : WM.make rows cols w starts ends = .ok m) (hmf : mf.Sides)
    (hsize : m.starts.length * m.n * m.n ≤ 2147483647) {s t : Nat} {k : CutKind} (hs : s < m.n) (htn : t < m.n) (hst : s ≠ t)
    (hcut : tryCutF fl mf m.starts.length m.n m.deps y s t k = some c)
    (hc : IsCover m.n m.starts m.ends P) (hx : IsPoint m.n m.starts m.ends P x)
    (hkeep : ∀ z < m.n, OnWay P.flatten s t z → keepVertex m.deps k s t z = true) : c.Sat x := by
  have hks : keepVertex m.deps k s t s = true := hkeep s hs (by unfold OnWay; split <;> simp; omega)
  have hkt : keepVertex m.deps k s t t = true := hkeep t htn (by unfold OnWay; split <;> simp; omega)
  obtain ⟨hbs, hbt⟩ := hmf m.n (keepVertex m.deps k s t) (arcCapacityF fl m.starts.length m.n y) s t hs htn hst hks hkt
  unfold tryCutF findMinCutF at hcut
  simp only at hcut
  by_cases hv : (mf m.n (keepVertex m.deps k s t) (arcCapacityF fl m.starts.length m.n y) s t).1 ≥ limitF fl 1
  · rw [if_pos hv, if_neg (not_lt.2 hv)] at hcut
    simp at hcut
  · rw [if_neg hv, if_pos (not_le.1 hv)] at hcut
    cases hcut
    exact separation_valid h hsize hs htn hbs hbt hc hx hkeep

theorem piCutF_some {N : Nat} {starts ends : List Nat} {g : DepGraph} (hcut : piCutF fl mf N starts ends g y = some c) :
    ∃ n < N, ∃ e ∈ ends, n ≠ e ∧ tryCutF fl mf starts.length N g y n e .pi = some c := by
  unfold piCutF at hcut
  split at hcut
  · simp at hcut
  · obtain ⟨n, hn, hcut⟩ := List.exists_of_findSome?_eq_some hcut
    split at hcut
    · simp at hcut
    · split at hcut
      · simp at hcut
      · obtain ⟨e, he, hcut⟩ := List.exists_of_findSome?_eq_some hcut
        split at hcut
        · simp at hcut
        · exact ⟨n, List.mem_range.1 hn, e, he, by assumption, hcut⟩

theorem sigmaCutF_some {N : Nat} {starts : List Nat} {g : DepGraph} (hcut : sigmaCutF fl mf N starts g y = some c) :
    ∃ n < N, ∃ s ∈ starts, n ≠ s ∧ tryCutF fl mf starts.length N g y s n .sigma = some c := by
  unfold sigmaCutF at hcut
  split at hcut
  · simp at hcut
  · obtain ⟨n, hn, hcut⟩ := List.exists_of_findSome?_eq_some hcut
    split at hcut
    · simp at hcut
    · split at hcut
      · simp at hcut
      · obtain ⟨e, he, hcut⟩ := List.exists_of_findSome?_eq_some hcut
        split at hcut
        · simp at hcut
        · exact ⟨n, List.mem_range.1 hn, e, he, by assumption, hcut⟩

theorem piSigmaCutF_some {N : Nat} {starts : List Nat} {g : DepGraph} (hcut : piSigmaCutF fl mf N starts g y = some c) :
    ∃ s t, (s, t) ∈ g.arcs ∧ tryCutF fl mf starts.length N g y s t .piSigma = some c := by
  unfold piSigmaCutF at hcut
  split at hcut
  · simp at hcut
  · obtain ⟨⟨s, t⟩, hst, hcut⟩ := List.exists_of_findSome?_eq_some hcut
    exact ⟨s, t, hst, hcut⟩

theorem precedence_cuts_valid (h : WM.make rows cols w starts ends = .ok m) (hmf : mf.Sides)
    (hsize : m.starts.length * m.n * m.n ≤ 2147483647)
    (hcut : piCutF fl mf m.n m.starts m.ends m.deps y = some c ∨ sigmaCutF fl mf m.n m.starts m.deps y = some c ∨
      piSigmaCutF fl mf m.n m.starts m.deps y = some c)
    (hf : Feasible m.n m.starts m.ends (DepIn m.n m.w) P) (hx : IsPoint m.n m.starts m.ends P x) : c.Sat x := by
  have hi := WM.inst h
  rcases hcut with hcut | hcut | hcut
  · obtain ⟨n, hn, e, he, hne, hcut⟩ := piCutF_some hcut
    exact tryCutF_valid h hmf hsize hn (hi.lt e (List.mem_append_right _ he)) hne hcut hf.1 hx
      fun z hz hw => keep_pi h hf hn he hz hw
  · obtain ⟨n, hn, s, hs, hne, hcut⟩ := sigmaCutF_some hcut
    exact tryCutF_valid h hmf hsize (hi.lt s (List.mem_append_left _ hs)) hn (Ne.symm hne) hcut hf.1 hx
      fun z hz hw => keep_sigma h hf hs hn hz hw
  · obtain ⟨s, t, hst, hcut⟩ := piSigmaCutF_some hcut
    have hd := (WM.arcs_iff h s t).1 hst
    refine tryCutF_valid h hmf hsize (hi.dlt _ _ hd).1 (hi.dlt _ _ hd).2 ?_ hcut hf.1 hx
      fun z hz hw => keep_piSigma h hf hd hz hw
    rintro rfl
    exact hi.acyclic s (.single hd)

/-- **C85, precedence cuts.** -/
theorem C85_precedence_cuts_valid (h : WM.make rows cols w starts ends = .ok m) (hmf : mf.Proper)
    (hsize : m.starts.length * m.n * m.n ≤ 2147483647)
    (hcut : piCutF fl mf m.n m.starts m.ends m.deps y = some c ∨ sigmaCutF fl mf m.n m.starts m.deps y = some c ∨
      piSigmaCutF fl mf m.n m.starts m.deps y = some c)
    (hf : Feasible m.n m.starts m.ends (DepIn m.n m.w) P) (hx : IsPoint m.n m.starts m.ends P x) : c.Sat x :=
  precedence_cuts_valid h hmf.sides hsize hcut hf hx

/-! ### 2-matching -/

/-- every constraint made for a cut has an odd number of teeth -/
theorem combForF_odd (hfl : Rounding fl) {A N : Nat} {tab : List ℚ} {cutSize : ℚ} {U V : List Nat} {c : LinCon} (h0 : 0 ≤ cutSize)
    (hp : (U ++ V).Perm (List.range N)) (hcut : combForF fl A N tab cutSize U V = some c) :
    ∃ inF, c = combConstraint A N (cutPairs U V) inF ∧
      ((cutPairs U V).map fun e => if inF e = true then 1 else 0).sum % 2 = 1 := by
  have hlim : limitF fl 1 ≤ 1 := by
    unfold limitF
    have h1 := hfl.nonneg' (show (0 : ℚ) ≤ 1 / 10 ^ 10 by norm_num)
    have h2 := hfl.mono (1 - fl (1 / 10 ^ 10)) 1 (by linarith)
    rwa [hfl.one'] at h2
  unfold combForF at hcut
  split at hcut
  · simp at hcut
  · simp only at hcut
    have hflag := odd_flag tab hp
    have hcount : ((cutPairs U V).map fun e => if decide (tableWeight tab e.1 e.2 > 1 / 2) = true then 1 else 0).sum =
        ((cutPairs U V).map fun e => if tableWeight tab e.1 e.2 > 1 / 2 then 1 else 0).sum := by
      congr 1
      apply List.map_congr_left
      intro e _
      simp
    split at hcut
    · rename_i hodd
      cases hcut
      refine ⟨_, rfl, ?_⟩
      rw [hodd] at hflag
      rw [hcount]
      exact of_decide_eq_true hflag.symm
    · rename_i hodd
      rw [Bool.not_eq_true] at hodd
      rw [hodd] at hflag
      have heven : ((cutPairs U V).map fun e => if decide (tableWeight tab e.1 e.2 > 1 / 2) = true then 1 else 0).sum % 2 = 0 := by
        rw [hcount]
        have := of_decide_eq_false hflag.symm
        omega
      have hs := scanPairs_spec tab (cutPairs U V)
      simp only at hs
      generalize scanPairs tab (cutPairs U V) = sc at hcut hs
      obtain ⟨w1, w2, e1, e2⟩ := sc
      simp only at hcut hs
      obtain ⟨hw1, hw2, hh, hl⟩ := hs
      have hnd := cutPairs_nodup hp
      have hle : fl (1 - w2) ≤ 1 := by
        have := hfl.mono (1 - w2) 1 (by linarith)
        rwa [hfl.one'] at this
      split at hcut
      · rename_i hlt
        cases hcut
        refine ⟨_, rfl, ?_⟩
        by_cases hc : w1 < fl (1 - w2)
        · have hheavy : e1 ∈ cutPairs U V ∧ tableWeight tab e1.1 e1.2 > 1 / 2 := by
            rcases hh with ⟨a, _⟩ | h
            · exfalso; linarith
            · exact h
          have := count_remove hnd hheavy.1 (fun e => decide (tableWeight tab e.1 e.2 > 1 / 2)) (decide_eq_true hheavy.2)
          have hc' : ¬ w1 ≥ fl (1 - w2) := not_le.2 hc
          simp only [hc, hc', decide_true, decide_false, Bool.true_and, Bool.false_and, Bool.or_false]
          omega
        · have hc' : w1 ≥ fl (1 - w2) := not_lt.1 hc
          have hlight : e2 ∈ cutPairs U V ∧ ¬ tableWeight tab e2.1 e2.2 > 1 / 2 := by
            rcases hl with ⟨a, _⟩ | h
            · exfalso
              rw [a, sub_zero, hfl.one'] at hc'
              have h1 : w1 = 1 := le_antisymm hw1 hc'
              rw [h1, a] at hlt
              have e2 : fl (2 * 1) = 2 := by simpa using hfl.int 2 (by norm_num)
              have e1 : fl (2 - 1) = 1 := by
                have : (2 : ℚ) - 1 = 1 := by norm_num
                rw [this, hfl.one']
              rw [e2, e1, mul_zero, hfl.zero', sub_zero, hfl.one', min_self] at hlt
              have h2 := hfl.mono 1 (cutSize + 1) (by linarith)
              rw [hfl.one'] at h2
              linarith
            · exact h
          have := count_add hnd hlight.1 (fun e => decide (tableWeight tab e.1 e.2 > 1 / 2)) (decide_eq_false hlight.2)
          simp only [hc, hc', decide_true, decide_false, Bool.true_and, Bool.false_and, Bool.false_or]
          omega
      · simp at hcut

theorem capacityTableF_nonneg (hfl : Rounding fl) (A N : Nat) (y : Nat → ℚ) : ∀ q ∈ capacityTableF fl (weightTableF fl A N y), 0 ≤ q := by
  intro q hq
  obtain ⟨v, hv, rfl⟩ := List.mem_map.1 hq
  obtain ⟨a, _, hv⟩ := List.mem_flatMap.1 hv
  obtain ⟨b, _, rfl⟩ := List.mem_map.1 hv
  have := clampWeight_bounds (undirWeightF fl A N y a b)
  exact le_min this.1 (hfl.nonneg' (by linarith [this.2]))

/-- **C85, the Gomory-Hu construction with rounded numbers** ends after at most `N - 1` iterations; its calls are partitions of
all nodes, each separates the two nodes it names, no pair is named twice, and there are exactly `N - 1` of them. -/
theorem C85_partitions (hfl : Rounding fl) (hmf : mf.Proper) (hpt : pt.Correct) (N : Nat) {ws : List ℚ} (h0 : ∀ q ∈ ws, 0 ≤ q) {fuel : Nat} (hf : N - 1 ≤ fuel) :
    (createGomoryHuTreeF fl mf pt N ws fuel).2 = true ∧
    (∀ c ∈ (createGomoryHuTreeF fl mf pt N ws fuel).1, c.IsPartition N ∧ 0 ≤ c.size) ∧
    (createGomoryHuTreeF fl mf pt N ws fuel).1.Pairwise (fun c c' => ¬ ((c.u = c'.u ∧ c.v = c'.v) ∨ (c.u = c'.v ∧ c.v = c'.u))) ∧
    (createGomoryHuTreeF fl mf pt N ws fuel).1.length = N - 1 := by
  obtain ⟨h, hp⟩ := createGomoryHuTreeF_result hfl hmf hpt h0 hf
  refine ⟨h.ended, fun c hc => ⟨h.part c hc, hp c hc⟩, h.dist, ?_⟩
  rcases h.full with h | h
  · exact h
  · simp at h

theorem weightTableF_bounds (A N : Nat) (y : Nat → ℚ) (u v : Nat) :
    0 ≤ tableWeight (weightTableF fl A N y) u v ∧ tableWeight (weightTableF fl A N y) u v ≤ 1 := by
  have h : ∀ q ∈ weightTableF fl A N y, 0 ≤ q ∧ q ≤ 1 := by
    intro q hq
    obtain ⟨a, _, hq⟩ := List.mem_flatMap.1 hq
    obtain ⟨b, _, rfl⟩ := List.mem_map.1 hq
    exact clampWeight_bounds _
  unfold tableWeight
  rw [List.getD_eq_getElem?_getD]
  cases e : (weightTableF fl A N y)[triIndex u v]? with
  | none => simp
  | some q => exact h q (List.mem_of_getElem? e)

theorem capF_bounds (hfl : Rounding fl) (A N : Nat) (y : Nat → ℚ) (u v : Nat) :
    0 ≤ (if v < u then min (tableWeight (weightTableF fl A N y) u v) (fl (1 - tableWeight (weightTableF fl A N y) u v))
      else min (tableWeight (weightTableF fl A N y) v u) (fl (1 - tableWeight (weightTableF fl A N y) v u))) ∧
    (if v < u then min (tableWeight (weightTableF fl A N y) u v) (fl (1 - tableWeight (weightTableF fl A N y) u v))
      else min (tableWeight (weightTableF fl A N y) v u) (fl (1 - tableWeight (weightTableF fl A N y) v u))) ≤ 1 := by
  have h1 := weightTableF_bounds (fl := fl) A N y u v
  have h2 := weightTableF_bounds (fl := fl) A N y v u
  split
  · exact ⟨le_min h1.1 (hfl.nonneg' (by linarith [h1.2])), (min_le_left _ _).trans h1.2⟩
  · exact ⟨le_min h2.1 (hfl.nonneg' (by linarith [h2.2])), (min_le_left _ _).trans h2.2⟩

theorem capF_symm (A N : Nat) (y : Nat → ℚ) (u v : Nat) :
    (if v < u then min (tableWeight (weightTableF fl A N y) u v) (fl (1 - tableWeight (weightTableF fl A N y) u v))
      else min (tableWeight (weightTableF fl A N y) v u) (fl (1 - tableWeight (weightTableF fl A N y) v u))) =
    (if u < v then min (tableWeight (weightTableF fl A N y) v u) (fl (1 - tableWeight (weightTableF fl A N y) v u))
      else min (tableWeight (weightTableF fl A N y) u v) (fl (1 - tableWeight (weightTableF fl A N y) u v))) := by
  rcases Nat.lt_trichotomy u v with h | h | h
  · rw [if_neg (by omega), if_pos h]
  · subst h; simp
  · rw [if_pos h, if_neg (by omega)]

/-- comb cuts from any sequence of partitions are valid -/
theorem stream_cuts_valid {gh : CutStream} (hfl : Rounding fl) (h : WM.make rows cols w starts ends = .ok m) (hgh : gh.Proper)
    (hsize : m.starts.length * m.n * m.n ≤ 2147483647) (h3 : 3 ≤ m.n)
    {c : LinCon} (hcut : c ∈ twoMatchingGF fl gh m.starts.length m.n y)
    (hc : IsCover m.n m.starts m.ends P) (hx : IsPoint m.n m.starts m.ends P x) : c.Sat x := by
  obtain ⟨own, pv, ht, _⟩ := hx.tour hc (WM.inst h).lenEq
  unfold twoMatchingGF at hcut
  simp only [List.mem_filterMap] at hcut
  obtain ⟨d, hmem, hcut⟩ := hcut
  have hparts := hgh.parts m.n _ (by omega) (fun u v => (capF_bounds hfl m.starts.length m.n y u v).1) (capF_symm m.starts.length m.n y) _ hmem
  have h0 := hgh.nonneg m.n _ (by omega) (fun u v => (capF_bounds hfl m.starts.length m.n y u v).1) (capF_symm m.starts.length m.n y) _ hmem
  obtain ⟨inF, rfl, hodd⟩ := combForF_odd hfl h0 hparts hcut
  refine comb_valid ht (WM.n_le h hsize) ?_ hparts inF hodd
  intro u hu
  exact nxt_nxt_ne hc.flatten_nodup ((hc.mem_flatten u).2 hu) (by rw [hc.flatten_length]; exact h3)

theorem ghStreamF_proper (hfl : Rounding fl) (hmf : mf.Proper) (hpt : pt.Correct) : (ghStreamF fl mf pt).Proper := by
  have key : ∀ N cap, (∀ u v, 0 ≤ cap u v) → ∀ c ∈ ghStreamF fl mf pt N cap, (c.2.1 ++ c.2.2).Perm (List.range N) ∧ 0 ≤ c.1 := by
    intro N cap hcap c hc
    obtain ⟨d, hd, rfl⟩ := List.mem_map.1 hc
    obtain ⟨hp, h0⟩ := (C85_partitions hfl hmf hpt N (ws := capTable N cap) (by
      intro q hq
      obtain ⟨u, _, hq⟩ := List.mem_flatMap.1 hq
      obtain ⟨v, _, rfl⟩ := List.mem_map.1 hq
      exact hcap u v) (Nat.sub_le N 1)).2.1 d hd
    refine ⟨(List.perm_ext_iff_of_nodup ?_ List.nodup_range).2 ?_, h0⟩
    · exact List.nodup_append.2 ⟨hp.nodup.1, hp.nodup.2, fun a ha b hb e => hp.disjoint a ha (e ▸ hb)⟩
    · intro a
      rw [List.mem_append, List.mem_range]
      exact (hp.cover a).symm
  exact ⟨fun N cap _ h0 _ c hc => (key N cap h0 c hc).1, fun N cap _ h0 _ c hc => (key N cap h0 c hc).2⟩

/-- the separation with the code's own sequence -/
theorem twoMatchingGF_stream (A N : Nat) (x : Nat → ℚ) : twoMatchingGF fl (ghStreamF fl mf pt) A N x = twoMatchingF fl mf pt A N x := by
  unfold twoMatchingGF twoMatchingF ghStreamF
  simp only [List.filterMap_map]
  have e : capTable N (fun u v => if v < u then min (tableWeight (weightTableF fl A N x) u v) (fl (1 - tableWeight (weightTableF fl A N x) u v))
      else min (tableWeight (weightTableF fl A N x) v u) (fl (1 - tableWeight (weightTableF fl A N x) v u))) = capacityTableF fl (weightTableF fl A N x) := by
    unfold capTable capacityTableF
    have e1 : ∀ u < N, ∀ v < u, tableWeight (weightTableF fl A N x) u v = clampWeight (undirWeightF fl A N x u v) := by
      intro u hu v hv
      unfold tableWeight weightTableF
      rw [List.getD_eq_getElem?_getD, table_lookup_aux (fun u v => clampWeight (undirWeightF fl A N x u v)) hv N hu]
      rfl
    conv_rhs => unfold weightTableF
    rw [List.map_flatMap]
    refine List.flatMap_congr fun u hu => ?_
    rw [List.map_map]
    refine List.map_congr_left fun v hv => ?_
    dsimp only
    rw [if_pos (List.mem_range.1 hv), e1 u (List.mem_range.1 hu) v (List.mem_range.1 hv)]
    rfl
  rw [e]
  rfl

/-- **C85, comb cuts.** -/
theorem C85_comb_cuts_valid (hfl : Rounding fl) (h : WM.make rows cols w starts ends = .ok m) (hmf : mf.Proper) (hpt : pt.Correct)
    (hsize : m.starts.length * m.n * m.n ≤ 2147483647) (h3 : 3 ≤ m.n)
    {c : LinCon} (hcut : c ∈ twoMatchingF fl mf pt m.starts.length m.n y)
    (hc : IsCover m.n m.starts m.ends P) (hx : IsPoint m.n m.starts m.ends P x) : c.Sat x :=
  stream_cuts_valid hfl h (ghStreamF_proper hfl hmf hpt) hsize h3 (by rw [twoMatchingGF_stream]; exact hcut) hc hx

/-! ### the weaker contracts, and that they are met -/

/-- exact algorithms meet the weaker contracts -/
theorem GlobalCut.Correct.proper (h : sw.Correct) : sw.Proper := h.splits

theorem MaxFlow.Correct.proper (h : mf.Correct) : mf.Proper := by
  refine ⟨h.sides, ?_⟩
  intro N keep c s t hs ht hst hks hkt h0
  rw [h.size N keep c s t hs ht hst hks hkt h0]
  unfold flowCut
  refine Finset.sum_nonneg fun u hu => Finset.sum_nonneg fun v hv => ?_
  split
  · exact h0 u v (Finset.mem_range.1 hu) (Finset.mem_range.1 hv)
  · exact le_refl _

/-- an algorithm that finds some cut and claims that its size is 0 -/
def sloppyFlow : MaxFlow := fun _ _ _ s _ => (0, fun v => decide (v = s))

theorem sloppyFlow_proper : sloppyFlow.Proper :=
  ⟨fun _ _ _ s t _ _ hst _ _ => ⟨by simp [sloppyFlow], by simpa [sloppyFlow] using Ne.symm hst⟩, fun _ _ _ _ _ _ _ _ _ _ _ => le_refl _⟩

/-- likewise for global cuts -/
def sloppyCut : GlobalCut := fun _ _ => (0, fun v => decide (v = 0))

theorem sloppyCut_proper : sloppyCut.Proper := fun N _ hN => ⟨⟨0, by omega, rfl⟩, ⟨1, by omega, rfl⟩⟩

/-- Non-vacuity: with IEEE rounding and these algorithms there are cuts of every kind: for the instance `niExW` of C39 and the
point 0, and for the point `triY` of C40. -/
example : Rounding roundDouble ∧
    (testOk (WM.make 6 6 niExW [0, 0] [0, 4]) fun m =>
      (ucutF roundDouble sloppyCut m.starts.length m.n fun _ => 0).isSome &&
      (piCutF roundDouble sloppyFlow m.n m.starts m.ends m.deps fun _ => 0).isSome &&
      (sigmaCutF roundDouble sloppyFlow m.n m.starts m.deps fun _ => 0).isSome &&
      (piSigmaCutF roundDouble sloppyFlow m.n m.starts m.deps fun _ => 0).isSome &&
      feasB m [[0, 3, 1, 5, 6], [7, 2, 4]]) = true ∧
    (twoMatchingF roundDouble sloppyFlow stablePartition 1 6 triY).isEmpty = false :=
  ⟨C73_double_is_rounding, by decide +kernel, by decide +kernel⟩

end Mtsp
