import Verif.Proof.GHSpan
import Verif.Proof.CombSmall
import Verif.Props.GomoryHu
import Verif.Spec.TwoMatching

/-! The 2-matching separation is exact. -/

namespace Mtsp
open Finset

section
variable {N : Nat} {U V : List Nat}

theorem mem_cutPairs_iff (hp : (U ++ V).Perm (List.range N)) (a b : Nat) :
    (b, a) ∈ cutPairs U V ↔ a < b ∧ b < N ∧ decide (a ∈ U) ≠ decide (b ∈ U) := by
  have hn : (U ++ V).Nodup := hp.nodup_iff.2 List.nodup_range
  have hd := (List.nodup_append.1 hn).2.2
  have hm : ∀ z, z ∈ U ∨ z ∈ V ↔ z < N := fun z => by rw [← List.mem_append, hp.mem_iff, List.mem_range]
  have hlt : ∀ z, z ∈ V ↔ z < N ∧ z ∉ U := fun z => ⟨fun h => ⟨(hm z).1 (Or.inr h), fun h' => hd z h' z h rfl⟩, fun h => ((hm z).2 h.1).resolve_left h.2⟩
  simp only [cutPairs, List.mem_flatMap, List.mem_map, Prod.mk.injEq, ne_eq, decide_eq_decide]
  constructor
  · rintro ⟨u, hu, v, hv, rfl, rfl⟩
    obtain ⟨hv1, hv2⟩ := (hlt v).1 hv
    have hu1 := (hm u).1 (Or.inl hu)
    have hne : u ≠ v := by rintro rfl; exact hv2 hu
    rcases Nat.lt_or_gt_of_ne hne with h | h
    · rw [max_eq_right h.le, min_eq_left h.le]
      exact ⟨h, hv1, fun e => hv2 (e.1 hu)⟩
    · rw [max_eq_left h.le, min_eq_right h.le]
      exact ⟨h, hu1, fun e => hv2 (e.2 hu)⟩
  · rintro ⟨h1, h2, h3⟩
    by_cases ha : a ∈ U
    · exact ⟨a, ha, b, (hlt b).2 ⟨h2, fun hb => h3 ⟨fun _ => hb, fun _ => ha⟩⟩, max_eq_right h1.le, min_eq_left h1.le⟩
    · have hb : b ∈ U := by by_contra hb; exact h3 ⟨fun h => absurd h ha, fun h => absurd h hb⟩
      exact ⟨b, hb, a, (hlt a).2 ⟨by omega, ha⟩, max_eq_left h1.le, min_eq_right h1.le⟩

/-- sums over the edges of a cut -/
theorem cutPairs_sum_eq {M : Type} [AddCommMonoid M] (hp : (U ++ V).Perm (List.range N)) (f : Nat × Nat → M) :
    ((cutPairs U V).map f).sum = ∑ u ∈ range N, ∑ v ∈ range N, if u < v ∧ decide (u ∈ U) ≠ decide (v ∈ U) then f (v, u) else 0 := by
  classical
  rw [← Finset.sum_product', ← Finset.sum_filter, ← List.sum_toFinset _ (cutPairs_nodup hp)]
  refine Finset.sum_bij (fun e _ => (e.2, e.1)) ?_ ?_ ?_ ?_
  · rintro ⟨b, a⟩ he
    obtain ⟨h1, h2, h3⟩ := (mem_cutPairs_iff hp a b).1 (List.mem_toFinset.1 he)
    simp only [Finset.mem_filter, Finset.mem_product, Finset.mem_range]
    exact ⟨⟨by omega, h2⟩, h1, h3⟩
  · rintro ⟨b, a⟩ _ ⟨b', a'⟩ _ e
    simp only [Prod.mk.injEq] at e ⊢
    exact ⟨e.2, e.1⟩
  · rintro ⟨a, b⟩ he
    simp only [Finset.mem_filter, Finset.mem_product, Finset.mem_range] at he
    exact ⟨(b, a), List.mem_toFinset.2 ((mem_cutPairs_iff hp a b).2 ⟨he.2.1, he.1.2, he.2.2⟩), rfl⟩
  · rintro ⟨b, a⟩ _; rfl

end

/-! ### parity of a cut -/

/-- how many of the edges `g` leave the set, modulo two -/
def cutParity (N : Nat) (g : Nat → Nat → ZMod 2) (W : Nat → Bool) : ZMod 2 :=
  ∑ u ∈ range N, ∑ v ∈ range N, if u < v ∧ W u ≠ W v then g u v else 0

theorem cutParity_lin (N : Nat) (g : Nat → Nat → ZMod 2) (W : Nat → Bool) :
    cutParity N g W = ∑ u ∈ range N, ∑ v ∈ range N, if u < v then (ind (W u) + ind (W v)) * g u v else 0 := by
  unfold cutParity
  refine Finset.sum_congr rfl fun u _ => Finset.sum_congr rfl fun v _ => ?_
  by_cases h : u < v
  · by_cases h2 : W u = W v
    · rw [if_neg (fun hh => hh.2 h2), if_pos h, ind_add_eq_zero.2 h2, zero_mul]
    · rw [if_pos ⟨h, h2⟩, if_pos h, ind_ne h2, one_mul]
  · rw [if_neg (fun hh => h hh.1), if_neg h]

/-- if a set is, up to the complement, a symmetric difference of sets, an odd cut needs an odd cut among them -/
theorem cutParity_span {N : Nat} {g : Nat → Nat → ZMod 2} {W : Nat → Bool} {k : ZMod 2} {ι : Type} {L : List ι} {S : ι → Nat → Bool}
    (h : ∀ v < N, ind (W v) = k + (L.map fun c => ind (S c v)).sum) (hW : cutParity N g W = 1) : ∃ c ∈ L, cutParity N g (S c) = 1 := by
  have hsum : cutParity N g W = (L.map fun c => cutParity N g (S c)).sum := by
    simp only [cutParity_lin]
    have h1 : ∀ u < N, ∀ v < N, ind (W u) + ind (W v) = (L.map fun c => ind (S c u) + ind (S c v)).sum := by
      intro u hu v hv
      rw [h u hu, h v hv, List.sum_map_add]
      generalize (L.map fun c => ind (S c u)).sum = a
      generalize (L.map fun c => ind (S c v)).sum = b
      revert k a b
      intro k _ a b
      calc k + a + (k + b) = (k + k) + (a + b) := by ring
        _ = a + b := by rw [CharTwo.add_self_eq_zero, zero_add]
    have h2 : ∀ (L : List ι), (L.map fun c => ∑ u ∈ range N, ∑ v ∈ range N, if u < v then (ind (S c u) + ind (S c v)) * g u v else 0).sum =
        ∑ u ∈ range N, ∑ v ∈ range N, if u < v then (L.map fun c => ind (S c u) + ind (S c v)).sum * g u v else 0 := by
      intro L
      induction L with
      | nil => simp
      | cons a L ih =>
        rw [List.map_cons, List.sum_cons, ih, ← Finset.sum_add_distrib]
        refine Finset.sum_congr rfl fun u _ => ?_
        rw [← Finset.sum_add_distrib]
        refine Finset.sum_congr rfl fun v _ => ?_
        split
        · rw [List.map_cons, List.sum_cons]; ring
        · simp
    rw [h2]
    refine Finset.sum_congr rfl fun u hu => Finset.sum_congr rfl fun v hv => ?_
    rw [h1 u (Finset.mem_range.1 hu) v (Finset.mem_range.1 hv)]
  by_contra hc
  push Not at hc
  have : (L.map fun c => cutParity N g (S c)).sum = 0 := by
    apply List.sum_eq_zero
    intro z hz
    obtain ⟨c, hc', rfl⟩ := List.mem_map.1 hz
    exact (zmod2_cases _).resolve_right (hc c hc')
  rw [hsum, this] at hW
  exact absurd hW (by decide)

theorem cutParity_add (N : Nat) (g g' : Nat → Nat → ZMod 2) (W : Nat → Bool) :
    cutParity N (fun u v => g u v + g' u v) W = cutParity N g W + cutParity N g' W := by
  unfold cutParity
  rw [← Finset.sum_add_distrib]
  refine Finset.sum_congr rfl fun u _ => ?_
  rw [← Finset.sum_add_distrib]
  refine Finset.sum_congr rfl fun v _ => ?_
  split <;> simp

/-- the parity of one edge -/
theorem cutParity_single (N : Nat) {i j : Nat} (hij : i < j) (hj : j < N) (W : Nat → Bool) :
    cutParity N (fun u v => if u = i ∧ v = j then 1 else 0) W = if W i ≠ W j then 1 else 0 := by
  unfold cutParity
  rw [Finset.sum_eq_single_of_mem i (Finset.mem_range.2 (by omega)), Finset.sum_eq_single_of_mem j (Finset.mem_range.2 hj)]
  · simp [hij]
  · intro v _ hv; simp [hv]
  · intro u _ hu; simp [hu]

theorem cutParity_teeth (N : Nat) (W : Nat → Bool) (F : Nat → Nat → Bool) :
    cutParity N (fun u v => ind (F u v)) W = (teeth N W F : ZMod 2) := by
  unfold cutParity teeth
  rw [← Finset.sum_product', Finset.card_eq_sum_ones, Finset.sum_filter, Nat.cast_sum]
  refine Finset.sum_congr rfl fun e _ => ?_
  unfold ind
  dsimp only
  by_cases h : e.1 < e.2 ∧ W e.1 ≠ W e.2
  · rw [if_pos h]
    by_cases h2 : F e.1 e.2 = true
    · rw [if_pos h2, if_pos ⟨h.1, h.2, h2⟩]; simp
    · rw [if_neg h2, if_neg fun hh => h2 hh.2.2]; simp
  · rw [if_neg h, if_neg fun hh => h ⟨hh.1, hh.2.1⟩]; simp

theorem natCast_zmod2 (n : Nat) : (n : ZMod 2) = 1 ↔ n % 2 = 1 := by
  rw [← ZMod.natCast_mod n 2]
  rcases Nat.mod_two_eq_zero_or_one n with h | h <;> rw [h] <;> simp

/-! ### the extreme weights -/

theorem scanPairs_extreme (tab : List ℚ) (l : List (Nat × Nat)) :
    (∀ e ∈ l, tableWeight tab e.1 e.2 > 1 / 2 → (scanPairs tab l).1 ≤ tableWeight tab e.1 e.2) ∧
    (∀ e ∈ l, ¬ tableWeight tab e.1 e.2 > 1 / 2 → tableWeight tab e.1 e.2 ≤ (scanPairs tab l).2.1) := by
  induction l using List.reverseRecOn with
  | nil => simp
  | append_singleton l e ih =>
    have hs : scanPairs tab (l ++ [e]) =
        (if tableWeight tab e.1 e.2 > 1 / 2 then (min (scanPairs tab l).1 (tableWeight tab e.1 e.2), (scanPairs tab l).2.1, e, (scanPairs tab l).2.2.2)
          else ((scanPairs tab l).1, max (scanPairs tab l).2.1 (tableWeight tab e.1 e.2), (scanPairs tab l).2.2.1, e)) := by
      unfold scanPairs; rw [List.foldl_append]; rfl
    obtain ⟨h1, h2⟩ := ih
    by_cases hh : tableWeight tab e.1 e.2 > 1 / 2
    · rw [hs, if_pos hh]
      constructor
      · intro f hf hw
        rcases List.mem_append.1 hf with hf | hf
        · exact (min_le_left _ _).trans (h1 f hf hw)
        · rw [List.mem_singleton.1 hf]; exact min_le_right _ _
      · intro f hf hw
        rcases List.mem_append.1 hf with hf | hf
        · exact h2 f hf hw
        · rw [List.mem_singleton.1 hf] at hw; exact absurd hh hw
    · rw [hs, if_neg hh]
      constructor
      · intro f hf hw
        rcases List.mem_append.1 hf with hf | hf
        · exact h1 f hf hw
        · rw [List.mem_singleton.1 hf] at hw; exact absurd hw hh
      · intro f hf hw
        rcases List.mem_append.1 hf with hf | hf
        · exact (h2 f hf hw).trans (le_max_left _ _)
        · rw [List.mem_singleton.1 hf]; exact le_max_right _ _

/-! ### the stream of cuts -/

/-- every set of nodes is, up to the complement, a symmetric difference of reported cuts that are not bigger -/
def CutStream.Spans (gh : CutStream) : Prop :=
  ∀ N cap, 2 ≤ N → (∀ u v, 0 ≤ cap u v) → (∀ u v, cap u v = cap v u) → ∀ W : Nat → Bool,
    ∃ (k : ZMod 2) (L : List (ℚ × List Nat × List Nat)), (∀ c ∈ L, c ∈ gh N cap ∧ c.1 ≤ cutWeight N cap W) ∧
      ∀ v < N, ind (W v) = k + (L.map fun c => ind (decide (v ∈ c.2.1))).sum

theorem capTable_nonneg {N : Nat} {cap : Nat → Nat → ℚ} (h0 : ∀ u v, 0 ≤ cap u v) : ∀ q ∈ capTable N cap, 0 ≤ q := by
  intro q hq
  obtain ⟨u, _, hq⟩ := List.mem_flatMap.1 hq
  obtain ⟨v, _, rfl⟩ := List.mem_map.1 hq
  exact h0 u v

theorem ghStream_spans {mf : MaxFlow} {pt : Partition} (hmf : mf.Correct) (hpt : pt.Correct) : (ghStream mf pt).Spans := by
  intro N cap _ h0 hsym W
  obtain ⟨k, L, h1, h2⟩ := createGomoryHuTree_span hmf hpt (N := N) (capTable_nonneg h0) (Nat.sub_le N 1) W
  refine ⟨k, L.map fun d => (d.size, d.compU, d.compV), ?_, ?_⟩
  · intro c hc
    obtain ⟨d, hd, rfl⟩ := List.mem_map.1 hc
    refine ⟨List.mem_map.2 ⟨d, (h1 d hd).1, rfl⟩, (h1 d hd).2.trans (le_of_eq ?_)⟩
    unfold cutWeight
    refine Finset.sum_congr rfl fun u _ => Finset.sum_congr rfl fun v hv => ?_
    by_cases h : u < v ∧ W u ≠ W v
    · rw [if_pos h, if_pos h, edgeWeight_comm, capTable_lookup cap h.1 (Finset.mem_range.1 hv), hsym]
    · rw [if_neg h, if_neg h]
  · intro v hv
    rw [h2 v hv, List.map_map]; rfl

/-! ### exactness -/

theorem edgeUse_eq (A N : Nat) (x : Nat → ℚ) (u v : Nat) : edgeUse A N x u v = edgeVal A N x (v, u) := by
  unfold edgeUse edgeVal varId
  exact Finset.sum_congr rfl fun a _ => add_comm _ _

section
variable {rows cols : Nat} {w : Weights} {starts ends : List Nat} {m : WM} {y : Nat → ℚ} {gh : CutStream}

/-- a violated inequality leads to a reported constraint -/
theorem comb_found (h : WM.make rows cols w starts ends = .ok m) (hgh : gh.Correct) (hsp : gh.Spans)
    (hy : ∀ i < m.starts.length * m.n * m.n, 0 ≤ y i)
    (hrows : ∀ c ∈ buildConstraints m.n m.starts m.ends m.deps.arcs, c.Sat y)
    (hv : CombViolated m.starts.length m.n y (1 / 10 ^ 10)) : twoMatching gh m.starts.length m.n y ≠ [] := by
  obtain ⟨W, F, hodd, hlt⟩ := hv
  have h3 := small_no_point h hrows
  set A := m.starts.length with hA
  set N := m.n with hN
  set tab := weightTable A N y with htab
  have hcapb : ∀ u v, u < v → v < N → tableWeight tab v u = edgeUse A N y u v := by
    intro u v huv hv
    have hb := edgeVal_bounds h hy hrows huv hv
    rw [htab, table_lookup _ _ _ huv hv, edgeUse_eq]
    unfold clampWeight
    rw [min_eq_right hb.2, max_eq_right hb.1]
  have hbd : ∀ u v, u < v → v < N → 0 ≤ edgeUse A N y u v ∧ edgeUse A N y u v ≤ 1 := by
    intro u v huv hv
    rw [edgeUse_eq]
    exact edgeVal_bounds h hy hrows huv hv
  set cap : Nat → Nat → ℚ := fun u v => if v < u then min (tableWeight tab u v) (1 - tableWeight tab u v)
    else min (tableWeight tab v u) (1 - tableWeight tab v u) with hcap
  have h0 : ∀ u v, 0 ≤ cap u v := cap_nonneg A N y
  have hsym : ∀ u v, cap u v = cap v u := cap_symm A N y
  have hcapv : ∀ u v, u < v → v < N → cap u v = min (edgeUse A N y u v) (1 - edgeUse A N y u v) := by
    intro u v huv hv
    simp only [hcap]
    rw [if_neg (by omega), hcapb u v huv hv]
  -- the heavy edges
  let F0 : Nat → Nat → Bool := fun u v => decide (edgeUse A N y u v > 1 / 2)
  have hterm : ∀ u v, u < v → v < N → cap u v ≤ (if F u v = true then 1 - edgeUse A N y u v else edgeUse A N y u v) := by
    intro u v huv hv
    rw [hcapv u v huv hv]
    split
    · exact min_le_right _ _
    · exact min_le_left _ _
  have hle : cutWeight N cap W ≤ combValue A N y W F := by
    unfold cutWeight combValue
    refine Finset.sum_le_sum fun u _ => Finset.sum_le_sum fun v hv => ?_
    by_cases hc : u < v ∧ W u ≠ W v
    · rw [if_pos hc, if_pos hc]; exact hterm u v hc.1 (Finset.mem_range.1 hv)
    · rw [if_neg hc, if_neg hc]
  have hle1 : ∀ i j, i < j → j < N → W i ≠ W j → F i j ≠ F0 i j → cutWeight N cap W + |1 - 2 * edgeUse A N y i j| ≤ combValue A N y W F := by
    intro i j hij hj hW hF
    have e1 : |1 - 2 * edgeUse A N y i j| = ∑ u ∈ range N, ∑ v ∈ range N, if u = i ∧ v = j then |1 - 2 * edgeUse A N y i j| else 0 := by
      rw [Finset.sum_eq_single_of_mem i (Finset.mem_range.2 (by omega)), Finset.sum_eq_single_of_mem j (Finset.mem_range.2 hj)]
      · simp
      · intro v _ hv; simp [hv]
      · intro u _ hu; simp [hu]
    rw [e1]
    unfold cutWeight combValue
    rw [← Finset.sum_add_distrib]
    refine Finset.sum_le_sum fun u _ => ?_
    rw [← Finset.sum_add_distrib]
    refine Finset.sum_le_sum fun v hv => ?_
    by_cases hc : u < v ∧ W u ≠ W v
    · rw [if_pos hc, if_pos hc]
      by_cases he : u = i ∧ v = j
      · rw [if_pos he]
        obtain ⟨rfl, rfl⟩ := he
        rw [hcapv u v hij hj]
        by_cases hh : edgeUse A N y u v > 1 / 2
        · have : F u v = false := by
            rcases Bool.eq_false_or_eq_true (F u v) with h' | h'
            · exact absurd (h'.trans (decide_eq_true hh).symm) hF
            · exact h'
          rw [this, min_eq_right (by linarith), abs_of_nonpos (by linarith)]
          simp only [Bool.false_eq_true, if_false]; linarith
        · have : F u v = true := by
            rcases Bool.eq_false_or_eq_true (F u v) with h' | h'
            · exact h'
            · exact absurd (h'.trans (decide_eq_false hh).symm) hF
          have hh := not_lt.1 hh
          rw [this, min_eq_left (by linarith), abs_of_nonneg (by linarith)]
          simp only [if_true]; linarith
      · rw [if_neg he, add_zero]; exact hterm u v hc.1 (Finset.mem_range.1 hv)
    · have he : ¬ (u = i ∧ v = j) := by rintro ⟨rfl, rfl⟩; exact hc ⟨hij, hW⟩
      rw [if_neg hc, if_neg hc, if_neg he, add_zero]
  obtain ⟨k, L, hL, hspan⟩ := hsp N cap (by omega) h0 hsym W
  -- what a reported cut leads to
  have hflag : ∀ c ∈ L, c.2.1.foldl (fun b v => xor b (oddAt tab N v)) false =
      decide (cutParity N (fun u v => ind (F0 u v)) (fun v => decide (v ∈ c.2.1)) = 1) := by
    intro c hc
    have hp := hgh.parts N cap (by omega) h0 hsym c (hL c hc).1
    rw [odd_flag tab hp]
    congr 1
    rw [← natCast_zmod2, eq_iff_iff, cutPairs_sum_eq hp, Nat.cast_sum]
    unfold cutParity
    have : ∀ u ∈ range N, ((∑ v ∈ range N, if u < v ∧ decide (u ∈ c.2.1) ≠ decide (v ∈ c.2.1) then
        (if tableWeight tab (v, u).1 (v, u).2 > 1 / 2 then 1 else 0) else 0 : Nat) : ZMod 2) =
        ∑ v ∈ range N, if u < v ∧ decide (u ∈ c.2.1) ≠ decide (v ∈ c.2.1) then ind (F0 u v) else 0 := by
      intro u _
      rw [Nat.cast_sum]
      refine Finset.sum_congr rfl fun v hv => ?_
      by_cases hh : u < v ∧ decide (u ∈ c.2.1) ≠ decide (v ∈ c.2.1)
      · rw [if_pos hh, if_pos hh, hcapb u v hh.1 (Finset.mem_range.1 hv)]
        simp only [F0, ind, decide_eq_true_eq]
        split <;> simp
      · rw [if_neg hh, if_neg hh]; simp
    rw [Finset.sum_congr rfl this]
  have hres : ∀ c ∈ L, combFor A N tab c.1 c.2.1 c.2.2 ≠ none → twoMatching gh A N y ≠ [] := by
    intro c hc hne
    obtain ⟨r, hr⟩ := Option.ne_none_iff_exists'.1 hne
    have : r ∈ twoMatching gh A N y := List.mem_filterMap.2 ⟨c, (hL c hc).1, hr⟩
    exact List.ne_nil_of_mem this
  have hsmall : ∀ c ∈ L, ¬ c.1 ≥ 1 - 1 / 10 ^ 10 := fun c hc => not_le.2 (lt_of_le_of_lt ((hL c hc).2.trans hle) hlt)
  have hoddc : ∀ c ∈ L, cutParity N (fun u v => ind (F0 u v)) (fun v => decide (v ∈ c.2.1)) = 1 → twoMatching gh A N y ≠ [] := by
    intro c hc hp
    refine hres c hc ?_
    unfold combFor
    rw [if_neg (hsmall c hc), hflag c hc, hp]
    simp
  rcases zmod2_cases (cutParity N (fun u v => ind (F0 u v)) W) with hev | hod
  · -- some tooth differs from the heavy edges
    have hFodd : cutParity N (fun u v => ind (F u v)) W = 1 := by rw [cutParity_teeth, natCast_zmod2]; exact hodd
    have hex : ∃ i j, i < j ∧ j < N ∧ W i ≠ W j ∧ F i j ≠ F0 i j := by
      by_contra hno
      push Not at hno
      have : cutParity N (fun u v => ind (F u v)) W = cutParity N (fun u v => ind (F0 u v)) W := by
        unfold cutParity
        refine Finset.sum_congr rfl fun u _ => Finset.sum_congr rfl fun v hv => ?_
        by_cases hh : u < v ∧ W u ≠ W v
        · rw [if_pos hh, if_pos hh]; dsimp only; rw [hno u v hh.1 (Finset.mem_range.1 hv) hh.2]
        · rw [if_neg hh, if_neg hh]
      rw [this, hev] at hFodd
      exact absurd hFodd (by decide)
    obtain ⟨i, j, hij, hj, hW, hF⟩ := hex
    have hg : cutParity N (fun u v => ind (F0 u v) + if u = i ∧ v = j then 1 else 0) W = 1 := by
      rw [cutParity_add, hev, cutParity_single N hij hj, if_pos hW]; decide
    obtain ⟨c, hc, hpar⟩ := cutParity_span hspan hg
    rcases zmod2_cases (cutParity N (fun u v => ind (F0 u v)) (fun v => decide (v ∈ c.2.1))) with he | ho
    · rw [cutParity_add, he, zero_add, cutParity_single N hij hj] at hpar
      have hsep : decide (i ∈ c.2.1) ≠ decide (j ∈ c.2.1) := by
        by_contra hh
        rw [if_neg fun h' => h' hh] at hpar
        exact absurd hpar (by decide)
      have hp := hgh.parts N cap (by omega) h0 hsym c (hL c hc).1
      have hmem := (mem_cutPairs_iff hp i j).2 ⟨hij, hj, hsep⟩
      obtain ⟨x1, x2⟩ := scanPairs_extreme tab (cutPairs c.2.1 c.2.2)
      have x1 := x1 _ hmem
      have x2 := x2 _ hmem
      simp only [hcapb i j hij hj] at x1 x2
      have hkey := hle1 i j hij hj hW hF
      have hcs := (hL c hc).2
      refine hres c hc ?_
      unfold combFor
      rw [if_neg (hsmall c hc), hflag c hc, he]
      simp only [zero_ne_one, decide_false, Bool.false_eq_true, if_false]
      generalize scanPairs tab (cutPairs c.2.1 c.2.2) = sc at x1 x2
      obtain ⟨w1, w2, e1, e2⟩ := sc
      simp only at x1 x2 ⊢
      rw [if_pos]
      · simp
      · by_cases hh : edgeUse A N y i j > 1 / 2
        · have := x1 hh
          have h5 := min_le_left (2 * w1 - 1) (1 - 2 * w2)
          rw [abs_of_nonpos (by linarith)] at hkey
          linarith
        · have := x2 hh
          have h5 := min_le_right (2 * w1 - 1) (1 - 2 * w2)
          rw [abs_of_nonneg (by linarith [not_lt.1 hh])] at hkey
          linarith
    · exact hoddc c hc ho
  · obtain ⟨c, hc, hpar⟩ := cutParity_span hspan hod
    exact hoddc c hc hpar

/-- a reported constraint comes from a violated inequality -/
theorem comb_violated (h : WM.make rows cols w starts ends = .ok m) (hgh : gh.Correct)
    (hy : ∀ i < m.starts.length * m.n * m.n, 0 ≤ y i)
    (hrows : ∀ c ∈ buildConstraints m.n m.starts m.ends m.deps.arcs, c.Sat y)
    (hne : twoMatching gh m.starts.length m.n y ≠ []) : CombViolated m.starts.length m.n y (1 / 10 ^ 10) := by
  obtain ⟨c, hc⟩ := List.exists_mem_of_ne_nil _ hne
  obtain ⟨U, V, hp, inF, hodd, hlt⟩ := comb_exists h hgh hy hrows hc
  refine ⟨fun v => decide (v ∈ U), fun u v => inF (v, u), ?_, ?_⟩
  · rw [← natCast_zmod2, ← cutParity_teeth]
    rw [cutPairs_sum_eq hp, ← natCast_zmod2, Nat.cast_sum] at hodd
    rw [← hodd]
    unfold cutParity
    refine Finset.sum_congr rfl fun u _ => ?_
    rw [Nat.cast_sum]
    refine Finset.sum_congr rfl fun v _ => ?_
    unfold ind
    split
    · dsimp only
      rcases Bool.eq_false_or_eq_true (inF (v, u)) with h' | h' <;> simp [h']
    · simp
  · rw [cutPairs_sum_eq hp] at hlt
    unfold combValue
    simp only [edgeUse_eq]
    exact hlt

end

end Mtsp
