import Verif.Props.Cuts
import Verif.Props.Integral
import Verif.Spec.Inequalities

/-! C76: connectivity and precedence separation are exact. -/

namespace Mtsp
open Finset

variable {rows cols : Nat} {w : Weights} {starts ends : List Nat} {m : WM} {y : Nat → ℚ} {sw : GlobalCut} {mf : MaxFlow}

theorem flowCut_outflow {A N : Nat} {keep : Nat → Bool} {R : Nat → Prop} (hR : ∀ v < N, keep v = true ↔ ¬ R v) (W : Nat → Bool) :
    flowCut N keep (arcCapacity A N y) W = outflow A N y R W := by
  unfold flowCut outflow
  refine Finset.sum_congr rfl fun u hu => Finset.sum_congr rfl fun v hv => ?_
  rw [arcCapacity_eq]
  unfold arcUse varId
  have h1 := hR u (Finset.mem_range.1 hu)
  have h2 := hR v (Finset.mem_range.1 hv)
  by_cases hc : ¬ R u ∧ ¬ R v ∧ W u = true ∧ W v = false
  · rw [if_pos hc, if_pos]
    refine ⟨?_, h1.2 hc.1, h2.2 hc.2.1, hc.2.2⟩
    rintro rfl
    rw [hc.2.2.1] at hc
    simp at hc
  · rw [if_neg hc, if_neg fun hh => hc ⟨h1.1 hh.2.1, h2.1 hh.2.2.1, hh.2.2.2⟩]

/-- one source and target -/
theorem tryCut_ne_none {A N : Nat} {g : DepGraph} (hmf : mf.Correct) {s t : Nat} {k : CutKind} (hs : s < N) (ht : t < N) (hst : s ≠ t)
    {R : Nat → Prop} (hR : ∀ v < N, keepVertex g k s t v = true ↔ ¬ R v) (hs' : ¬ R s) (ht' : ¬ R t)
    (hy : ∀ a u v, a < A → u < N → v < N → 0 ≤ y (varId N a u v)) :
    tryCut mf A N g y s t k ≠ none ↔ ∃ W : Nat → Bool, W s = true ∧ W t = false ∧ outflow A N y R W < 1 - 1 / 10 ^ 10 := by
  have hks := (hR s hs).2 hs'
  have hkt := (hR t ht).2 ht'
  have hcap : ∀ u v, u < N → v < N → 0 ≤ arcCapacity A N y u v := by
    intro u v hu hv
    rw [arcCapacity_eq]
    exact Finset.sum_nonneg fun a ha => hy a u v (Finset.mem_range.1 ha) hu hv
  have hsides := hmf.sides N (keepVertex g k s t) (arcCapacity A N y) s t hs ht hst hks hkt
  have hsz := hmf.size N (keepVertex g k s t) (arcCapacity A N y) s t hs ht hst hks hkt hcap
  have hmin := hmf.minimal N (keepVertex g k s t) (arcCapacity A N y) s t hs ht hst hks hkt hcap
  rw [flowCut_outflow hR] at hsz
  unfold tryCut findMinCut
  simp only
  by_cases hv : (mf N (keepVertex g k s t) (arcCapacity A N y) s t).1 ≥ 1 - 1 / 10 ^ 10
  · rw [if_pos hv, if_neg (not_lt.2 hv)]
    refine ⟨fun h => absurd rfl h, ?_⟩
    rintro ⟨W, h1, h2, h3⟩
    have := hmin W h1 h2
    rw [flowCut_outflow hR] at this
    exact absurd (lt_of_le_of_lt this h3) (not_lt.2 hv)
  · rw [if_neg hv, if_pos (not_le.1 hv)]
    refine ⟨fun _ => ⟨_, hsides.1, hsides.2, ?_⟩, fun _ => by simp⟩
    rw [← hsz]; exact not_le.1 hv

theorem findSome_ne_none {α β : Type} (l : List α) (f : α → Option β) : l.findSome? f ≠ none ↔ ∃ a ∈ l, f a ≠ none := by
  rw [ne_eq, List.findSome?_eq_none_iff]; push Not; rfl

/-- **C76.** At every nonnegative point: connectivity separation reports a cut if and only if some proper set of nodes is left and entered less
than twice (by more than the tolerance); each precedence separation reports a cut if and only if some inequality of its kind is violated by
more than the tolerance.  In particular, when all of them report nothing, the point satisfies all these (exponentially many) inequalities up to the tolerance. -/
theorem C76_separation_exact (h : WM.make rows cols w starts ends = .ok m) (hsw : sw.Correct) (hmf : mf.Correct)
    (hy : ∀ i < m.starts.length * m.n * m.n, 0 ≤ y i) :
    (ucut sw m.starts.length m.n y ≠ none ↔ ConnViolated m.starts.length m.n y (1 / 10 ^ 10)) ∧
    (piCut mf m.n m.starts m.ends m.deps y ≠ none ↔ PiViolated m.starts.length m.n m.ends (DepIn m.n m.w) y (1 / 10 ^ 10)) ∧
    (sigmaCut mf m.n m.starts m.deps y ≠ none ↔ SigmaViolated m.starts.length m.n m.starts (DepIn m.n m.w) y (1 / 10 ^ 10)) ∧
    (piSigmaCut mf m.n m.starts m.deps y ≠ none ↔ PiSigmaViolated m.starts.length m.n (DepIn m.n m.w) y (1 / 10 ^ 10)) := by
  have hi := WM.inst h
  have hy' : ∀ a u v, a < m.starts.length → u < m.n → v < m.n → 0 ≤ y (varId m.n a u v) := fun a u v ha hu hv => hy _ (varId_lt ha hu hv)
  have hq := C16_queries_agree m.n m.w
  have hdeps := (WM.make_ok h).1.deps
  have hno : ∀ {u v}, u < m.n → v < m.n → (m.deps.hasArc u v = false ↔ ¬ DepIn m.n m.w u v) := by
    intro u v hu hv
    rw [← WM.hasArc_iff h hu hv, Bool.not_eq_true]
  have hirr : ∀ u, ¬ DepIn m.n m.w u u := fun u hd => hi.acyclic u (.single hd)
  have has : ∀ u v, DepIn m.n m.w u v → ¬ DepIn m.n m.w v u := fun u v h1 h2 => hi.acyclic u (.tail (.single h1) h2)
  have hempty : ∀ {u v}, DepIn m.n m.w u v → ¬ m.deps.arcs.isEmpty = true := by
    intro u v hd he
    have := (WM.arcs_iff h u v).2 hd
    rw [List.isEmpty_iff.1 he] at this
    simp at this
  refine ⟨?_, ?_, ?_, ?_⟩
  · have hval : ∀ W : Nat → Bool, cutWeight m.n (undirWeight m.starts.length m.n y) W =
        ∑ u ∈ range m.n, ∑ v ∈ range m.n, if W u ≠ W v then arcUse m.starts.length m.n y u v else 0 := by
      intro W
      rw [cutWeight_undir, eval_ucutIds]
      rfl
    have hw0 : ∀ u v, u < v → v < m.n → 0 ≤ undirWeight m.starts.length m.n y u v := by
      intro u v huv hv
      rw [undirWeight_eq]
      exact Finset.sum_nonneg fun a ha => add_nonneg (hy' a u v (Finset.mem_range.1 ha) (by omega) hv) (hy' a v u (Finset.mem_range.1 ha) hv (by omega))
    have hsp := hsw.splits m.n (undirWeight m.starts.length m.n y) (WM.two_le h)
    have hsz := hsw.size m.n (undirWeight m.starts.length m.n y) (WM.two_le h)
    have hmin := hsw.minimal m.n (undirWeight m.starts.length m.n y) (WM.two_le h) hw0
    unfold ucut
    by_cases hv : (sw m.n (undirWeight m.starts.length m.n y)).1 ≥ 2 - 1 / 10 ^ 10
    · rw [if_pos hv]
      refine ⟨fun h => absurd rfl h, ?_⟩
      rintro ⟨W, h1, h2, h3⟩
      rw [← hval] at h3
      exact absurd (lt_of_le_of_lt (hmin W ⟨h1, h2⟩) h3) (not_lt.2 hv)
    · rw [if_neg hv]
      refine ⟨fun _ => ⟨_, hsp.1, hsp.2, ?_⟩, fun _ => by simp⟩
      rw [← hval, ← hsz]; exact not_le.1 hv
  · have hone : ∀ {n e}, n < m.n → e ∈ m.ends → n ≠ e → (tryCut mf m.starts.length m.n m.deps y n e .pi ≠ none ↔
        ∃ W : Nat → Bool, W n = true ∧ W e = false ∧ outflow m.starts.length m.n y (fun v => DepIn m.n m.w v n) W < 1 - 1 / 10 ^ 10) := by
      intro n e hn he hne
      refine tryCut_ne_none hmf hn (hi.lt e (List.mem_append_right _ he)) hne ?_ (hirr n) (hi.noOut e he n) hy'
      intro v hv
      simp only [keepVertex, Bool.not_eq_true']
      exact hno hv hn
    constructor
    · intro hne
      obtain ⟨c, hc⟩ := Option.ne_none_iff_exists'.1 hne
      unfold piCut at hne
      split at hne
      · exact absurd rfl hne
      · obtain ⟨n, hn, hne⟩ := (findSome_ne_none _ _).1 hne
        have hn := List.mem_range.1 hn
        obtain ⟨l, hl, _, hmem⟩ := hq.2.2.2.1 n hn
        rw [← hdeps] at hl
        rw [hl] at hne
        simp only at hne
        split at hne
        · exact absurd rfl hne
        · rename_i hl0
          obtain ⟨e, he, hne⟩ := (findSome_ne_none _ _).1 hne
          split at hne
          · exact absurd rfl hne
          · rename_i hnee
            obtain ⟨p, hp⟩ := List.exists_mem_of_ne_nil l (by simpa using hl0)
            exact ⟨n, e, hn, ⟨p, (hmem p).1 hp⟩, he, hnee, (hone hn he hnee).1 hne⟩
    · rintro ⟨n, e, hn, ⟨p, hp⟩, he, hnee, hW⟩
      unfold piCut
      rw [if_neg (hempty hp)]
      refine (findSome_ne_none _ _).2 ⟨n, List.mem_range.2 hn, ?_⟩
      obtain ⟨l, hl, _, hmem⟩ := hq.2.2.2.1 n hn
      rw [← hdeps] at hl
      rw [hl]
      simp only
      rw [if_neg (by rw [List.isEmpty_iff]; exact List.ne_nil_of_mem ((hmem p).2 hp))]
      refine (findSome_ne_none _ _).2 ⟨e, he, ?_⟩
      rw [if_neg hnee]
      exact (hone hn he hnee).2 hW
  · have hone : ∀ {n s}, n < m.n → s ∈ m.starts → n ≠ s → (tryCut mf m.starts.length m.n m.deps y s n .sigma ≠ none ↔
        ∃ W : Nat → Bool, W s = true ∧ W n = false ∧ outflow m.starts.length m.n y (fun v => DepIn m.n m.w n v) W < 1 - 1 / 10 ^ 10) := by
      intro n s hn hs hne
      refine tryCut_ne_none hmf (hi.lt s (List.mem_append_left _ hs)) hn (Ne.symm hne) ?_ (hi.noIn s hs n) (hirr n) hy'
      intro v hv
      simp only [keepVertex, Bool.not_eq_true']
      exact hno hn hv
    constructor
    · intro hne
      unfold sigmaCut at hne
      split at hne
      · exact absurd rfl hne
      · obtain ⟨n, hn, hne⟩ := (findSome_ne_none _ _).1 hne
        have hn := List.mem_range.1 hn
        obtain ⟨l, hl, _, hmem⟩ := hq.2.2.1 n hn
        rw [← hdeps] at hl
        rw [hl] at hne
        simp only at hne
        split at hne
        · exact absurd rfl hne
        · rename_i hl0
          obtain ⟨e, he, hne⟩ := (findSome_ne_none _ _).1 hne
          split at hne
          · exact absurd rfl hne
          · rename_i hnee
            obtain ⟨p, hp⟩ := List.exists_mem_of_ne_nil l (by simpa using hl0)
            exact ⟨n, e, hn, ⟨p, (hmem p).1 hp⟩, he, hnee, (hone hn he hnee).1 hne⟩
    · rintro ⟨n, e, hn, ⟨p, hp⟩, he, hnee, hW⟩
      unfold sigmaCut
      rw [if_neg (hempty hp)]
      refine (findSome_ne_none _ _).2 ⟨n, List.mem_range.2 hn, ?_⟩
      obtain ⟨l, hl, _, hmem⟩ := hq.2.2.1 n hn
      rw [← hdeps] at hl
      rw [hl]
      simp only
      rw [if_neg (by rw [List.isEmpty_iff]; exact List.ne_nil_of_mem ((hmem p).2 hp))]
      refine (findSome_ne_none _ _).2 ⟨e, he, ?_⟩
      rw [if_neg hnee]
      exact (hone hn he hnee).2 hW
  · have hone : ∀ {s t}, DepIn m.n m.w s t → (tryCut mf m.starts.length m.n m.deps y s t .piSigma ≠ none ↔
        ∃ W : Nat → Bool, W s = true ∧ W t = false ∧ outflow m.starts.length m.n y (fun v => DepIn m.n m.w v s ∨ DepIn m.n m.w t v) W < 1 - 1 / 10 ^ 10) := by
      intro s t hd
      obtain ⟨hs, ht⟩ := hi.dlt s t hd
      refine tryCut_ne_none hmf hs ht ?_ ?_ ?_ ?_ hy'
      · rintro rfl; exact hirr s hd
      · intro v hv
        simp only [keepVertex, Bool.and_eq_true, Bool.not_eq_true', hno hv hs, hno ht hv, not_or]
      · rintro (h1 | h1)
        · exact hirr s h1
        · exact has _ _ hd h1
      · rintro (h1 | h1)
        · exact has _ _ hd h1
        · exact hirr t h1
    constructor
    · intro hne
      unfold piSigmaCut at hne
      split at hne
      · exact absurd rfl hne
      · obtain ⟨⟨s, t⟩, hst, hne⟩ := (findSome_ne_none _ _).1 hne
        have hd := (WM.arcs_iff h s t).1 hst
        exact ⟨s, t, hd, (hone hd).1 hne⟩
    · rintro ⟨s, t, hd, hW⟩
      unfold piSigmaCut
      rw [if_neg (hempty hd)]
      exact (findSome_ne_none _ _).2 ⟨(s, t), (WM.arcs_iff h s t).2 hd, (hone hd).2 hW⟩

/-- non-vacuity: at the point 0 every inequality of the instance `niExW` is violated -/
example (sw : GlobalCut) (mf : MaxFlow) (hsw : sw.Correct) (hmf : mf.Correct) : ∃ m : WM, WM.make 6 6 niExW [0, 0] [0, 4] = .ok m ∧
    ucut sw m.starts.length m.n (fun _ => 0) ≠ none ∧ piSigmaCut mf m.n m.starts m.deps (fun _ => 0) ≠ none := by
  have key : testOk (WM.make 6 6 niExW [0, 0] [0, 4]) (fun m => decide (m.n = 8 ∧ (3, 1) ∈ m.deps.arcs)) = true := by decide +kernel
  obtain ⟨m, hm, k⟩ := testOk_iff key
  obtain ⟨hn, ha⟩ := of_decide_eq_true k
  have hd := (WM.arcs_iff hm 3 1).1 ha
  obtain ⟨h1, _, _, h2⟩ := C76_separation_exact (y := fun _ => 0) hm hsw hmf (fun i _ => le_refl _)
  refine ⟨m, hm, h1.2 ⟨fun v => decide (v = 0), ⟨0, by omega, by simp⟩, ⟨1, by omega, by simp⟩, ?_⟩,
    h2.2 ⟨3, 1, hd, fun v => decide (v = 3), by simp, by simp, ?_⟩⟩
  · simp only [arcUse, Finset.sum_const_zero, ite_self]; norm_num
  · simp only [outflow, arcUse, Finset.sum_const_zero, ite_self]; norm_num

end Mtsp
