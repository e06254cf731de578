import Verif.Props.Comb

/-! Whenever the 2-matching separation reports a constraint, some comb inequality is violated (perhaps another one); in
an instance of at most five nodes none is, so nothing is reported. -/

namespace Mtsp
open Finset

variable {rows cols : Nat} {w : Weights} {starts ends : List Nat} {m : WM} {y : Nat → ℚ} {gh : CutStream}

/-- the extreme weights are attained -/
theorem scanPairs_attained (tab : List ℚ) (l : List (Nat × Nat)) :
    ((scanPairs tab l).1 = 1 ∨ ∃ e ∈ l, tableWeight tab e.1 e.2 > 1 / 2 ∧ tableWeight tab e.1 e.2 = (scanPairs tab l).1) ∧
    ((scanPairs tab l).2.1 = 0 ∨ ∃ e ∈ l, ¬ tableWeight tab e.1 e.2 > 1 / 2 ∧ tableWeight tab e.1 e.2 = (scanPairs tab l).2.1) := by
  induction l using List.reverseRecOn with
  | nil => simp [scanPairs]
  | append_singleton l e ih =>
    have hs : scanPairs tab (l ++ [e]) =
        (if tableWeight tab e.1 e.2 > 1 / 2 then (min (scanPairs tab l).1 (tableWeight tab e.1 e.2), (scanPairs tab l).2.1, e, (scanPairs tab l).2.2.2)
          else ((scanPairs tab l).1, max (scanPairs tab l).2.1 (tableWeight tab e.1 e.2), (scanPairs tab l).2.2.1, e)) := by
      unfold scanPairs; rw [List.foldl_append]; rfl
    obtain ⟨h1, h2⟩ := ih
    have up : ∀ {p : Nat × Nat → Prop}, (∃ f ∈ l, p f) → ∃ f ∈ l ++ [e], p f := by
      rintro p ⟨f, hf, h⟩; exact ⟨f, by simp [hf], h⟩
    by_cases hh : tableWeight tab e.1 e.2 > 1 / 2
    · rw [hs, if_pos hh]
      refine ⟨?_, h2.imp_right up⟩
      rcases le_total (scanPairs tab l).1 (tableWeight tab e.1 e.2) with hle | hle
      · simp only [min_eq_left hle]; exact h1.imp_right up
      · simp only [min_eq_right hle]; exact Or.inr ⟨e, by simp, hh, rfl⟩
    · rw [hs, if_neg hh]
      refine ⟨h1.imp_right up, ?_⟩
      rcases le_total (tableWeight tab e.1 e.2) (scanPairs tab l).2.1 with hle | hle
      · simp only [max_eq_left hle]; exact h2.imp_right up
      · simp only [max_eq_right hle]; exact Or.inr ⟨e, by simp, hh, rfl⟩

theorem sum_flip_one {l : List (Nat × Nat)} (hn : l.Nodup) {e : Nat × Nat} (he : e ∈ l) (f g : Nat × Nat → ℚ) (h : ∀ e' ∈ l, e' ≠ e → f e' = g e') :
    (l.map f).sum = (l.map g).sum + (f e - g e) := by
  induction l with
  | nil => simp at he
  | cons a l ih =>
    obtain ⟨ha, hl⟩ := List.nodup_cons.1 hn
    simp only [List.map_cons, List.sum_cons]
    by_cases hae : a = e
    · subst hae
      have : l.map f = l.map g := List.map_congr_left fun e' he' => h e' (by simp [he']) (by rintro rfl; exact ha he')
      rw [this]; ring
    · rw [ih hl (by simpa [Ne.symm hae] using he) fun e' he' hne => h e' (by simp [he']) hne, h a (by simp) hae]; ring

/-- if a constraint is reported for a partition, some comb inequality with this handle is violated -/
theorem comb_exists (h : WM.make rows cols w starts ends = .ok m) (hgh : gh.Correct)
    (hy : ∀ i < m.starts.length * m.n * m.n, 0 ≤ y i)
    (hrows : ∀ c ∈ buildConstraints m.n m.starts m.ends m.deps.arcs, c.Sat y)
    {c : LinCon} (hc : c ∈ twoMatching gh m.starts.length m.n y) :
    ∃ U V, (U ++ V).Perm (List.range m.n) ∧ ∃ inF : Nat × Nat → Bool,
      ((cutPairs U V).map fun e => if inF e = true then 1 else 0).sum % 2 = 1 ∧
      ((cutPairs U V).map fun e => if inF e = true then 1 - edgeVal m.starts.length m.n y e else edgeVal m.starts.length m.n y e).sum < 1 - 1 / 10 ^ 10 := by
  have h3 := small_no_point h hrows
  unfold twoMatching at hc
  simp only [List.mem_filterMap] at hc
  obtain ⟨⟨size, U, V⟩, hmem, hcut⟩ := hc
  have hparts := hgh.parts m.n _ (by omega) (cap_nonneg m.starts.length m.n y) (cap_symm m.starts.length m.n y) _ hmem
  have hsz := hgh.size m.n _ (by omega) (cap_nonneg m.starts.length m.n y) (cap_symm m.starts.length m.n y) _ hmem
  simp only at hparts hsz hcut
  refine ⟨U, V, hparts, ?_⟩
  set tab := weightTable m.starts.length m.n y with htab
  have hval : ∀ e ∈ cutPairs U V, tableWeight tab e.1 e.2 = edgeVal m.starts.length m.n y e := by
    intro e he
    obtain ⟨h1, h2⟩ := cutPairs_mem hparts he
    have hb := edgeVal_bounds h hy hrows h1 h2
    rw [htab, table_lookup _ _ _ h1 h2]
    unfold clampWeight
    rw [min_eq_right hb.2, max_eq_right hb.1]
  have hsz' : size = ((cutPairs U V).map fun e => min (tableWeight tab e.1 e.2) (1 - tableWeight tab e.1 e.2)).sum := by
    rw [hsz]
    unfold cutPairs
    rw [List.map_flatMap, list_sum_flatMap]
    congr 1
    apply List.map_congr_left
    intro u hu
    rw [List.map_map]
    congr 1
    apply List.map_congr_left
    intro v hv
    simp only [Function.comp]
    by_cases hvu : v < u
    · rw [if_pos hvu, max_eq_left hvu.le, min_eq_right hvu.le]
    · rw [if_neg hvu, max_eq_right (not_lt.1 hvu), min_eq_left (not_lt.1 hvu)]
  have hL : ((cutPairs U V).map fun e => if decide (tableWeight tab e.1 e.2 > 1 / 2) = true
      then 1 - edgeVal m.starts.length m.n y e else edgeVal m.starts.length m.n y e).sum = size := by
    rw [hsz']
    congr 1
    apply List.map_congr_left
    intro e he
    rw [hval e he]
    by_cases hh : edgeVal m.starts.length m.n y e > 1 / 2
    · simp only [hh, decide_true, if_true]
      rw [min_eq_right (by linarith)]
    · simp only [hh, decide_false, Bool.false_eq_true, if_false]
      rw [min_eq_left (by linarith)]
  have hflag := odd_flag tab hparts
  have hcount : ((cutPairs U V).map fun e => if decide (tableWeight tab e.1 e.2 > 1 / 2) = true then 1 else 0).sum =
      ((cutPairs U V).map fun e => if tableWeight tab e.1 e.2 > 1 / 2 then 1 else 0).sum := by
    congr 1
    apply List.map_congr_left
    intro e _
    simp
  have htiny : (0 : ℚ) < 1 / 10 ^ 10 := by norm_num
  have hnd := cutPairs_nodup hparts
  unfold combFor at hcut
  split at hcut
  · simp at hcut
  · rename_i hlt
    have hlt := not_le.1 hlt
    simp only at hcut
    split at hcut
    · rename_i hodd
      rw [hodd] at hflag
      exact ⟨_, hcount ▸ of_decide_eq_true hflag.symm, by rw [hL]; linarith⟩
    · rename_i hodd
      rw [Bool.not_eq_true] at hodd
      rw [hodd] at hflag
      have heven : ((cutPairs U V).map fun e => if decide (tableWeight tab e.1 e.2 > 1 / 2) = true then 1 else 0).sum % 2 = 0 := by
        rw [hcount]
        have := of_decide_eq_false hflag.symm
        omega
      have hs := scanPairs_spec tab (cutPairs U V)
      have ha := scanPairs_attained tab (cutPairs U V)
      simp only at hs
      generalize scanPairs tab (cutPairs U V) = sc at hcut hs ha
      obtain ⟨w1, w2, e1, e2⟩ := sc
      simp only at hcut hs ha
      obtain ⟨hw1, hw2, -, -⟩ := hs
      split at hcut
      · rename_i hlt2
        by_cases hc : w1 < 1 - w2
        · rw [min_eq_left (by linarith)] at hlt2
          obtain ⟨e, he, hheavy, hew⟩ := ha.1.resolve_left (by intro h1; linarith)
          refine ⟨fun e' => decide (tableWeight tab e'.1 e'.2 > 1 / 2) && decide (e' ≠ e), ?_, ?_⟩
          · have := count_remove hnd he (fun e => decide (tableWeight tab e.1 e.2 > 1 / 2)) (decide_eq_true hheavy)
            dsimp only at this ⊢
            omega
          · rw [sum_flip_one hnd he _ (fun e => if decide (tableWeight tab e.1 e.2 > 1 / 2) = true
              then 1 - edgeVal m.starts.length m.n y e else edgeVal m.starts.length m.n y e)
              (fun e' _ hne => by simp [hne]), hL, ← hval e he, hew]
            simp only [ne_eq, not_true_eq_false, decide_false, Bool.and_false, Bool.false_eq_true, if_false]
            rw [hew] at hheavy
            simp only [hheavy, decide_true, if_true]
            linarith
        · have hc := not_lt.1 hc
          rw [min_eq_right (by linarith)] at hlt2
          obtain ⟨e, he, hlight, hew⟩ := ha.2.resolve_left (by
            intro h1
            have : 0 ≤ size := by
              rw [hsz']
              apply List.sum_nonneg
              intro q hq
              obtain ⟨e, _, rfl⟩ := List.mem_map.1 hq
              have := tableWeight_bounds m.starts.length m.n y e.1 e.2
              exact le_min this.1 (by rw [htab]; linarith [this.2])
            rw [h1] at hlt2; linarith)
          refine ⟨fun e' => decide (tableWeight tab e'.1 e'.2 > 1 / 2) || decide (e' = e), ?_, ?_⟩
          · have := count_add hnd he (fun e => decide (tableWeight tab e.1 e.2 > 1 / 2)) (decide_eq_false hlight)
            dsimp only at this ⊢
            omega
          · rw [sum_flip_one hnd he _ (fun e => if decide (tableWeight tab e.1 e.2 > 1 / 2) = true
              then 1 - edgeVal m.starts.length m.n y e else edgeVal m.starts.length m.n y e)
              (fun e' _ hne => by simp [hne]), hL, ← hval e he, hew]
            simp only [decide_true, Bool.or_true, if_true]
            rw [hew] at hlight
            simp only [hlight, decide_false, Bool.false_eq_true, if_false]
            linarith
      · simp at hcut

/-! ### small handles -/

/-- the edges of one node of the handle -/
theorem row_bound (V : List Nat) (x : Nat → ℚ) (b : Nat → Bool) (hx : ∀ v ∈ V, 0 ≤ x v ∧ x v ≤ 1) :
    ∃ X : ℚ, 0 ≤ X ∧ X ≤ (V.map x).sum ∧ X ≤ ((V.map fun v => if b v = true then 1 else 0).sum : Nat) ∧
      (V.map fun v => if b v = true then 1 - x v else x v).sum =
        (V.map x).sum + ((V.map fun v => if b v = true then 1 else 0).sum : Nat) - 2 * X := by
  induction V with
  | nil => exact ⟨0, by simp⟩
  | cons a V ih =>
    obtain ⟨X, h0, h1, h2, h3⟩ := ih fun v hv => hx v (by simp [hv])
    have ha := hx a (by simp)
    clear ih
    simp only [List.map_cons, List.sum_cons]
    generalize (V.map fun v => if b v = true then (1 : Nat) else 0).sum = k at *
    cases hb : b a with
    | true =>
      refine ⟨X + x a, by linarith, by linarith, ?_, ?_⟩ <;> simp only [if_true] <;> push_cast <;> linarith
    | false =>
      refine ⟨X, by linarith, by linarith, ?_, ?_⟩ <;> simp only [Bool.false_eq_true, if_false] <;> push_cast <;> linarith

theorem row_odd (V : List Nat) (x : Nat → ℚ) (b : Nat → Bool) (hx : ∀ v ∈ V, 0 ≤ x v ∧ x v ≤ 1) (hs : (V.map x).sum ≤ 2)
    (hodd : (V.map fun v => if b v = true then 1 else 0).sum % 2 = 1) :
    (V.map x).sum - 1 ≤ (V.map fun v => if b v = true then 1 - x v else x v).sum := by
  obtain ⟨X, h0, h1, h2, h3⟩ := row_bound V x b hx
  rw [h3]
  generalize (V.map fun v => if b v = true then 1 else 0).sum = k at *
  by_cases hk : k = 1
  · subst hk; push_cast at h2 ⊢; linarith
  · have : (3 : ℚ) ≤ (k : ℚ) := by exact_mod_cast (by omega : 3 ≤ k)
    linarith

theorem row_even (V : List Nat) (x : Nat → ℚ) (b : Nat → Bool) (hx : ∀ v ∈ V, 0 ≤ x v ∧ x v ≤ 1) (hs : 1 ≤ (V.map x).sum)
    (heven : (V.map fun v => if b v = true then 1 else 0).sum % 2 = 0) :
    2 - (V.map x).sum ≤ (V.map fun v => if b v = true then 1 - x v else x v).sum := by
  obtain ⟨X, h0, h1, h2, h3⟩ := row_bound V x b hx
  rw [h3]
  generalize (V.map fun v => if b v = true then 1 else 0).sum = k at *
  by_cases hk : k = 0
  · subst hk; push_cast at h2 ⊢; linarith
  · have : (2 : ℚ) ≤ (k : ℚ) := by exact_mod_cast (by omega : 2 ≤ k)
    linarith

theorem edgeVal_symm (A N : Nat) (y : Nat → ℚ) (u v : Nat) : edgeVal A N y (max u v, min u v) = edgeVal A N y (u, v) := by
  rcases le_total u v with h | h
  · rw [max_eq_right h, min_eq_left h]; unfold edgeVal; exact Finset.sum_congr rfl fun a _ => add_comm _ _
  · rw [max_eq_left h, min_eq_right h]

/-- every node has degree two -/
theorem edgeVal_degree (hrows : ∀ c ∈ buildConstraints m.n m.starts m.ends m.deps.arcs, c.Sat y) {u : Nat} (hu : u < m.n) :
    ((List.range m.n).map fun v => edgeVal m.starts.length m.n y (u, v)).sum = 2 := by
  have r := (rows_iff _ _ _ _ _).1 hrows
  have h1 := r.degIn u hu
  have h2 := r.degOut u hu
  rw [list_sum_range]
  unfold edgeVal
  rw [Finset.sum_comm]
  simp only [inA, outA] at h1 h2
  simp only [Finset.sum_add_distrib]
  rw [h1, h2]; norm_num

theorem handle_small (h : WM.make rows cols w starts ends = .ok m) (hy : ∀ i < m.starts.length * m.n * m.n, 0 ≤ y i)
    (hrows : ∀ c ∈ buildConstraints m.n m.starts m.ends m.deps.arcs, c.Sat y)
    {U V : List Nat} (hp : (U ++ V).Perm (List.range m.n)) (hU : U.length ≤ 2) (inF : Nat × Nat → Bool)
    (hodd : ((cutPairs U V).map fun e => if inF e = true then 1 else 0).sum % 2 = 1) :
    1 ≤ ((cutPairs U V).map fun e => if inF e = true then 1 - edgeVal m.starts.length m.n y e else edgeVal m.starts.length m.n y e).sum := by
  have hn : (U ++ V).Nodup := hp.nodup_iff.2 List.nodup_range
  have hlt : ∀ u ∈ U ++ V, u < m.n := fun u hu => List.mem_range.1 (hp.mem_iff.1 hu)
  have r := (rows_iff _ _ _ _ _).1 hrows
  have hdiag : ∀ u < m.n, edgeVal m.starts.length m.n y (u, u) = 0 := by
    intro u hu
    unfold edgeVal
    exact Finset.sum_eq_zero fun a ha => by simp only; rw [r.diag a (Finset.mem_range.1 ha) u hu]; norm_num
  have hb : ∀ u < m.n, ∀ v < m.n, u ≠ v → 0 ≤ edgeVal m.starts.length m.n y (u, v) ∧ edgeVal m.starts.length m.n y (u, v) ≤ 1 := by
    intro u hu v hv hne
    rw [← edgeVal_symm]
    exact edgeVal_bounds h hy hrows (by omega) (by omega)
  have hdeg : ∀ u ∈ U, (U.map fun v => edgeVal m.starts.length m.n y (u, v)).sum + (V.map fun v => edgeVal m.starts.length m.n y (u, v)).sum = 2 := by
    intro u hu
    rw [← edgeVal_degree hrows (hlt u (by simp [hu])), ← List.sum_append, ← List.map_append]
    exact (hp.map _).sum_eq
  have hrow : ∀ u ∈ U, ∀ v ∈ V, 0 ≤ edgeVal m.starts.length m.n y (u, v) ∧ edgeVal m.starts.length m.n y (u, v) ≤ 1 := by
    intro u hu v hv
    exact hb u (hlt u (by simp [hu])) v (hlt v (by simp [hv])) fun e => (List.nodup_append.1 hn).2.2 u hu v hv e
  have hsum : ∀ u, ((V.map fun v => (max u v, min u v)).map fun e => if inF e = true then 1 - edgeVal m.starts.length m.n y e else edgeVal m.starts.length m.n y e) =
      V.map fun v => if inF (max u v, min u v) = true then 1 - edgeVal m.starts.length m.n y (u, v) else edgeVal m.starts.length m.n y (u, v) := by
    intro u
    rw [List.map_map]
    apply List.map_congr_left
    intro v _
    simp only [Function.comp, edgeVal_symm]
  have hcnt : ∀ u, ((V.map fun v => (max u v, min u v)).map fun e => if inF e = true then 1 else 0) =
      V.map fun v => if inF (max u v, min u v) = true then 1 else 0 := by
    intro u
    rw [List.map_map]
    rfl
  rcases U with _ | ⟨u, _ | ⟨u', _ | ⟨u'', U⟩⟩⟩
  · simp [cutPairs] at hodd
  · unfold cutPairs at hodd ⊢
    simp only [List.flatMap_cons, List.flatMap_nil, List.append_nil] at hodd ⊢
    rw [hcnt] at hodd
    rw [hsum]
    have hd := hdeg u (by simp)
    simp only [List.map_cons, List.map_nil, List.sum_cons, List.sum_nil] at hd
    rw [hdiag u (hlt u (by simp))] at hd
    have := row_odd V (fun v => edgeVal m.starts.length m.n y (u, v)) (fun v => inF (max u v, min u v)) (hrow u (by simp)) (by linarith) hodd
    linarith
  · unfold cutPairs at hodd ⊢
    simp only [List.flatMap_cons, List.flatMap_nil, List.append_nil, List.map_append, List.sum_append] at hodd ⊢
    rw [hcnt, hcnt] at hodd
    rw [hsum, hsum]
    have hne : u ≠ u' := by
      have := (List.nodup_append.1 hn).1
      simp at this; exact this
    have hd := hdeg u (by simp)
    have hd' := hdeg u' (by simp)
    simp only [List.map_cons, List.map_nil, List.sum_cons, List.sum_nil] at hd hd'
    have hu := hlt u (by simp)
    have hu' := hlt u' (by simp)
    rw [hdiag u hu] at hd
    rw [hdiag u' hu', ← edgeVal_symm, max_comm, min_comm, edgeVal_symm] at hd'
    have hz := hb u hu u' hu' hne
    have o1 := row_odd V (fun v => edgeVal m.starts.length m.n y (u, v)) (fun v => inF (max u v, min u v)) (hrow u (by simp)) (by linarith)
    have o2 := row_odd V (fun v => edgeVal m.starts.length m.n y (u', v)) (fun v => inF (max u' v, min u' v)) (hrow u' (by simp)) (by linarith)
    have v1 := row_even V (fun v => edgeVal m.starts.length m.n y (u, v)) (fun v => inF (max u v, min u v)) (hrow u (by simp)) (by linarith)
    have v2 := row_even V (fun v => edgeVal m.starts.length m.n y (u', v)) (fun v => inF (max u' v, min u' v)) (hrow u' (by simp)) (by linarith)
    rcases Nat.mod_two_eq_zero_or_one (V.map fun v => if inF (max u v, min u v) = true then 1 else 0).sum with hk | hk
    · have := v1 hk
      have := o2 (by omega)
      linarith
    · have := o1 hk
      have := v2 (by omega)
      linarith
  · simp at hU

theorem cutPairs_perm {N : Nat} {U V : List Nat} (hp : (U ++ V).Perm (List.range N)) : (cutPairs U V).Perm (cutPairs V U) := by
  rw [List.perm_ext_iff_of_nodup (cutPairs_nodup hp) (cutPairs_nodup (List.perm_append_comm.trans hp))]
  intro e
  simp only [cutPairs, List.mem_flatMap, List.mem_map]
  constructor
  · rintro ⟨u, hu, v, hv, rfl⟩; exact ⟨v, hv, u, hu, by rw [max_comm, min_comm]⟩
  · rintro ⟨u, hu, v, hv, rfl⟩; exact ⟨v, hv, u, hu, by rw [max_comm, min_comm]⟩

/-- in an instance of at most five nodes the 2-matching separation finds nothing -/
theorem twoMatching_small (h : WM.make rows cols w starts ends = .ok m) (hgh : gh.Correct) (hn : m.n ≤ 5)
    (hy : ∀ i < m.starts.length * m.n * m.n, 0 ≤ y i)
    (hrows : ∀ c ∈ buildConstraints m.n m.starts m.ends m.deps.arcs, c.Sat y) : twoMatching gh m.starts.length m.n y = [] := by
  by_contra hne
  obtain ⟨c, hc⟩ := List.exists_mem_of_ne_nil _ hne
  obtain ⟨U, V, hp, inF, hodd, hlt⟩ := comb_exists h hgh hy hrows hc
  have hlt := lt_trans hlt (show (1 : ℚ) - 1 / 10 ^ 10 < 1 by norm_num)
  have hlen := hp.length_eq
  rw [List.length_append, List.length_range] at hlen
  rcases Nat.lt_or_ge U.length 3 with hU | hU
  · exact absurd (handle_small h hy hrows hp (by omega) inF hodd) (not_le.2 hlt)
  · have hp' := List.perm_append_comm.trans hp
    have hpp := cutPairs_perm hp
    rw [(hpp.map _).sum_eq] at hodd hlt
    exact absurd (handle_small h hy hrows hp' (by omega) inF hodd) (not_le.2 hlt)

end Mtsp
