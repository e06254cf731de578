import Verif.Proof.CombSmall
import Verif.Props.CutsNear

/-! The 2-matching separation in floating point: in an instance of at most five nodes it finds nothing. -/

namespace Mtsp
open Finset

variable {rows cols : Nat} {w : Weights} {starts ends : List Nat} {m : WM} {y : Nat → ℚ} {gh : CutStream} {fl : ℚ → ℚ}

theorem Precise.near (hfl : Precise fl) {q : ℚ} (h0 : 0 ≤ q) (h4 : q ≤ 4) : fl q ≤ q + 1 / 10 ^ 14 ∧ q ≤ fl q + 1 / 10 ^ 14 := by
  have h1 := hfl.low q h0
  have h2 := hfl.high q h0
  norm_num at h1 h2 ⊢
  constructor <;> linarith

theorem clamp_near {a b ε : ℚ} (h0 : 0 ≤ b) (h1 : b ≤ 1) (he : 0 ≤ ε) (hab : a ≤ b + ε) (hba : b ≤ a + ε) :
    clampWeight a ≤ b + ε ∧ b ≤ clampWeight a + ε := by
  unfold clampWeight
  constructor
  · exact max_le (by linarith) ((min_le_right _ _).trans hab)
  · have : b - ε ≤ min 1 a := le_min (by linarith) (by linarith)
    have := this.trans (le_max_right 0 (min 1 a))
    linarith

/-- the entries of the table -/
theorem table_near (hfl : Precise fl) (h : WM.make rows cols w starts ends = .ok m) (hsize : m.starts.length * m.n * m.n ≤ 2147483647)
    (hy : ∀ i < m.starts.length * m.n * m.n, 0 ≤ y i)
    (hrows : ∀ c ∈ buildConstraints m.n m.starts m.ends m.deps.arcs, c.Sat y) {u v : Nat} (hv : v < u) (hu : u < m.n) :
    tableWeight (weightTableF fl m.starts.length m.n y) u v ≤ edgeVal m.starts.length m.n y (u, v) + 1 / 10 ^ 12 ∧
    edgeVal m.starts.length m.n y (u, v) ≤ tableWeight (weightTableF fl m.starts.length m.n y) u v + 1 / 10 ^ 12 := by
  have hb := edgeVal_bounds h hy hrows hv hu
  have hn := undirWeightF_near (N := m.n) (y := y) hfl (agents_lt h hsize) (u := u) (v := v)
    fun a ha => ⟨hy _ (varId_lt ha hu (by omega)), hy _ (varId_lt ha (by omega) hu)⟩
  have e : undirWeight m.starts.length m.n y u v = edgeVal m.starts.length m.n y (u, v) := by rw [undirWeight_eq]; rfl
  rw [e] at hn
  have e2 : tableWeight (weightTableF fl m.starts.length m.n y) u v = clampWeight (undirWeightF fl m.starts.length m.n y u v) := by
    unfold tableWeight weightTableF
    rw [List.getD_eq_getElem?_getD, table_lookup_aux (fun u v => clampWeight (undirWeightF fl m.starts.length m.n y u v)) hv m.n hu]
    rfl
  rw [e2]
  refine clamp_near hb.1 hb.2 (by norm_num) ?_ ?_
  · have := hn.2; norm_num at this ⊢; linarith [hb.2]
  · have := hn.1; norm_num at this ⊢; linarith [hb.2]

theorem list_sum_near {α : Type} (l : List α) (f g : α → ℚ) (ε : ℚ) (h : ∀ x ∈ l, f x ≤ g x + ε) : (l.map f).sum ≤ (l.map g).sum + l.length * ε := by
  induction l with
  | nil => simp
  | cons a l ih =>
    have h1 := ih fun x hx => h x (by simp [hx])
    have h2 := h a (by simp)
    simp only [List.map_cons, List.sum_cons, List.length_cons]
    push_cast
    linarith

/-- if a constraint is reported for a partition with at most six edges, some comb inequality with this handle is violated -/
theorem combF_exists (hr : Rounding fl) (hfl : Precise fl) (h : WM.make rows cols w starts ends = .ok m) (hsize : m.starts.length * m.n * m.n ≤ 2147483647)
    (hgh : gh.Proper) (hnear : gh.Near m.n)
    (hy : ∀ i < m.starts.length * m.n * m.n, 0 ≤ y i)
    (hrows : ∀ c ∈ buildConstraints m.n m.starts m.ends m.deps.arcs, c.Sat y)
    {c : LinCon} (hc : c ∈ twoMatchingGF fl gh m.starts.length m.n y) :
    ∃ U V, (U ++ V).Perm (List.range m.n) ∧ ((cutPairs U V).length ≤ 6 → ∃ inF : Nat × Nat → Bool,
      ((cutPairs U V).map fun e => if inF e = true then 1 else 0).sum % 2 = 1 ∧
      ((cutPairs U V).map fun e => if inF e = true then 1 - edgeVal m.starts.length m.n y e else edgeVal m.starts.length m.n y e).sum < 1 - 1 / (2 * 10 ^ 10)) := by
  have h3 := small_no_point h hrows
  unfold twoMatchingGF at hc
  simp only [List.mem_filterMap] at hc
  obtain ⟨⟨size, U, V⟩, hmem, hcut⟩ := hc
  have hcap := capF_bounds hr m.starts.length m.n y
  have hparts := hgh.parts m.n _ (by omega) (fun u v => (hcap u v).1) (capF_symm m.starts.length m.n y) _ hmem
  have hpos := hgh.nonneg m.n _ (by omega) (fun u v => (hcap u v).1) (capF_symm m.starts.length m.n y) _ hmem
  have hsz := hnear _ hcap (capF_symm m.starts.length m.n y) _ hmem
  simp only at hparts hpos hsz hcut
  refine ⟨U, V, hparts, fun hlen => ?_⟩
  set tab := weightTableF fl m.starts.length m.n y with htab
  have hval : ∀ e ∈ cutPairs U V, tableWeight tab e.1 e.2 ≤ edgeVal m.starts.length m.n y e + 1 / 10 ^ 12 ∧
      edgeVal m.starts.length m.n y e ≤ tableWeight tab e.1 e.2 + 1 / 10 ^ 12 := by
    intro e he
    obtain ⟨h1, h2⟩ := cutPairs_mem hparts he
    exact table_near hfl h hsize hy hrows h1 h2
  have hsz' : (U.map fun u => (V.map fun v => if v < u then min (tableWeight tab u v) (fl (1 - tableWeight tab u v))
      else min (tableWeight tab v u) (fl (1 - tableWeight tab v u))).sum).sum =
      ((cutPairs U V).map fun e => min (tableWeight tab e.1 e.2) (fl (1 - tableWeight tab e.1 e.2))).sum := by
    unfold cutPairs
    rw [List.map_flatMap, list_sum_flatMap]
    congr 1
    apply List.map_congr_left
    intro u hu
    rw [List.map_map]
    congr 1
    apply List.map_congr_left
    intro v hv
    simp only [Function.comp]
    by_cases hvu : v < u
    · rw [if_pos hvu, max_eq_left hvu.le, min_eq_right hvu.le]
    · rw [if_neg hvu, max_eq_right (not_lt.1 hvu), min_eq_left (not_lt.1 hvu)]
  rw [hsz'] at hsz
  have hL : ((cutPairs U V).map fun e => if decide (tableWeight tab e.1 e.2 > 1 / 2) = true
      then 1 - edgeVal m.starts.length m.n y e else edgeVal m.starts.length m.n y e).sum ≤ size + 3 / 10 ^ 11 := by
    have h1 := list_sum_near (cutPairs U V) (fun e => if decide (tableWeight tab e.1 e.2 > 1 / 2) = true
      then 1 - edgeVal m.starts.length m.n y e else edgeVal m.starts.length m.n y e)
      (fun e => min (tableWeight tab e.1 e.2) (fl (1 - tableWeight tab e.1 e.2))) (2 / 10 ^ 12) (by
        intro e he
        obtain ⟨v1, v2⟩ := hval e he
        obtain ⟨b1, b2⟩ := weightTableF_bounds (fl := fl) m.starts.length m.n y e.1 e.2
        rw [← htab] at b1 b2
        obtain ⟨n1, n2⟩ := hfl.near (q := 1 - tableWeight tab e.1 e.2) (by linarith) (by linarith)
        by_cases hh : tableWeight tab e.1 e.2 > 1 / 2
        · simp only [hh, decide_true, if_true]
          have : 1 - tableWeight tab e.1 e.2 - 1 / 10 ^ 14 ≤ min (tableWeight tab e.1 e.2) (fl (1 - tableWeight tab e.1 e.2)) :=
            le_min (by norm_num; linarith) (by linarith)
          generalize min (tableWeight tab e.1 e.2) (fl (1 - tableWeight tab e.1 e.2)) = z at this ⊢
          norm_num at this v1 v2 ⊢
          linarith
        · simp only [hh, decide_false, Bool.false_eq_true, if_false]
          have hh := not_lt.1 hh
          have : tableWeight tab e.1 e.2 - 1 / 10 ^ 14 ≤ min (tableWeight tab e.1 e.2) (fl (1 - tableWeight tab e.1 e.2)) :=
            le_min (by norm_num) (by linarith)
          generalize min (tableWeight tab e.1 e.2) (fl (1 - tableWeight tab e.1 e.2)) = z at this ⊢
          norm_num at this v1 v2 ⊢
          linarith)
    have h2 := (abs_le.1 hsz).1
    have h3 : ((cutPairs U V).length : ℚ) ≤ 6 := by exact_mod_cast hlen
    norm_num at h1 h2 ⊢
    linarith
  have hflag := odd_flag tab hparts
  have hcount : ((cutPairs U V).map fun e => if decide (tableWeight tab e.1 e.2 > 1 / 2) = true then 1 else 0).sum =
      ((cutPairs U V).map fun e => if tableWeight tab e.1 e.2 > 1 / 2 then 1 else 0).sum := by
    congr 1
    apply List.map_congr_left
    intro e _
    simp
  obtain ⟨l1, l2⟩ := hfl.limit (k := 1) (le_refl _) (by norm_num)
  have hnd := cutPairs_nodup hparts
  unfold combForF at hcut
  split at hcut
  · simp at hcut
  · rename_i hlt
    have hlt := not_le.1 hlt
    simp only at hcut
    split at hcut
    · rename_i hodd
      rw [hodd] at hflag
      refine ⟨_, hcount ▸ of_decide_eq_true hflag.symm, lt_of_le_of_lt hL ?_⟩
      norm_num at l2 ⊢
      linarith
    · rename_i hodd
      rw [Bool.not_eq_true] at hodd
      rw [hodd] at hflag
      have heven : ((cutPairs U V).map fun e => if decide (tableWeight tab e.1 e.2 > 1 / 2) = true then 1 else 0).sum % 2 = 0 := by
        rw [hcount]
        have := of_decide_eq_false hflag.symm
        omega
      have hs := scanPairs_spec tab (cutPairs U V)
      have ha := scanPairs_attained tab (cutPairs U V)
      simp only at hs
      generalize scanPairs tab (cutPairs U V) = sc at hcut hs ha
      obtain ⟨w1, w2, e1, e2⟩ := sc
      simp only at hcut hs ha
      obtain ⟨hw1, hw2, -, -⟩ := hs
      have hw1' : 1 / 2 ≤ w1 := by
        rcases ha.1 with h | ⟨e, _, h1, h2⟩
        · rw [h]; norm_num
        · rw [← h2]; exact h1.le
      have hw2' : w2 ≤ 1 / 2 := by
        rcases ha.2 with h | ⟨e, _, h1, h2⟩
        · rw [h]; norm_num
        · rw [← h2]; exact not_lt.1 h1
      split at hcut
      · rename_i hlt2
        have f1 := hr.mono 1 (2 * w1) (by linarith)
        rw [hr.one'] at f1
        have f2 := hr.mono (2 * w2) 1 (by linarith)
        rw [hr.one'] at f2
        obtain ⟨a1, a2⟩ := hfl.near (q := 2 * w1) (by linarith) (by linarith)
        obtain ⟨b1, b2⟩ := hfl.near (q := 2 * w2) (by linarith) (by linarith)
        have t14 : (1 : ℚ) / 10 ^ 14 ≤ 1 := by norm_num
        obtain ⟨a3, a4⟩ := hfl.near (q := fl (2 * w1) - 1) (by linarith) (by linarith)
        have b0 := hfl.nonneg (q := 2 * w2) (by linarith)
        obtain ⟨b3, b4⟩ := hfl.near (q := 1 - fl (2 * w2)) (by linarith) (by linarith)
        generalize fl (fl (2 * w1) - 1) = p at hlt2 a3 a4
        generalize fl (1 - fl (2 * w2)) = q at hlt2 b3 b4
        generalize fl (2 * w1) = p' at a1 a2 a3 a4 f1
        generalize fl (2 * w2) = q' at b1 b2 b3 b4 b0 f2
        have hM : min (2 * w1 - 1) (1 - 2 * w2) - 2 / 10 ^ 14 ≤ min p q := by
          refine le_min ?_ ?_
          · have := min_le_left (2 * w1 - 1) (1 - 2 * w2)
            generalize min (2 * w1 - 1) (1 - 2 * w2) = z at this ⊢
            norm_num at a1 a2 a3 a4 ⊢; linarith
          · have := min_le_right (2 * w1 - 1) (1 - 2 * w2)
            generalize min (2 * w1 - 1) (1 - 2 * w2) = z at this ⊢
            norm_num at b1 b2 b3 b4 ⊢; linarith
        have hM0 : 0 ≤ min (2 * w1 - 1) (1 - 2 * w2) := le_min (by linarith) (by linarith)
        have hM1 : min p q ≤ 1 + 2 / 10 ^ 14 := by
          refine (min_le_left _ _).trans ?_
          norm_num at a1 a3 ⊢; linarith
        generalize min p q = M at hM hM1 hlt2
        have hlt3 : size + M < 1 - 1 / 10 ^ 10 + 2 / 10 ^ 12 := by
          by_cases hn : 0 ≤ size + M
          · have := (hfl.near hn (by norm_num at l2 hM1 ⊢; linarith)).2
            norm_num at this l2 ⊢; linarith
          · norm_num; linarith
        have hlt4 : size + min (2 * w1 - 1) (1 - 2 * w2) < 1 - 1 / 10 ^ 10 + 3 / 10 ^ 12 := by
          generalize min (2 * w1 - 1) (1 - 2 * w2) = z at hM ⊢
          norm_num at hlt3 hM ⊢; linarith
        by_cases hc : 2 * w1 - 1 < 1 - 2 * w2
        · rw [min_eq_left hc.le] at hlt4
          obtain ⟨e, he, hheavy, hew⟩ := ha.1.resolve_left (by intro h1; rw [h1] at hc; linarith)
          refine ⟨fun e' => decide (tableWeight tab e'.1 e'.2 > 1 / 2) && decide (e' ≠ e), ?_, ?_⟩
          · have := count_remove hnd he (fun e => decide (tableWeight tab e.1 e.2 > 1 / 2)) (decide_eq_true hheavy)
            dsimp only at this ⊢
            omega
          · rw [sum_flip_one hnd he _ (fun e => if decide (tableWeight tab e.1 e.2 > 1 / 2) = true
              then 1 - edgeVal m.starts.length m.n y e else edgeVal m.starts.length m.n y e)
              (fun e' _ hne => by simp [hne])]
            have hv := hval e he
            simp only [ne_eq, not_true_eq_false, decide_false, Bool.and_false, Bool.false_eq_true, if_false]
            simp only [hheavy, decide_true, if_true]
            rw [hew] at hv
            norm_num at hL hv hlt4 ⊢
            linarith
        · have hc := not_lt.1 hc
          rw [min_eq_right hc] at hlt4
          obtain ⟨e, he, hlight, hew⟩ := ha.2.resolve_left (by
            intro h1
            rw [h1] at hlt4
            norm_num at hlt4
            linarith)
          refine ⟨fun e' => decide (tableWeight tab e'.1 e'.2 > 1 / 2) || decide (e' = e), ?_, ?_⟩
          · have := count_add hnd he (fun e => decide (tableWeight tab e.1 e.2 > 1 / 2)) (decide_eq_false hlight)
            dsimp only at this ⊢
            omega
          · rw [sum_flip_one hnd he _ (fun e => if decide (tableWeight tab e.1 e.2 > 1 / 2) = true
              then 1 - edgeVal m.starts.length m.n y e else edgeVal m.starts.length m.n y e)
              (fun e' _ hne => by simp [hne])]
            have hv := hval e he
            simp only [decide_true, Bool.or_true, if_true]
            simp only [hlight, decide_false, Bool.false_eq_true, if_false]
            rw [hew] at hv
            norm_num at hL hv hlt4 ⊢
            linarith
      · simp at hcut

/-- in an instance of at most five nodes the 2-matching separation finds nothing -/
theorem twoMatchingGF_small (hr : Rounding fl) (hfl : Precise fl) (h : WM.make rows cols w starts ends = .ok m)
    (hsize : m.starts.length * m.n * m.n ≤ 2147483647) (hgh : gh.Proper) (hnear : gh.Near m.n) (hn : m.n ≤ 5)
    (hy : ∀ i < m.starts.length * m.n * m.n, 0 ≤ y i)
    (hrows : ∀ c ∈ buildConstraints m.n m.starts m.ends m.deps.arcs, c.Sat y) : twoMatchingGF fl gh m.starts.length m.n y = [] := by
  by_contra hne
  obtain ⟨c, hc⟩ := List.exists_mem_of_ne_nil _ hne
  obtain ⟨U, V, hp, hex⟩ := combF_exists hr hfl h hsize hgh hnear hy hrows hc
  have hlen := hp.length_eq
  rw [List.length_append, List.length_range] at hlen
  have hpl : (cutPairs U V).length = U.length * V.length := by
    unfold cutPairs
    rw [List.length_flatMap]
    simp
  obtain ⟨inF, hodd, hlt⟩ := hex (by
    rw [hpl]
    have hU : U.length ≤ 5 := by omega
    have hV : V.length ≤ 5 - U.length := by omega
    refine (Nat.mul_le_mul_left _ hV).trans ?_
    generalize U.length = k at hU
    rcases k with _ | _ | _ | _ | _ | _ | k <;> omega)
  have hlt := lt_trans hlt (show (1 : ℚ) - 1 / (2 * 10 ^ 10) < 1 by norm_num)
  rcases Nat.lt_or_ge U.length 3 with hU | hU
  · exact absurd (handle_small h hy hrows hp (by omega) inF hodd) (not_le.2 hlt)
  · have hp' := List.perm_append_comm.trans hp
    have hpp := cutPairs_perm hp
    rw [(hpp.map _).sum_eq] at hodd hlt
    exact absurd (handle_small h hy hrows hp' (by omega) inF hodd) (not_le.2 hlt)

end Mtsp
