import Verif.Proof.Doubles
import Verif.Props.InitialResult

/-! Nearest insertion with rounding: exact on integral weights, and a cover for any weights. -/

namespace Mtsp

theorem Inst.agents_le {N : Nat} {starts ends : List Nat} {D : Nat → Nat → Prop} (h : Inst N starts ends D) : starts.length ≤ N := by
  have hn : starts.Nodup := (List.nodup_append.1 h.nodup).1
  have hs : starts ⊆ List.range N := fun x hx => List.mem_range.2 (h.lt x (List.mem_append_left _ hx))
  have := (List.subperm_of_subset hn hs).length_le
  simpa using this

theorem init_nodes {N A : Nat} {s e comp : Nat → Nat} {c : NICore} (hinv : CoreInv A s e comp [] c (fun _ => []))
    (hpn : PathNodes A N s e []) : ∀ a, ∀ x ∈ c.paths.getD a [], x < N := by
  intro a x hx
  by_cases ha : a < A
  · rw [hinv.path ha] at hx
    simp at hx
    rcases hx with rfl | rfl
    · exact hpn.s a ha
    · exact hpn.e a ha
  · rw [hinv.paths, List.getD_eq_getElem?_getD, List.getElem?_eq_none (by simpa using ha)] at hx
    simp at hx

theorem pathNodes_init {N : Nat} {starts ends : List Nat} {D : Nat → Nat → Prop} (h : Inst N starts ends D) :
    PathNodes starts.length N (starts.getD · 0) (ends.getD · 0) [] := by
  refine ⟨?_, ?_, by simp⟩
  · intro a ha
    refine h.lt _ (List.mem_append_left _ ?_)
    simp [List.getD_eq_getElem?_getD, ha]
  · intro a ha
    refine h.lt _ (List.mem_append_right _ ?_)
    simp [List.getD_eq_getElem?_getD, h.lenEq ▸ ha]

theorem nearestInsertionF_eq {fl : ℚ → ℚ} (hfl : Rounding fl) {mode : Mode} {W : Nat → Weights} {N : Nat} {starts ends : List Nat}
    {deps : DepGraph} {D : Nat → Nat → Prop} (h : Inst N starts ends D) (hdeps : ∀ u v, (u, v) ∈ deps.arcs ↔ D u v)
    (hw : ∀ a, SmallW N (W a)) (hN : N ≤ 2 ^ 19) (t : Nat) :
    nearestInsertionF fl mode W N starts ends deps t = nearestInsertion mode W N starts ends deps t := by
  obtain ⟨d, hd, hperm, _, _⟩ := ni_order h hdeps
  have hlenN : d.reverse.length = N := by rw [hperm.length_eq]; simp
  have hltN : ∀ n ∈ d.reverse, n < N := fun n hn => List.mem_range.1 (hperm.mem_iff.1 hn)
  have hpn := pathNodes_init h
  have hA := h.agents_le
  have kA : ((starts.length : ℚ)) ≤ 2 ^ 19 := by exact_mod_cast hA.trans hN
  have hse : ∀ a ∈ List.range starts.length, Small (2 ^ 31) (W a (starts.getD a 0) (ends.getD a 0)) := fun a ha =>
    hw a _ _ (hpn.s a (List.mem_range.1 ha)) (hpn.e a (List.mem_range.1 ha))
  rcases niInitCore_spec starts.length starts ends (componentIds (niArcs starts ends deps)) with
    ⟨c, hc, hinv, hne⟩ | ⟨he, hex⟩
  swap
  · cases mode <;> simp only [nearestInsertion, nearestInsertionSum, nearestInsertionMax, nearestInsertionF,
      nearestInsertionSumF, nearestInsertionMaxF, hd, he]
  have hnodes := init_nodes hinv hpn
  cases mode with
  | sum =>
    have hsum : ((List.range starts.length).map fun _ => (2 ^ 31 : ℚ)).sum = 2 ^ 31 * starts.length := by
      rw [List.map_const', List.sum_replicate, nsmul_eq_mul, mul_comm, List.length_range]
    obtain ⟨o1, o2⟩ := foldl_fl_sum hfl (fun a => W a (starts.getD a 0) (ends.getD a 0)) (fun _ => 2 ^ 31) (List.range starts.length)
      hse 0 0 (Small.zero (le_refl _)) (by rw [hsum, zero_add]; nlinarith)
    simp only [nearestInsertion, nearestInsertionSum, nearestInsertionF, nearestInsertionSumF, hd, hc, o1]
    rw [(niLoop_congr starts ends _ _ (NISumSmall N starts.length) N
      (fun k s n hs hk hn => niSumStepF_eq hfl hw hA hN _ k s n hs hk hn)
      (fun k s hs => ⟨hs.1, hs.2.mono (by push_cast; nlinarith)⟩)
      d.reverse t 0 _ hltN (by omega) ⟨hnodes, by rw [hsum] at o2; refine o2.mono (by simp)⟩).1]
    rfl
  | max =>
    obtain ⟨l1, _⟩ := niInitLens_spec starts.length h.pos W starts ends
    simp only [nearestInsertion, nearestInsertionMax, nearestInsertionF, nearestInsertionMaxF, hd, hc]
    rw [(niLoop_congr starts ends _ _ (NIMaxSmall N) N
      (fun k s n hs hk hn => niMaxStepF_eq hfl hw hN _ k s n hs hk hn)
      (fun k s hs => ⟨hs.1, fun a => (hs.2 a).mono (by push_cast; nlinarith)⟩)
      d.reverse t 0 _ hltN (by omega) ⟨hnodes, by
        intro a
        dsimp only
        rw [l1]
        by_cases ha : a < starts.length
        · rw [getD_map_range _ _ _ ha]; exact (hse a (List.mem_range.2 ha)).mono (by norm_num)
        · rw [List.getD_eq_getElem?_getD, List.getElem?_eq_none (by simpa using ha)]; exact Small.zero (by norm_num)⟩).1]
    rfl

/-! ### any weights -/

theorem niLoop_total2 {σ : Type} (starts ends : List Nat) (step : σ → Nat → Except Err σ) (P : List Nat → σ → Prop)
    (N : Nat) (hstep : ∀ done s n, P done s → done.length < N → n < N → ∃ s', step s n = .ok s' ∧ P (done ++ [n]) s') :
    ∀ (l : List Nat) (t : Nat) (done : List Nat) (s : σ), (∀ n ∈ l, n < N) → done.length + l.length ≤ N → P done s →
      (l.length ≤ t → ∃ s', niLoop starts ends step l t s = .ok (some s', t - l.length) ∧
        P (done ++ l.filter fun n => decide (n ∉ starts ∧ n ∉ ends)) s') ∧
      (t < l.length → niLoop starts ends step l t s = .ok (none, 0)) := by
  intro l
  induction l with
  | nil => intro t done s hN _ hP; exact ⟨fun _ => ⟨s, by simp [niLoop], by simpa using hP⟩, fun h => by simp at h⟩
  | cons n l ih =>
    intro t done s hN hl hP
    simp only [List.length_cons] at hl
    have hN' : ∀ n ∈ l, n < N := fun x hx => hN x (List.mem_cons_of_mem _ hx)
    cases t with
    | zero => exact ⟨fun h => by simp at h, fun _ => by simp [niLoop]⟩
    | succ t =>
      simp only [niLoop]
      by_cases hn : n ∈ starts ∨ n ∈ ends
      · simp only [hn, if_true]
        obtain ⟨k1, k2⟩ := ih t done s hN' (by omega) hP
        refine ⟨?_, fun h => k2 (by simpa using h)⟩
        intro h
        obtain ⟨s', e, p⟩ := k1 (by simpa using h)
        refine ⟨s', by rw [e]; simp, ?_⟩
        rw [List.filter_cons_of_neg (by simp; tauto)]; exact p
      · simp only [hn, if_false]
        push Not at hn
        obtain ⟨s1, e1, p1⟩ := hstep done s n hP (by omega) (hN n (by simp))
        rw [e1]
        obtain ⟨k1, k2⟩ := ih t (done ++ [n]) s1 hN' (by simp; omega) p1
        refine ⟨?_, fun h => k2 (by simpa using h)⟩
        intro h
        obtain ⟨s', e, p⟩ := k1 (by simpa using h)
        refine ⟨s', by simp only [e]; simp, ?_⟩
        rw [List.filter_cons_of_pos (by simp [hn])]; simpa using p

/-- weights of absolute value at most 2^31 -/
def BoundedW (A N : Nat) (W : Nat → Weights) : Prop := ∀ a i j, a < A → i < N → j < N → |W a i j| ≤ 2 ^ 31

theorem Rounding.add_le {fl : ℚ → ℚ} (h : Rounding fl) {b c : ℕ} {p q : ℚ} (hp : |p| ≤ b) (hq : |q| ≤ c)
    (hb : ((b + c : ℕ) : ℚ) ≤ 2 ^ 53) : |fl (p + q)| ≤ (b + c : ℕ) :=
  h.abs_le hb (le_trans (abs_add_le _ _) (by push_cast; exact add_le_add hp hq))

theorem Rounding.sub_le {fl : ℚ → ℚ} (h : Rounding fl) {b c : ℕ} {p q : ℚ} (hp : |p| ≤ b) (hq : |q| ≤ c)
    (hb : ((b + c : ℕ) : ℚ) ≤ 2 ^ 53) : |fl (p - q)| ≤ (b + c : ℕ) :=
  h.abs_le hb (le_trans (abs_sub _ _) (by push_cast; exact add_le_add hp hq))

theorem two53_lt : (2 : ℚ) ^ 53 < dblMax := by
  have h : (2 : ℚ) ^ 54 ≤ 2 ^ 971 := pow_le_pow_right₀ (by norm_num) (by norm_num)
  have h2 : (1 : ℚ) < 2 ^ 53 - 1 := by norm_num
  have h3 : (2 : ℚ) ^ 53 < 2 ^ 54 := by norm_num
  unfold dblMax
  generalize (2 : ℚ) ^ 971 = b at h ⊢
  generalize (2 : ℚ) ^ 53 - 1 = c at h2 ⊢
  nlinarith [show (0 : ℚ) < 2 ^ 54 by norm_num]

theorem candidate_lt {A N : Nat} {s e comp : Nat → Nat} {done : List Nat} {c : NICore} {I : Nat → List Nat}
    (h : CoreInv A s e comp done c I) (hp : PathNodes A N s e done) {cp a i : Nat} (hm : (a, i) ∈ niCandidates A c cp)
    (ha : a < A) : (c.paths.getD a []).getD (i - 1) 0 < N ∧ (c.paths.getD a []).getD i 0 < N := by
  have := ((mem_niCandidates A c cp a i).1 hm).2.2
  exact ⟨h.node_lt hp ha (i - 1) (by omega), h.node_lt hp ha i this⟩

theorem PathNodes.snoc {A N : Nat} {s e : Nat → Nat} {done : List Nat} (hp : PathNodes A N s e done) {n : Nat} (hn : n < N) :
    PathNodes A N s e (done ++ [n]) := ⟨hp.s, hp.e, by
    intro x hx; rcases List.mem_append.1 hx with hx | hx
    · exact hp.d x hx
    · rw [List.mem_singleton.1 hx]; exact hn⟩

theorem w31 {q : ℚ} (h : |q| ≤ 2 ^ 31) : |q| ≤ ((2 ^ 31 : ℕ) : ℚ) := by push_cast; exact h

theorem niSumStepF_spec {fl : ℚ → ℚ} (hfl : Rounding fl) {A N : Nat} (hA : 0 < A) {s e comp : Nat → Nat} {W : Nat → Weights}
    (hW : BoundedW A N W) (done : List Nat) (st : NISum) (n : Nat) (hn : n < N) {I : Nat → List Nat}
    (h : CoreInv A s e comp done st.core I) (hp : PathNodes A N s e done) :
    ∃ st' I', niSumStepF fl A W comp st n = .ok st' ∧ CoreInv A s e comp (done ++ [n]) st'.core I' ∧
      PathNodes A N s e (done ++ [n]) := by
  rcases foldl_best (fun ai : Nat × Nat => niDeltaF fl (W ai.1) (st.core.paths.getD ai.1 []) ai.2 n) id
      (niCandidates A st.core (comp n)) dblMax with ⟨_, hnone⟩ | ⟨⟨a, i⟩, hm, hr, _⟩
  · obtain ⟨⟨a, i⟩, hai⟩ := h.candidates_ne hA (comp n)
    obtain ⟨ha, hi1, hi2, _⟩ := h.step hai
    obtain ⟨n1, n2⟩ := candidate_lt h hp hai ha
    have k1 := hfl.add_le (w31 (hW a _ _ ha n1 hn)) (w31 (hW a _ _ ha hn n2)) (by norm_num)
    have k2 := hfl.sub_le k1 (w31 (hW a _ _ ha n1 n2)) (by norm_num)
    refine absurd ?_ (hnone _ hai)
    have := le_trans (le_abs_self _) k2
    refine lt_of_le_of_lt this ?_
    exact lt_trans (by norm_num) two53_lt
  · obtain ⟨ha, hi1, hi2, hc⟩ := h.step hm
    refine ⟨{ core := st.core.insert (comp n) a i n,
              objective := fl (st.objective + niDeltaF fl (W a) (st.core.paths.getD a []) i n) }, _, ?_, hc, hp.snoc hn⟩
    unfold niSumStepF
    simp only [id] at hr
    simp only [hr]

theorem niPotential_abs {A : Nat} {lens : List ℚ} {longest : Nat} {pot b : ℚ} (hl : ∀ a, |lens.getD a 0| ≤ b) (hp : |pot| ≤ b) :
    |(niPotential A lens longest pot).1| ≤ b := by
  unfold niPotential
  refine foldl_inv (List.range A) _ (pot, longest) (fun r : ℚ × Nat => |r.1| ≤ b) hp ?_
  intro r a _ hr
  split
  · exact hr
  · split
    · exact hl a
    · exact hr

theorem niMaxStepF_spec {fl : ℚ → ℚ} (hfl : Rounding fl) {A N : Nat} (hA : 0 < A) (hN : N ≤ 2 ^ 19) {s e comp : Nat → Nat}
    {W : Nat → Weights} (hW : BoundedW A N W) (done : List Nat) (st : NIMax) (n : Nat) (hn : n < N) (hd : done.length < N)
    {I : Nat → List Nat} (h : CoreInv A s e comp done st.core I) (hp : PathNodes A N s e done)
    (hl : ∀ a, |st.lens.getD a 0| ≤ ((2 ^ 31 * (1 + 3 * done.length) : ℕ) : ℚ)) :
    ∃ st' I', niMaxStepF fl A W comp st n = .ok st' ∧ CoreInv A s e comp (done ++ [n]) st'.core I' ∧
      PathNodes A N s e (done ++ [n]) ∧
      ∀ a, |st'.lens.getD a 0| ≤ ((2 ^ 31 * (1 + 3 * (done ++ [n]).length) : ℕ) : ℚ) := by
  have kk : ((done.length : ℚ)) + 1 ≤ 2 ^ 19 := by exact_mod_cast (show done.length + 1 ≤ N by omega).trans hN
  have hcand : ∀ ai ∈ niCandidates A st.core (comp n),
      |(niMaxCandF fl A W st n ai).1| ≤ 2 ^ 53 ∧
      |(niMaxCandF fl A W st n ai).2.1| ≤ ((2 ^ 31 * (1 + 3 * (done.length + 1)) : ℕ) : ℚ) := by
    rintro ⟨a, i⟩ hai
    obtain ⟨ha, hi1, hi2, _⟩ := h.step hai
    obtain ⟨n1, n2⟩ := candidate_lt h hp hai ha
    have k1 := hfl.add_le (w31 (hW a _ _ ha n1 hn)) (w31 (hW a _ _ ha hn n2)) (by norm_num)
    have k2 := hfl.sub_le k1 (w31 (hW a _ _ ha n1 n2)) (by norm_num)
    have k3 := hfl.add_le k2 (hl a) (by push_cast; nlinarith)
    have k4 := le_trans k3 (show _ ≤ ((2 ^ 31 * (1 + 3 * (done.length + 1)) : ℕ) : ℚ) by push_cast; nlinarith)
    unfold niMaxCandF
    dsimp only
    split
    · have k5 := niPotential_abs (A := A) (longest := st.longest)
        (fun a => le_trans (hl a) (show _ ≤ ((2 ^ 31 * (1 + 3 * (done.length + 1)) : ℕ) : ℚ) by push_cast; nlinarith)) k4
      refine ⟨le_trans (hfl.sub_le k5 (hl st.longest) (by push_cast; nlinarith)) (by push_cast; nlinarith), k4⟩
    · have k5 := hfl.sub_le k4 (hl st.longest) (by push_cast; nlinarith)
      refine ⟨?_, k4⟩
      have k6 : ((2 ^ 31 * (1 + 3 * (done.length + 1)) + 2 ^ 31 * (1 + 3 * done.length) : ℕ) : ℚ) ≤ 2 ^ 53 := by push_cast; nlinarith
      dsimp only
      rw [abs_le] at k5 ⊢
      refine ⟨le_trans (by norm_num) (le_max_right _ _), max_le (le_trans k5.2 k6) (by norm_num)⟩
  rcases foldl_best (fun ai : Nat × Nat => (niMaxCandF fl A W st n ai).1) (fun ai => (ai, (niMaxCandF fl A W st n ai).2))
      (niCandidates A st.core (comp n)) dblMax with ⟨_, hnone⟩ | ⟨⟨a, i⟩, hm, hr, _⟩
  · obtain ⟨⟨a, i⟩, hai⟩ := h.candidates_ne hA (comp n)
    exact absurd (lt_of_le_of_lt (le_trans (le_abs_self _) (hcand _ hai).1) two53_lt) (hnone _ hai)
  · obtain ⟨ha, hi1, hi2, hc⟩ := h.step hm
    refine ⟨{ core := st.core.insert (comp n) a i n, lens := st.lens.set a (niMaxCandF fl A W st n (a, i)).2.1,
              longest := (niMaxCandF fl A W st n (a, i)).2.2 }, _, ?_, hc, hp.snoc hn, ?_⟩
    · unfold niMaxStepF
      simp only [hr]
    · intro b
      dsimp only
      rw [List.length_append, List.length_singleton]
      rw [List.getD_eq_getElem?_getD, List.getElem?_set]
      split
      · split
        · exact (hcand _ hm).2
        · simp only [Option.getD_none, abs_zero]; positivity
      · rw [← List.getD_eq_getElem?_getD]
        refine le_trans (hl b) ?_
        push_cast; nlinarith

theorem niF_main {fl : ℚ → ℚ} (hfl : Rounding fl) {mode : Mode} {W : Nat → Weights} {N : Nat} {starts ends : List Nat}
    {deps : DepGraph} {D : Nat → Nat → Prop} (h : Inst N starts ends D) (hdeps : ∀ u v, (u, v) ∈ deps.arcs ↔ D u v)
    (hW : BoundedW starts.length N W) (hN : N ≤ 2 ^ 19) (t : Nat) :
    ((∃ a b, a < b ∧ b < starts.length ∧ componentIds (niArcs starts ends deps) (starts.getD a 0) =
        componentIds (niArcs starts ends deps) (starts.getD b 0)) ∧
      nearestInsertionF fl mode W N starts ends deps t = .error .incompatible) ∨
    ((∀ a b, a < b → b < starts.length → componentIds (niArcs starts ends deps) (starts.getD a 0) ≠
        componentIds (niArcs starts ends deps) (starts.getD b 0)) ∧
      (t < N → nearestInsertionF fl mode W N starts ends deps t = .ok (([], 0), 0)) ∧
      (N ≤ t → ∃ P obj obj' ord, nearestInsertionF fl mode W N starts ends deps t = .ok ((P, obj), t - N) ∧
        ord.Perm (List.range N) ∧ (∀ u v, D u v → Before ord u v) ∧
        NIDone mode W N starts ends (componentIds (niArcs starts ends deps)) ord P obj')) := by
  obtain ⟨d, hd, hperm, hbef, _⟩ := ni_order h hdeps
  have hlenN : d.reverse.length = N := by rw [hperm.length_eq]; simp
  have hltN : ∀ n ∈ d.reverse, n < N := fun n hn => List.mem_range.1 (hperm.mem_iff.1 hn)
  have hA : 0 < starts.length := h.pos
  have hpn := pathNodes_init h
  rcases niInitCore_spec starts.length starts ends (componentIds (niArcs starts ends deps)) with
    ⟨c, hc, hinv, hne⟩ | ⟨he, hex⟩
  swap
  · left
    refine ⟨hex, ?_⟩
    cases mode <;> simp only [nearestInsertionF, nearestInsertionSumF, nearestInsertionMaxF, hd, he]
  right
  refine ⟨hne, ?_⟩
  cases mode with
  | sum =>
    obtain ⟨k1, k2⟩ := niLoop_total2 starts ends
      (niSumStepF fl starts.length W (componentIds (niArcs starts ends deps)))
      (fun done st => ∃ I, CoreInv starts.length (starts.getD · 0) (ends.getD · 0) (componentIds (niArcs starts ends deps)) done st.core I ∧
        PathNodes starts.length N (starts.getD · 0) (ends.getD · 0) done) N
      (by
        rintro done st n ⟨I, i1, i2⟩ _ hn
        obtain ⟨st', I', e, j1, j2⟩ := niSumStepF_spec hfl hA hW done st n hn i1 i2
        exact ⟨st', e, I', j1, j2⟩)
      d.reverse t []
      { core := c, objective := (List.range starts.length).foldl (fun o a => fl (o + W a (starts.getD a 0) (ends.getD a 0))) 0 }
      hltN (by simp [← hlenN]) ⟨fun _ => [], hinv, hpn⟩
    rw [hlenN] at k1 k2
    refine ⟨?_, ?_⟩
    · intro ht
      simp only [nearestInsertionF, nearestInsertionSumF, hd, hc, k2 ht]
    · intro ht
      obtain ⟨st', e, I, i1, _⟩ := k1 ht
      refine ⟨st'.core.paths, st'.objective, _, d.reverse, ?_, hperm, hbef, ⟨st'.core, I, by simpa using i1, rfl, rfl⟩⟩
      simp only [nearestInsertionF, nearestInsertionSumF, hd, hc, e]
  | max =>
    obtain ⟨l1, l2⟩ := niInitLens_spec starts.length hA W starts ends
    obtain ⟨k1, k2⟩ := niLoop_total2 starts ends
      (niMaxStepF fl starts.length W (componentIds (niArcs starts ends deps)))
      (fun done st => ∃ I, CoreInv starts.length (starts.getD · 0) (ends.getD · 0) (componentIds (niArcs starts ends deps)) done st.core I ∧
        PathNodes starts.length N (starts.getD · 0) (ends.getD · 0) done ∧
        ∀ a, |st.lens.getD a 0| ≤ ((2 ^ 31 * (1 + 3 * done.length) : ℕ) : ℚ)) N
      (by
        rintro done st n ⟨I, i1, i2, i3⟩ hdl hn
        obtain ⟨st', I', e, j1, j2, j3⟩ := niMaxStepF_spec hfl hA hN hW done st n hn hdl i1 i2 i3
        exact ⟨st', e, I', j1, j2, j3⟩)
      d.reverse t []
      { core := c, lens := (niInitLens starts.length W starts ends).1, longest := (niInitLens starts.length W starts ends).2 }
      hltN (by simp [← hlenN]) ⟨fun _ => [], hinv, hpn, by
        intro a
        dsimp only
        rw [l1]
        by_cases ha : a < starts.length
        · rw [getD_map_range _ _ _ ha]
          have := hW a _ _ ha (hpn.s a ha) (hpn.e a ha)
          refine le_trans this (by norm_num)
        · rw [List.getD_eq_getElem?_getD, List.getElem?_eq_none (by simpa using ha)]; simp⟩
    rw [hlenN] at k1 k2
    refine ⟨?_, ?_⟩
    · intro ht
      simp only [nearestInsertionF, nearestInsertionMaxF, hd, hc, k2 ht]
    · intro ht
      obtain ⟨st', e, I, i1, _, _⟩ := k1 ht
      obtain ⟨l, hl⟩ : ∃ l, IsLongest starts.length (fun a => pathCost (W a) (starts.getD a 0 :: I a ++ [ends.getD a 0])) l := by
        obtain ⟨l, hl, hmax⟩ := (Finset.range starts.length).exists_max_image
          (fun a => pathCost (W a) (starts.getD a 0 :: I a ++ [ends.getD a 0])) ⟨0, Finset.mem_range.2 hA⟩
        exact ⟨l, Finset.mem_range.1 hl, fun b hb => hmax b (Finset.mem_range.2 hb)⟩
      refine ⟨st'.core.paths, st'.lens.getD st'.longest 0, _, d.reverse, ?_, hperm, hbef,
        ⟨st'.core, I, by simpa using i1, rfl, l, rfl, hl⟩⟩
      simp only [nearestInsertionF, nearestInsertionMaxF, hd, hc, e]

end Mtsp
