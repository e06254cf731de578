import Verif.Proof.GomoryHu

/-! The intermediate trees of the Gomory-Hu construction. -/

namespace Mtsp
open Relation

/-! ### bags -/

/-- the vertex of the tree whose bag contains `v` -/
def bagIdx (bags : List (List Nat)) (v : Nat) : Nat := bags.findIdx fun b => decide (v ∈ b)

theorem bag_of_lt {N : Nat} {bags : List (List Nat)} (hp : bags.flatten.Perm (List.range N)) {v : Nat} (hv : v < N) :
    bagIdx bags v < bags.length ∧ v ∈ bags.getD (bagIdx bags v) [] := by
  have hm : v ∈ bags.flatten := hp.mem_iff.2 (List.mem_range.2 hv)
  obtain ⟨b, hb, hvb⟩ := List.mem_flatten.1 hm
  have hlt : bagIdx bags v < bags.length := List.findIdx_lt_length_of_exists ⟨b, hb, by simpa using hvb⟩
  refine ⟨hlt, ?_⟩
  have := List.findIdx_getElem (w := hlt)
  rw [List.getD_eq_getElem?_getD, List.getElem?_eq_getElem hlt]
  exact of_decide_eq_true this

theorem bag_unique {l : List (List Nat)} (hn : l.flatten.Nodup) {v i j : Nat} (hi : v ∈ l.getD i []) (hj : v ∈ l.getD j []) : i = j := by
  have h := (List.nodup_flatten.1 hn).2
  have hlt : ∀ i, v ∈ l.getD i [] → ∃ h : i < l.length, v ∈ l[i] := by
    intro i hi
    by_cases h : i < l.length
    · exact ⟨h, by simpa [List.getD_eq_getElem?_getD, h] using hi⟩
    · simp [List.getD_eq_getElem?_getD, h] at hi
  obtain ⟨hi1, hi2⟩ := hlt i hi
  obtain ⟨hj1, hj2⟩ := hlt j hj
  rw [List.pairwise_iff_getElem] at h
  rcases Nat.lt_trichotomy i j with hh | hh | hh
  · exact absurd hj2 (h i j hi1 hj1 hh hi2)
  · exact hh
  · exact absurd hi2 (h j i hj1 hi1 hh hj2)

theorem bag_mem {N : Nat} {bags : List (List Nat)} (hp : bags.flatten.Perm (List.range N)) {v i : Nat} (hi : v ∈ bags.getD i []) :
    v < N ∧ bagIdx bags v = i := by
  have hv : v < N := by
    apply List.mem_range.1
    apply hp.mem_iff.1
    apply List.mem_flatten.2
    by_cases h : i < bags.length
    · exact ⟨bags[i], List.getElem_mem h, by simpa [List.getD_eq_getElem?_getD, h] using hi⟩
    · simp [List.getD_eq_getElem?_getD, h] at hi
  exact ⟨hv, bag_unique (hp.nodup_iff.2 List.nodup_range) (bag_of_lt hp hv).2 hi⟩

/-! ### adjacency and components -/

/-- adjacent in the tree -/
def SAdj (edges : List (Nat × Nat × ℚ)) (a b : Nat) : Prop := ∃ e ∈ edges, (e.1 = a ∧ e.2.1 = b) ∨ (e.1 = b ∧ e.2.1 = a)

theorem SAdj.symm {edges : List (Nat × Nat × ℚ)} {a b : Nat} (h : SAdj edges a b) : SAdj edges b a := by
  obtain ⟨e, he, h⟩ := h
  exact ⟨e, he, h.symm⟩

/-- connected in the tree without `X` -/
def FConn (edges : List (Nat × Nat × ℚ)) (X : Nat) : Nat → Nat → Prop := EqvGen fun a b => (a, b) ∈ forestArcs edges X

theorem mem_forestArcs {edges : List (Nat × Nat × ℚ)} {X a b : Nat} :
    (a, b) ∈ forestArcs edges X ↔ ∃ e ∈ edges, e.1 = a ∧ e.2.1 = b ∧ a ≠ X ∧ b ≠ X := by
  unfold forestArcs
  simp only [List.mem_map, List.mem_filter, Bool.and_eq_true, decide_eq_true_eq, Prod.mk.injEq]
  constructor
  · rintro ⟨e, ⟨he, h1, h2⟩, rfl, rfl⟩; exact ⟨e, he, rfl, rfl, h1, h2⟩
  · rintro ⟨e, he, rfl, rfl, h1, h2⟩; exact ⟨e, ⟨he, h1, h2⟩, rfl, rfl⟩

theorem forestId_iff {k X i j : Nat} {edges : List (Nat × Nat × ℚ)} (hi : i < k) (hiX : i ≠ X) :
    forestId k edges X i = forestId k edges X j ↔ FConn edges X i j := by
  unfold forestId FConn
  rw [← components_iff]
  apply List.idxOf_inj
  unfold forestReps
  rw [List.mem_eraseDups]
  exact List.mem_map.2 ⟨i, by simp [hi, hiX], rfl⟩

theorem forestId_lt {k X i : Nat} {edges : List (Nat × Nat × ℚ)} (hi : i < k) (hiX : i ≠ X) :
    forestId k edges X i < (forestReps k edges X).length := by
  unfold forestId
  rw [List.idxOf_lt_length_iff]
  unfold forestReps
  rw [List.mem_eraseDups]
  exact List.mem_map.2 ⟨i, by simp [hi, hiX], rfl⟩

/-- leaving the component of `i` on the way to `X` -/
theorem exit_edge {edges : List (Nat × Nat × ℚ)} {X i j : Nat} (h : ReflTransGen (SAdj edges) i j) (hi : i ≠ X) :
    (j ≠ X ∧ FConn edges X i j) ∨ ∃ Y, Y ≠ X ∧ FConn edges X i Y ∧ SAdj edges Y X := by
  induction h with
  | refl => exact Or.inl ⟨hi, EqvGen.refl _⟩
  | tail hab hbc ih =>
    rename_i b c
    rcases ih with ⟨h1, h2⟩ | h
    · by_cases hc : c = X
      · subst hc; exact Or.inr ⟨b, h1, h2, hbc⟩
      · left
        refine ⟨hc, ?_⟩
        obtain ⟨e, he, ⟨rfl, rfl⟩ | ⟨rfl, rfl⟩⟩ := hbc
        · exact EqvGen.trans _ _ _ h2 (EqvGen.rel _ _ (mem_forestArcs.2 ⟨e, he, rfl, rfl, h1, hc⟩))
        · exact EqvGen.trans _ _ _ h2 (EqvGen.symm _ _ (EqvGen.rel _ _ (mem_forestArcs.2 ⟨e, he, rfl, rfl, hc, h1⟩)))
    · exact Or.inr h

/-- `D` is one side of the tree without the edge `e` -/
def Side (edges : List (Nat × Nat × ℚ)) (e : Nat × Nat × ℚ) (D : Nat → Bool) : Prop :=
  D e.1 ≠ D e.2.1 ∧ ∀ e' ∈ edges, D e'.1 ≠ D e'.2.1 → e' = e

theorem Side.const {edges : List (Nat × Nat × ℚ)} {e : Nat × Nat × ℚ} {D : Nat → Bool} {X a b : Nat} (h : Side edges e D)
    (hX : e.1 = X ∨ e.2.1 = X) (hc : FConn edges X a b) : D a = D b := by
  induction hc with
  | rel a b hab =>
    obtain ⟨e', he', rfl, rfl, h1, h2⟩ := mem_forestArcs.1 hab
    by_contra hne
    have := h.2 e' he' hne
    subst this
    rcases hX with rfl | rfl <;> simp at h1 h2
  | refl => rfl
  | symm _ _ _ ih => exact ih.symm
  | trans _ _ _ _ _ ih1 ih2 => exact ih1.trans ih2

/-- a component of the tree without `X` is a side of an edge -/
theorem component_side {k X i : Nat} {edges : List (Nat × Nat × ℚ)} (hX : X < k)
    (hconn : ∀ i < k, ∀ j < k, ReflTransGen (SAdj edges) i j) (hi : i < k) (hiX : i ≠ X) :
    ∃ e ∈ edges, ∀ D, Side edges e D → ∀ j < k, (j ≠ X ∧ FConn edges X i j) ↔ D j ≠ D X := by
  have hexit : ∀ j < k, j ≠ X → ∃ Y, Y ≠ X ∧ FConn edges X j Y ∧ SAdj edges Y X := by
    intro j hj hjX
    rcases exit_edge (hconn j hj X hX) hjX with ⟨h, _⟩ | h
    · exact absurd rfl h
    · exact h
  obtain ⟨Y, hY, hiY, e, he, hadj⟩ := hexit i hi hiX
  refine ⟨e, he, ?_⟩
  intro D hD j hj
  have heX : e.1 = X ∨ e.2.1 = X := by rcases hadj with ⟨_, h⟩ | ⟨h, _⟩; exacts [Or.inr h, Or.inl h]
  have hYX : D Y ≠ D X := by
    rcases hadj with ⟨rfl, rfl⟩ | ⟨rfl, rfl⟩
    · exact hD.1
    · exact hD.1.symm
  constructor
  · rintro ⟨_, hij⟩
    rw [← hD.const heX hij, hD.const heX hiY]
    exact hYX
  · intro hjX
    have hne : j ≠ X := by rintro rfl; exact hjX rfl
    refine ⟨hne, ?_⟩
    obtain ⟨Y', hY', hjY', e', he', hadj'⟩ := hexit j hj hne
    have h1 : D Y' ≠ D X := by rw [← hD.const heX hjY']; exact hjX
    have : e' = e := by
      apply hD.2 e' he'
      rcases hadj' with ⟨rfl, rfl⟩ | ⟨rfl, rfl⟩
      · exact h1
      · exact h1.symm
    subst this
    have : Y' = Y := by
      rcases hadj with ⟨h1, h2⟩ | ⟨h1, h2⟩ <;> rcases hadj' with ⟨h3, h4⟩ | ⟨h3, h4⟩
      · rw [← h1, ← h3]
      · exact absurd (h1.symm.trans h3) hY
      · exact absurd (h3.symm.trans h1) hY'
      · rw [← h2, ← h4]
    subst this
    exact EqvGen.trans _ _ _ hiY (EqvGen.symm _ _ hjY')

/-! ### positions in the contracted graph -/

theorem writeAll_apply (f : Nat → Nat) (vs : List Nat) (q v : Nat) : writeAll f vs q v = if v ∈ vs then q else f v := by
  unfold writeAll
  induction vs using List.reverseRecOn with
  | nil => simp
  | append_singleton l x ih =>
    rw [List.foldl_append]
    simp only [List.foldl_cons, List.foldl_nil, Function.update_apply, ih, List.mem_append, List.mem_singleton]
    by_cases h : v = x
    · simp [h]
    · simp [h]

theorem writeSeq_aux (f : Nat → Nat) (vs : List Nat) (q v : Nat) (hn : vs.Nodup) :
    (vs.foldl (fun (s : (Nat → Nat) × Nat) v => (Function.update s.1 v s.2, s.2 + 1)) (f, q)).2 = q + vs.length ∧
    (vs.foldl (fun (s : (Nat → Nat) × Nat) v => (Function.update s.1 v s.2, s.2 + 1)) (f, q)).1 v = if v ∈ vs then q + vs.idxOf v else f v := by
  induction vs using List.reverseRecOn with
  | nil => simp
  | append_singleton l x ih =>
    obtain ⟨h1, h2, h3⟩ := List.nodup_append.1 hn
    obtain ⟨i1, i2⟩ := ih h1
    rw [List.foldl_append]
    simp only [List.foldl_cons, List.foldl_nil, i1]
    refine ⟨by simp; omega, ?_⟩
    rw [Function.update_apply]
    have hx : x ∉ l := fun hx => h3 x hx x (by simp) rfl
    by_cases h : v = x
    · subst h
      simp [List.idxOf_append, hx]
    · rw [if_neg h, i2]
      by_cases hv : v ∈ l
      · simp [hv, List.idxOf_append]
      · simp [hv, h]

theorem writeSeq_apply {f : Nat → Nat} {vs : List Nat} {q v : Nat} (hn : vs.Nodup) :
    writeSeq f vs q v = if v ∈ vs then q + vs.idxOf v else f v := (writeSeq_aux f vs q v hn).2

theorem writeBags_apply {bags : List (List Nat)} (hn : bags.flatten.Nodup) (g : Nat → Nat) {v i : Nat} (hv : v ∈ bags.getD i [])
    (p : Nat → Nat) (fs : List Nat) :
    fs.foldl (fun p f => writeAll p (bags.getD f []) (g f)) p v = if i ∈ fs then g i else p v := by
  induction fs using List.reverseRecOn with
  | nil => simp
  | append_singleton l x ih =>
    rw [List.foldl_append]
    simp only [List.foldl_cons, List.foldl_nil, writeAll_apply, ih, List.mem_append, List.mem_singleton]
    by_cases h : v ∈ bags.getD x []
    · have : i = x := bag_unique hn hv h
      subst this
      rw [if_pos h]; simp
    · have : i ≠ x := by rintro rfl; exact h hv
      rw [if_neg h]; simp [this]

theorem ghPos_other {N X v : Nat} {s : GHState} (hp : s.bags.flatten.Perm (List.range N)) (hv : v < N) (hX : bagIdx s.bags v ≠ X) :
    ghPos s X v = forestId s.bags.length s.edges X (bagIdx s.bags v) := by
  have hn := hp.nodup_iff.2 List.nodup_range
  have hb := bag_of_lt hp hv
  have hnX : v ∉ s.bags.getD X [] := fun h => hX (bag_mem hp h).2
  have hnd : (s.bags.getD X []).Nodup := by
    by_cases h : X < s.bags.length
    · simpa [List.getD_eq_getElem?_getD, h] using (List.nodup_flatten.1 hn).1 _ (List.getElem_mem h)
    · simp [List.getD_eq_getElem?_getD, h]
  unfold ghPos
  rw [writeSeq_apply hnd, if_neg hnX, writeBags_apply hn (forestId s.bags.length s.edges X) hb.2, if_pos]
  simp [hb.1, hX]

theorem ghPos_own {N X v : Nat} {s : GHState} (hp : s.bags.flatten.Perm (List.range N)) (hv : v ∈ s.bags.getD X []) :
    ghPos s X v = (forestReps s.bags.length s.edges X).length + (s.bags.getD X []).idxOf v := by
  have hn := hp.nodup_iff.2 List.nodup_range
  have hnd : (s.bags.getD X []).Nodup := by
    by_cases h : X < s.bags.length
    · simpa [List.getD_eq_getElem?_getD, h] using (List.nodup_flatten.1 hn).1 _ (List.getElem_mem h)
    · simp [List.getD_eq_getElem?_getD, h]
  unfold ghPos
  rw [writeSeq_apply hnd, if_pos hv]

/-! ### the invariant -/

/-- invariant of the loop -/
structure GHInv (N : Nat) (ws : List ℚ) (s : GHState) : Prop where
  perm : s.bags.flatten.Perm (List.range N)
  ne : ∀ b ∈ s.bags, b ≠ []
  lt : ∀ e ∈ s.edges, e.1 < s.bags.length ∧ e.2.1 < s.bags.length
  conn : ∀ i < s.bags.length, ∀ j < s.bags.length, ReflTransGen (SAdj s.edges) i j
  side : ∀ e ∈ s.edges, ∃ D, Side s.edges e D ∧ ((∀ q ∈ ws, 0 ≤ q) → MinSep N ws fun v => D (bagIdx s.bags v))
  stackN : s.stack.Nodup
  stack : ∀ i, i ∈ s.stack ↔ i < s.bags.length ∧ 1 < (s.bags.getD i []).length
  storage : s.storage.Perm (List.range N)

variable {N : Nat} {ws : List ℚ} {s : GHState} {X : Nat}

theorem GHInv.pos_lt (h : GHInv N ws s) {v : Nat} (hv : v < N) :
    ghPos s X v < (forestReps s.bags.length s.edges X).length + (s.bags.getD X []).length := by
  by_cases hb : bagIdx s.bags v = X
  · have hm := (bag_of_lt h.perm hv).2
    rw [hb] at hm
    rw [ghPos_own h.perm hm]
    have := List.idxOf_lt_length_iff.2 hm
    omega
  · rw [ghPos_other h.perm hv hb]
    have := forestId_lt (edges := s.edges) (bag_of_lt h.perm hv).1 hb
    omega

/-- nodes with the same position belong to the same contracted component (or are equal) -/
theorem GHInv.pos_eq (h : GHInv N ws s) {u v : Nat} (hu : u < N) (hv : v < N) (e : ghPos s X u = ghPos s X v) :
    u = v ∨ (bagIdx s.bags u ≠ X ∧ bagIdx s.bags v ≠ X ∧ FConn s.edges X (bagIdx s.bags u) (bagIdx s.bags v)) := by
  have bu := bag_of_lt h.perm hu
  have bv := bag_of_lt h.perm hv
  by_cases hbu : bagIdx s.bags u = X <;> by_cases hbv : bagIdx s.bags v = X
  · left
    have mu := bu.2; have mv := bv.2
    rw [hbu] at mu; rw [hbv] at mv
    rw [ghPos_own h.perm mu, ghPos_own h.perm mv] at e
    exact (List.idxOf_inj mu).1 (by omega)
  · have mu := bu.2
    rw [hbu] at mu
    rw [ghPos_own h.perm mu, ghPos_other h.perm hv hbv] at e
    have := forestId_lt (edges := s.edges) bv.1 hbv
    omega
  · have mv := bv.2
    rw [hbv] at mv
    rw [ghPos_own h.perm mv, ghPos_other h.perm hu hbu] at e
    have := forestId_lt (edges := s.edges) bu.1 hbu
    omega
  · right
    rw [ghPos_other h.perm hu hbu, ghPos_other h.perm hv hbv] at e
    exact ⟨hbu, hbv, (forestId_iff bu.1 hbu).1 e⟩

theorem GHInv.pos_of_conn (h : GHInv N ws s) {u v : Nat} (hu : u < N) (hv : v < N) (hbu : bagIdx s.bags u ≠ X) (hbv : bagIdx s.bags v ≠ X)
    (hc : FConn s.edges X (bagIdx s.bags u) (bagIdx s.bags v)) : ghPos s X u = ghPos s X v := by
  rw [ghPos_other h.perm hu hbu, ghPos_other h.perm hv hbv]
  exact (forestId_iff (bag_of_lt h.perm hu).1 hbu).2 hc

/-- the nodes in the component with number `c` -/
def compSet (s : GHState) (X c : Nat) (v : Nat) : Bool :=
  decide (bagIdx s.bags v ≠ X) && decide (forestId s.bags.length s.edges X (bagIdx s.bags v) = c)

/-- each contracted component is a minimum cut -/
theorem GHInv.comp_minSep (h : GHInv N ws s) (h0 : ∀ q ∈ ws, 0 ≤ q) (hX : X < s.bags.length) {i : Nat} (hi : i < s.bags.length) (hiX : i ≠ X) :
    MinSep N ws (compSet s X (forestId s.bags.length s.edges X i)) := by
  obtain ⟨e, he, hD⟩ := component_side hX h.conn hi hiX
  obtain ⟨D, hs, hm⟩ := h.side e he
  have hD := hD D hs
  have hm := hm h0
  have key : ∀ v < N, compSet s X (forestId s.bags.length s.edges X i) v = decide (D (bagIdx s.bags v) ≠ D X) := by
    intro v hv
    have hk := hD _ (bag_of_lt h.perm hv).1
    unfold compSet
    rw [← Bool.decide_and, decide_eq_decide, ← hk]
    refine and_congr_right fun hne => ?_
    rw [eq_comm, forestId_iff hi hiX]
  cases hDX : D X
  · refine hm.congr fun v hv => ?_
    rw [key v hv, hDX]
    cases D (bagIdx s.bags v) <;> rfl
  · refine hm.not.congr fun v hv => ?_
    rw [key v hv, hDX]
    cases D (bagIdx s.bags v) <;> rfl

/-- every cut can be replaced by a cut of the contracted graph that is not bigger -/
theorem GHInv.contract (h : GHInv N ws s) (h0 : ∀ q ∈ ws, 0 ≤ q) (hX : X < s.bags.length) (W : Nat → Bool) :
    ∃ B : Nat → Bool, gcut N ws (fun v => B (ghPos s X v)) ≤ gcut N ws W ∧ ∀ v ∈ s.bags.getD X [], B (ghPos s X v) = W v := by
  classical
  have hU : ∀ U ∈ (((List.range s.bags.length).filter fun v => decide (v ≠ X)).map (forestId s.bags.length s.edges X)).dedup.map
      (compSet s X), MinSep N ws U := by
    intro U hU
    obtain ⟨c, hc, rfl⟩ := List.mem_map.1 hU
    obtain ⟨i, hi, rfl⟩ := List.mem_map.1 (List.mem_dedup.1 hc)
    simp only [List.mem_filter, List.mem_range, decide_eq_true_eq] at hi
    exact h.comp_minSep h0 hX hi.1 hi.2
  have hd : ((((List.range s.bags.length).filter fun v => decide (v ≠ X)).map (forestId s.bags.length s.edges X)).dedup.map
      (compSet s X)).Pairwise fun U U' => ∀ v, U v = true → U' v = false := by
    rw [List.pairwise_map]
    refine (List.nodup_dedup _).imp ?_
    intro c c' hne v hv
    unfold compSet at hv ⊢
    simp only [Bool.and_eq_true, decide_eq_true_eq] at hv
    rw [hv.2]
    simp [hne]
  obtain ⟨W', h1, h2, h3⟩ := uncross_all h0 _ hU hd W
  have hcompat : ∀ u < N, ∀ v < N, ghPos s X u = ghPos s X v → W' u = W' v := by
    intro u hu v hv e
    rcases h.pos_eq hu hv e with rfl | ⟨hbu, hbv, hc⟩
    · rfl
    · have bu := bag_of_lt h.perm hu
      refine h3 (compSet s X (forestId s.bags.length s.edges X (bagIdx s.bags u))) ?_ u v ?_ ?_
      · refine List.mem_map.2 ⟨_, List.mem_dedup.2 (List.mem_map.2 ⟨bagIdx s.bags u, ?_, rfl⟩), rfl⟩
        simp [bu.1, hbu]
      · simp [compSet, hbu]
      · simp [compSet, hbv, (forestId_iff bu.1 hbu).2 hc]
  refine ⟨fun a => decide (∃ u, u < N ∧ ghPos s X u = a ∧ W' u = true), ?_, ?_⟩
  · refine le_trans (le_of_eq (gcut_congr ?_)) h1
    intro v hv
    have : (∃ u, u < N ∧ ghPos s X u = ghPos s X v ∧ W' u = true) ↔ W' v = true := by
      constructor
      · rintro ⟨u, hu, e, hw⟩; rw [← hcompat u hu v hv e]; exact hw
      · intro hw; exact ⟨v, hv, rfl, hw⟩
    simp only [this]
    simp
  · intro v hv
    obtain ⟨hvN, hvX⟩ := bag_mem h.perm hv
    have : (∃ u, u < N ∧ ghPos s X u = ghPos s X v ∧ W' u = true) ↔ W v = true := by
      rw [← h2 v]
      · constructor
        · rintro ⟨u, hu, e, hw⟩; rw [← hcompat u hu v hvN e]; exact hw
        · intro hw; exact ⟨v, hvN, rfl, hw⟩
      · intro U hU
        obtain ⟨c, _, rfl⟩ := List.mem_map.1 hU
        simp [compSet, hvX]
    simp only [this]
    simp

end Mtsp
