import Verif.Proof.GHTree

/-! One iteration of the Gomory-Hu construction. -/

namespace Mtsp
open Relation

variable {N : Nat} {ws : List ℚ} {s s' : GHState} {X : Nat} {mf : MaxFlow} {pt : Partition} {c : GHCall}

theorem Partition.Correct.mem_left (h : pt.Correct) {p : Nat → Bool} {l : List Nat} {x : Nat} : x ∈ (pt p l).1 ↔ x ∈ l ∧ p x = true := by
  constructor
  · intro hx; exact ⟨(h.perm p l).mem_iff.1 (by simp [hx]), h.left p l x hx⟩
  · rintro ⟨hx, hp⟩
    rcases List.mem_append.1 ((h.perm p l).mem_iff.2 hx) with hh | hh
    · exact hh
    · rw [h.right p l x hh] at hp; simp at hp

theorem Partition.Correct.mem_right (h : pt.Correct) {p : Nat → Bool} {l : List Nat} {x : Nat} : x ∈ (pt p l).2 ↔ x ∈ l ∧ p x = false := by
  constructor
  · intro hx; exact ⟨(h.perm p l).mem_iff.1 (by simp [hx]), h.right p l x hx⟩
  · rintro ⟨hx, hp⟩
    rcases List.mem_append.1 ((h.perm p l).mem_iff.2 hx) with hh | hh
    · rw [h.left p l x hh] at hp; simp at hp
    · exact hh

theorem head_last_ne {l : List Nat} (hn : l.Nodup) (h : 1 < l.length) : l.headD 0 ∈ l ∧ l.getLastD 0 ∈ l ∧ l.headD 0 ≠ l.getLastD 0 := by
  match l, h with
  | a :: b :: t, _ =>
    have hlast : (a :: b :: t).getLastD 0 = (b :: t).getLast (by simp) := by
      rw [List.getLastD_eq_getLast?, List.getLast?_eq_some_getLast (List.cons_ne_nil _ _), Option.getD_some, List.getLast_cons (List.cons_ne_nil _ _)]
    rw [hlast]
    have hm : (b :: t).getLast (by simp) ∈ b :: t := List.getLast_mem _
    refine ⟨by simp, List.mem_cons_of_mem _ hm, ?_⟩
    intro e
    have : a ∈ b :: t := by
      have : a = (b :: t).getLast (by simp) := e
      rw [this]; exact hm
    exact (List.nodup_cons.1 hn).1 this

/-- the edge `e` after the step -/
def mvEdge (s : GHState) (X : Nat) (black : Nat → Bool) (e : Nat × Nat × ℚ) : Nat × Nat × ℚ :=
  if ghMoves s.bags X black e = true then (s.bags.length, otherEnd X e, e.2.2) else e

/-- everything the step lemma needs about the split vertex and the colours -/
structure SplitCtx (N : Nat) (ws : List ℚ) (s : GHState) (X : Nat) (black : Nat → Bool) (src snk : Nat) : Prop where
  inv : GHInv N ws s
  lt : X < s.bags.length
  msrc : src ∈ s.bags.getD X []
  msnk : snk ∈ s.bags.getD X []
  bsrc : black src = true
  bsnk : black snk = false
  const : ∀ u v, u < N → v < N → ghPos s X u = ghPos s X v → black u = black v
  min : (∀ q ∈ ws, 0 ≤ q) → ∀ W : Nat → Bool, W src = true → W snk = false → gcut N ws black ≤ gcut N ws W

variable {black : Nat → Bool} {src snk : Nat}

/-- colour of a vertex of the tree -/
def dark (s : GHState) (black : Nat → Bool) (i : Nat) : Bool := black ((s.bags.getD i []).headD 0)

theorem GHInv.head_mem (h : GHInv N ws s) {i : Nat} (hi : i < s.bags.length) :
    (s.bags.getD i []).headD 0 ∈ s.bags.getD i [] := by
  have hg : s.bags.getD i [] = s.bags[i] := by simp [List.getD_eq_getElem?_getD, hi]
  rw [hg]
  have := h.ne _ (List.getElem_mem hi)
  cases hb : s.bags[i] with
  | nil => exact absurd hb this
  | cons a t => simp

theorem SplitCtx.dark_eq (h : SplitCtx N ws s X black src snk) {v : Nat} (hv : v < N) (hX : bagIdx s.bags v ≠ X) :
    black v = dark s black (bagIdx s.bags v) := by
  have hb := bag_of_lt h.inv.perm hv
  have hm := h.inv.head_mem hb.1
  obtain ⟨h1, h2⟩ := bag_mem h.inv.perm hm
  unfold dark
  refine h.const _ _ hv h1 (h.inv.pos_of_conn hv h1 hX (by rw [h2]; exact hX) ?_)
  rw [h2]
  exact EqvGen.refl _

theorem SplitCtx.dark_conn (h : SplitCtx N ws s X black src snk) {i j : Nat} (hi : i < s.bags.length) (hj : j < s.bags.length)
    (hiX : i ≠ X) (hjX : j ≠ X) (hc : FConn s.edges X i j) : dark s black i = dark s black j := by
  obtain ⟨h1, h2⟩ := bag_mem h.inv.perm (h.inv.head_mem hi)
  obtain ⟨h3, h4⟩ := bag_mem h.inv.perm (h.inv.head_mem hj)
  unfold dark
  refine h.const _ _ h1 h3 (h.inv.pos_of_conn h1 h3 (by rw [h2]; exact hiX) (by rw [h4]; exact hjX) ?_)
  rw [h2, h4]
  exact hc

/-- the bags after the step -/
def splitBags (pt : Partition) (s : GHState) (X : Nat) (black : Nat → Bool) : List (List Nat) :=
  s.bags.set X (pt black (s.bags.getD X [])).2 ++ [(pt black (s.bags.getD X [])).1]

theorem splitBags_getD (pt : Partition) (s : GHState) (black : Nat → Bool) (hX : X < s.bags.length) (i : Nat) :
    (splitBags pt s X black).getD i [] =
      if i = s.bags.length then (pt black (s.bags.getD X [])).1
      else if i = X then (pt black (s.bags.getD X [])).2 else s.bags.getD i [] := by
  unfold splitBags
  generalize (pt black (s.bags.getD X [])).1 = b1
  generalize (pt black (s.bags.getD X [])).2 = b2
  simp only [List.getD_eq_getElem?_getD]
  by_cases h1 : i = s.bags.length
  · subst h1
    rw [if_pos rfl, List.getElem?_append_right (by simp)]
    simp
  · rw [if_neg h1]
    by_cases h2 : i < s.bags.length
    · rw [List.getElem?_append_left (by simpa using h2), List.getElem?_set]
      by_cases h3 : i = X
      · subst h3; simp [h2]
      · rw [if_neg h3, if_neg (fun e => h3 e.symm)]
    · rw [List.getElem?_append_right (by simp; omega)]
      have h3 : i ≠ X := by omega
      rw [if_neg h3]
      have : ∃ d, i - (s.bags.set X b2).length = d + 1 := ⟨i - s.bags.length - 1, by simp; omega⟩
      obtain ⟨d, hd⟩ := this
      rw [hd]
      simp [h2]

theorem splitBags_length : (splitBags pt s X black).length = s.bags.length + 1 := by simp [splitBags]

theorem splitBags_perm (hpt : pt.Correct) (hX : X < s.bags.length) : (splitBags pt s X black).flatten.Perm s.bags.flatten := by
  have hg : s.bags.getD X [] = s.bags[X] := by simp [List.getD_eq_getElem?_getD, hX]
  unfold splitBags
  rw [hg]
  have hpp := hpt.perm black s.bags[X]
  generalize pt black s.bags[X] = q at hpp
  have hsplit : s.bags = s.bags.take X ++ s.bags[X] :: s.bags.drop (X + 1) := by simp
  rw [List.set_eq_take_append_cons_drop, if_pos hX]
  conv_rhs => rw [hsplit]
  simp only [List.flatten_append, List.flatten_cons, List.flatten_nil, List.append_nil, List.append_assoc]
  refine List.Perm.append_left _ ?_
  refine List.Perm.trans ?_ (hpp.append_right _)
  rw [← List.append_assoc]
  refine (List.perm_append_comm).trans ?_
  rw [List.append_assoc]

/-- where a node is after the step -/
theorem SplitCtx.bagIdx' (h : SplitCtx N ws s X black src snk) (hpt : pt.Correct) {v : Nat} (hv : v < N) :
    bagIdx (splitBags pt s X black) v = if bagIdx s.bags v = X then (if black v = true then s.bags.length else X) else bagIdx s.bags v := by
  have hp : (splitBags pt s X black).flatten.Perm (List.range N) := (splitBags_perm hpt h.lt).trans h.inv.perm
  have hb := bag_of_lt h.inv.perm hv
  apply (bag_mem hp _).2
  rw [splitBags_getD _ _ _ h.lt]
  have hXne : X ≠ s.bags.length := by have := h.lt; omega
  by_cases hX : bagIdx s.bags v = X
  · have hm := hb.2
    rw [hX] at hm
    rw [if_pos hX]
    cases hc : black v
    · simp only [Bool.false_eq_true, if_false, if_neg hXne, if_true]
      exact hpt.mem_right.2 ⟨hm, hc⟩
    · simp only [if_true]
      exact hpt.mem_left.2 ⟨hm, hc⟩
  · rw [if_neg hX, if_neg (by omega), if_neg hX]
    exact hb.2

/-- the edges after the step -/
def splitEdges (s : GHState) (X : Nat) (black : Nat → Bool) (q : ℚ) : List (Nat × Nat × ℚ) :=
  s.edges.filter (fun e => !ghMoves s.bags X black e) ++
    (s.edges.filter (ghMoves s.bags X black)).map (fun e => (s.bags.length, otherEnd X e, e.2.2)) ++ [(s.bags.length, X, q)]

theorem mem_splitEdges {q : ℚ} {e' : Nat × Nat × ℚ} :
    e' ∈ splitEdges s X black q ↔ (∃ e ∈ s.edges, e' = mvEdge s X black e) ∨ e' = (s.bags.length, X, q) := by
  unfold splitEdges mvEdge
  simp only [List.mem_append, List.mem_filter, List.mem_map, List.mem_singleton, Bool.not_eq_true']
  refine or_congr ?_ Iff.rfl
  constructor
  · rintro (⟨h1, h2⟩ | ⟨e, ⟨h1, h2⟩, rfl⟩)
    · exact ⟨e', h1, by simp [h2]⟩
    · exact ⟨e, h1, by simp [h2]⟩
  · rintro ⟨e, he, rfl⟩
    cases hm : ghMoves s.bags X black e
    · left; simp [he, hm]
    · right; exact ⟨e, ⟨he, hm⟩, by simp⟩

theorem GHInv.no_loop (h : GHInv N ws s) {e : Nat × Nat × ℚ} (he : e ∈ s.edges) : e.1 ≠ e.2.1 := by
  obtain ⟨D, hD, _⟩ := h.side e he
  intro hh
  apply hD.1
  rw [hh]

theorem moves_iff {e : Nat × Nat × ℚ} : ghMoves s.bags X black e = true ↔ (e.1 = X ∨ e.2.1 = X) ∧ dark s black (otherEnd X e) = true := by
  unfold ghMoves dark
  rw [Bool.and_eq_true, Bool.or_eq_true, decide_eq_true_iff, decide_eq_true_iff]

theorem GHInv.otherEnd_spec (h : GHInv N ws s) {e : Nat × Nat × ℚ} (he : e ∈ s.edges) (hX : e.1 = X ∨ e.2.1 = X) :
    otherEnd X e ≠ X ∧ otherEnd X e < s.bags.length ∧ ((e.1 = X ∧ e.2.1 = otherEnd X e) ∨ (e.1 = otherEnd X e ∧ e.2.1 = X)) := by
  have hl := h.no_loop he
  have hlt := h.lt e he
  unfold otherEnd
  by_cases h1 : e.1 = X
  · rw [if_pos h1]
    exact ⟨fun h2 => hl (h1.trans h2.symm), hlt.2, Or.inl ⟨h1, rfl⟩⟩
  · rw [if_neg h1]
    have : e.2.1 = X := by rcases hX with h | h; exacts [absurd h h1, h]
    exact ⟨h1, hlt.1, Or.inr ⟨rfl, this⟩⟩

theorem SplitCtx.inv' (h : SplitCtx N ws s X black src snk) (hpt : pt.Correct) (q : ℚ) {st storage : List Nat} {pos : Nat → Nat}
    (hst : st.Nodup) (hst2 : ∀ i, i ∈ st ↔ i < (splitBags pt s X black).length ∧ 1 < ((splitBags pt s X black).getD i []).length)
    (hsto : storage.Perm (List.range N)) :
    GHInv N ws ⟨splitBags pt s X black, splitEdges s X black q, st, storage, pos⟩ := by
  have hi := h.inv
  have hX := h.lt
  have hne : ∀ i < s.bags.length, i ≠ s.bags.length := fun i hi => by omega
  refine ⟨(splitBags_perm hpt hX).trans hi.perm, ?_, ?_, ?_, ?_, hst, hst2, hsto⟩
  · -- bags not empty
    intro b hb
    simp only [splitBags, List.mem_append, List.mem_singleton] at hb
    rcases hb with hb | rfl
    · rcases List.mem_or_eq_of_mem_set hb with hb | rfl
      · exact hi.ne b hb
      · exact List.ne_nil_of_mem (hpt.mem_right.2 ⟨h.msnk, h.bsnk⟩)
    · exact List.ne_nil_of_mem (hpt.mem_left.2 ⟨h.msrc, h.bsrc⟩)
  · -- ends of the edges
    intro e he
    show e.1 < (splitBags pt s X black).length ∧ e.2.1 < (splitBags pt s X black).length
    rw [splitBags_length]
    rcases mem_splitEdges.1 he with ⟨e0, he0, rfl⟩ | rfl
    · have hlt := hi.lt e0 he0
      unfold mvEdge
      split
      · rename_i hm
        have := (hi.otherEnd_spec he0 (moves_iff.1 hm).1).2.1
        simp only; omega
      · omega
    · simp only; omega
  · -- connected
    have hnewX : SAdj (splitEdges s X black q) s.bags.length X := ⟨(s.bags.length, X, q), mem_splitEdges.2 (Or.inr rfl), Or.inl ⟨rfl, rfl⟩⟩
    have hstep : ∀ a b, SAdj s.edges a b → ReflTransGen (SAdj (splitEdges s X black q)) a b := by
      intro a b hab
      obtain ⟨e, he, hab⟩ := hab
      have hmem : mvEdge s X black e ∈ splitEdges s X black q := mem_splitEdges.2 (Or.inl ⟨e, he, rfl⟩)
      by_cases hm : ghMoves s.bags X black e = true
      · obtain ⟨h1, h2, h3⟩ := hi.otherEnd_spec he (moves_iff.1 hm).1
        have hY : SAdj (splitEdges s X black q) s.bags.length (otherEnd X e) := ⟨_, hmem, Or.inl (by simp [mvEdge, hm])⟩
        have hXY : ReflTransGen (SAdj (splitEdges s X black q)) X (otherEnd X e) := (ReflTransGen.single hnewX.symm).tail hY
        have hYX : ReflTransGen (SAdj (splitEdges s X black q)) (otherEnd X e) X := (ReflTransGen.single hY.symm).tail hnewX
        have hcase : (a = X ∧ b = otherEnd X e) ∨ (a = otherEnd X e ∧ b = X) := by
          rcases hab with ⟨e1, e2⟩ | ⟨e1, e2⟩ <;> rcases h3 with ⟨e3, e4⟩ | ⟨e3, e4⟩
          · exact Or.inl ⟨e1.symm.trans e3, e2.symm.trans e4⟩
          · exact Or.inr ⟨e1.symm.trans e3, e2.symm.trans e4⟩
          · exact Or.inr ⟨e2.symm.trans e4, e1.symm.trans e3⟩
          · exact Or.inl ⟨e2.symm.trans e4, e1.symm.trans e3⟩
        rcases hcase with ⟨rfl, rfl⟩ | ⟨rfl, rfl⟩
        · exact hXY
        · exact hYX
      · refine ReflTransGen.single ⟨_, hmem, ?_⟩
        simpa [mvEdge, hm] using hab
    have hold : ∀ i < s.bags.length, ∀ j < s.bags.length, ReflTransGen (SAdj (splitEdges s X black q)) i j := by
      intro i hi' j hj
      have := hi.conn i hi' j hj
      induction this with
      | refl => exact ReflTransGen.refl
      | tail hab hbc ih =>
        rename_i b c
        have hb : b < s.bags.length := by
          obtain ⟨e, he, ⟨rfl, rfl⟩ | ⟨rfl, rfl⟩⟩ := hbc
          exacts [(hi.lt e he).1, (hi.lt e he).2]
        exact (ih hb).trans (hstep _ _ hbc)
    intro i hi' j hj
    rw [splitBags_length] at hi' hj
    simp only
    have toX : ∀ i < s.bags.length + 1, ReflTransGen (SAdj (splitEdges s X black q)) i X := by
      intro i hi'
      by_cases hl : i < s.bags.length
      · exact hold i hl X hX
      · have : i = s.bags.length := by omega
        subst this
        exact ReflTransGen.single hnewX
    have fromX : ∀ i < s.bags.length + 1, ReflTransGen (SAdj (splitEdges s X black q)) X i := by
      intro i hi'
      by_cases hl : i < s.bags.length
      · exact hold X hX i hl
      · have : i = s.bags.length := by omega
        subst this
        exact ReflTransGen.single hnewX.symm
    exact (toX i hi').trans (fromX j hj)
  · -- sides
    intro e' he'
    simp only at he' ⊢
    rcases mem_splitEdges.1 he' with ⟨e, he, rfl⟩ | rfl
    · obtain ⟨D, hD, hmin⟩ := hi.side e he
      have hcross : ∀ e ∈ s.edges, ((fun i => if i = s.bags.length then D X else D i) (mvEdge s X black e).1 ≠
          (fun i => if i = s.bags.length then D X else D i) (mvEdge s X black e).2.1) ↔ D e.1 ≠ D e.2.1 := by
        intro e he
        have hlt := hi.lt e he
        by_cases hm : ghMoves s.bags X black e = true
        · obtain ⟨h1, h2, h3⟩ := hi.otherEnd_spec he (moves_iff.1 hm).1
          have e1 : mvEdge s X black e = (s.bags.length, otherEnd X e, e.2.2) := by simp [mvEdge, hm]
          rw [e1]
          simp only [if_true, if_neg (hne _ h2)]
          rcases h3 with ⟨e3, e4⟩ | ⟨e3, e4⟩
          · rw [← e4, e3]
          · rw [← e3, e4]; exact ne_comm
        · have e1 : mvEdge s X black e = e := by simp [mvEdge, hm]
          rw [e1]
          simp only [if_neg (hne _ hlt.1), if_neg (hne _ hlt.2)]
      refine ⟨fun i => if i = s.bags.length then D X else D i, ⟨(hcross e he).2 hD.1, ?_⟩, ?_⟩
      · intro e1 he1 hc
        rcases mem_splitEdges.1 he1 with ⟨e2, he2, rfl⟩ | rfl
        · rw [hD.2 e2 he2 ((hcross e2 he2).1 hc)]
        · simp [hne X hX] at hc
      · intro h0
        refine (hmin h0).congr fun v hv => ?_
        rw [h.bagIdx' hpt hv]
        have hb := (bag_of_lt hi.perm hv).1
        by_cases hv2 : bagIdx s.bags v = X
        · rw [if_pos hv2, hv2]
          split
          · simp
          · simp [hne X hX]
        · rw [if_neg hv2]
          simp only [if_neg (hne _ hb)]
    · refine ⟨fun i => if i = s.bags.length then true else if i = X then false else dark s black i, ⟨?_, ?_⟩, ?_⟩
      · simp [hne X hX]
      · intro e1 he1 hc
        rcases mem_splitEdges.1 he1 with ⟨e, he, rfl⟩ | rfl
        · exfalso
          apply hc
          have hlt := hi.lt e he
          by_cases hm : ghMoves s.bags X black e = true
          · obtain ⟨h1, h2, h3⟩ := hi.otherEnd_spec he (moves_iff.1 hm).1
            have e1 : mvEdge s X black e = (s.bags.length, otherEnd X e, e.2.2) := by simp [mvEdge, hm]
            rw [e1]
            simp only [if_true, if_neg (hne _ h2), if_neg h1]
            exact ((moves_iff.1 hm).2).symm
          · have e1 : mvEdge s X black e = e := by simp [mvEdge, hm]
            rw [e1]
            simp only [if_neg (hne _ hlt.1), if_neg (hne _ hlt.2)]
            by_cases hinc : e.1 = X ∨ e.2.1 = X
            · obtain ⟨h1, h2, h3⟩ := hi.otherEnd_spec he hinc
              have hd : dark s black (otherEnd X e) = false := by
                cases hd : dark s black (otherEnd X e)
                · rfl
                · exact absurd (moves_iff.2 ⟨hinc, hd⟩) hm
              rcases h3 with ⟨e3, e4⟩ | ⟨e3, e4⟩
              · rw [if_pos e3, e4, if_neg h1, hd]
              · rw [e3, if_neg h1, hd, if_pos e4]
            · have hn1 : e.1 ≠ X := fun hh => hinc (Or.inl hh)
              have hn2 : e.2.1 ≠ X := fun hh => hinc (Or.inr hh)
              rw [if_neg hn1, if_neg hn2]
              exact h.dark_conn hlt.1 hlt.2 hn1 hn2 (EqvGen.rel _ _ (mem_forestArcs.2 ⟨e, he, rfl, rfl, hn1, hn2⟩))
        · rfl
      · intro h0
        obtain ⟨s1, _⟩ := bag_mem hi.perm h.msrc
        obtain ⟨t1, _⟩ := bag_mem hi.perm h.msnk
        have hms : MinSep N ws black := ⟨snk, src, t1, s1, h.bsnk, h.bsrc, fun W h1 h2 => h.min h0 W h2 h1⟩
        refine hms.congr fun v hv => ?_
        rw [h.bagIdx' hpt hv]
        have hb := (bag_of_lt hi.perm hv).1
        by_cases hv2 : bagIdx s.bags v = X
        · rw [if_pos hv2]
          cases hc : black v
          · simp [hne X hX]
          · simp
        · rw [if_neg hv2]
          simp only [if_neg (hne _ hb), if_neg hv2]
          exact h.dark_eq hv hv2

/-- the split vertex, its colours and the call of one iteration -/
theorem ghStep_ctx (hmf : mf.Correct) (hi : GHInv N ws s) {rest : List Nat} (hst : s.stack = X :: rest) :
    let bag := s.bags.getD X []
    let n := (forestReps s.bags.length s.edges X).length + bag.length
    let r := mf n (fun _ => true) (fun u v => ghCaps N ws (ghPos s X) n (pcgIndex n (u, v))) (ghPos s X (bag.headD 0)) (ghPos s X (bag.getLastD 0))
    SplitCtx N ws s X (fun v => r.2 (ghPos s X v)) (bag.headD 0) (bag.getLastD 0) ∧
      ((∀ q ∈ ws, 0 ≤ q) → r.1 = gcut N ws fun v => r.2 (ghPos s X v)) := by
  intro bag n r
  have hX := (hi.stack X).1 (by rw [hst]; simp)
  have hn := hi.perm.nodup_iff.2 List.nodup_range
  have hnd : bag.Nodup := by
    have : bag = s.bags[X] := by show s.bags.getD X [] = _; simp [List.getD_eq_getElem?_getD, hX.1]
    rw [this]
    exact (List.nodup_flatten.1 hn).1 _ (List.getElem_mem hX.1)
  obtain ⟨h1, h2, h3⟩ := head_last_ne hnd hX.2
  obtain ⟨a1, a2⟩ := bag_mem hi.perm (i := X) h1
  obtain ⟨b1, b2⟩ := bag_mem hi.perm (i := X) h2
  have hpn : ∀ v < N, ghPos s X v < n := fun v hv => hi.pos_lt hv
  have hpne : ghPos s X (bag.headD 0) ≠ ghPos s X (bag.getLastD 0) := by
    intro e
    rcases hi.pos_eq a1 b1 e with e | ⟨e, _⟩
    · exact h3 e
    · exact e a2
  have hs := hmf.sides n (fun _ => true) (fun u v => ghCaps N ws (ghPos s X) n (pcgIndex n (u, v))) _ _ (hpn _ a1) (hpn _ b1) hpne rfl rfl
  have hsize : (∀ q ∈ ws, 0 ≤ q) → r.1 = gcut N ws fun v => r.2 (ghPos s X v) := by
    intro h0
    rw [← flowCut_caps hpn]
    exact hmf.size n _ _ _ _ (hpn _ a1) (hpn _ b1) hpne rfl rfl fun u v _ _ => ghCaps_nonneg h0 _ _
  refine ⟨⟨hi, hX.1, h1, h2, hs.1, hs.2, fun u v _ _ e => by simp only [e], ?_⟩, hsize⟩
  intro h0 W w1 w2
  rw [← hsize h0]
  obtain ⟨B, k1, k2⟩ := hi.contract h0 hX.1 W
  refine le_trans ?_ k1
  rw [← flowCut_caps hpn]
  exact hmf.minimal n _ _ _ _ (hpn _ a1) (hpn _ b1) hpne rfl rfl (fun u v _ _ => ghCaps_nonneg h0 _ _) B
    ((k2 _ h1).trans w1) ((k2 _ h2).trans w2)

end Mtsp
