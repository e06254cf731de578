import Verif.Proof.CheckedTwoOpt
import Verif.Proof.Doubles

/-! The checked construction heuristic does what the unchecked one does (lemmas for C83). -/

namespace Mtsp

variable {A N : Nat} {s e comp : Nat → Nat} {W : Nat → Weights} {done : List Nat} {I : Nat → List Nat}

theorem mapM_eq {α β : Type} {f : α → Except Err β} {g : α → β} : ∀ (l : List α), (∀ x ∈ l, f x = .ok (g x)) → l.mapM f = .ok (l.map g)
  | [], _ => rfl
  | x :: l, h => by
    rw [List.mapM_cons, h x List.mem_cons_self, bind_ok, mapM_eq l fun y hy => h y (List.mem_cons_of_mem _ hy), bind_ok]; rfl

theorem wt3_ok {a u v : Nat} (ha : a < A) (hu : u < N) (hv : v < N) : wt3 A N W a u v = .ok (W a u v) := by
  unfold wt3; rw [if_pos ha, wt_ok _ hu hv]

theorem CoreInv.len {c : NICore} (h : CoreInv A s e comp done c I) : c.paths.length = A := by rw [h.paths]; simp

theorem niCandidatesC_ok {c : NICore} (h : CoreInv A s e comp done c I) (cp : Nat) : niCandidatesC A c cp = .ok (niCandidates A c cp) := by
  have hle := h.c2aLe cp
  unfold niCandidatesC niCandidates
  dsimp only
  rw [mapM_eq (g := fun a => (List.range' (1 + c.last cp) ((c.paths.getD a []).length - (1 + c.last cp))).map fun i => (a, i)), bind_ok, pure_ok,
    List.flatMap_def]
  intro a ha
  rw [List.mem_range'_1] at ha
  have : a < A := by
    by_cases hc : c.c2a cp = A
    · rw [if_pos hc, if_pos hc] at ha; omega
    · rw [if_neg hc, if_neg hc] at ha; omega
  rw [rd_ok [] (by rw [h.len]; exact this), bind_ok]; rfl

theorem cand_range {c : NICore} (h : CoreInv A s e comp done c I) {cp : Nat} {ai : Nat × Nat} (hm : ai ∈ niCandidates A c cp) :
    ai.1 < A ∧ 1 ≤ ai.2 ∧ ai.2 < (c.paths.getD ai.1 []).length := by
  have hle := h.c2aLe cp
  obtain ⟨h1, h2, h3⟩ := (mem_niCandidates A c cp ai.1 ai.2).1 hm
  exact ⟨by omega, by omega, h3⟩

theorem insertC_ok {c : NICore} (h : CoreInv A s e comp done c I) {cp a i n : Nat} (ha : a < A) (hi : i < (c.paths.getD a []).length) :
    c.insertC cp a i n = .ok (c.insert cp a i n) := by
  unfold NICore.insertC
  rw [rd_ok [] (by rw [h.len]; exact ha), bind_ok, if_neg (by omega)]; rfl

theorem niSumStepC_eq {st : NISum} (h : CoreInv A s e comp done st.core I) (hp : PathNodes A N s e done) {n : Nat} (hn : n < N) :
    niSumStepC A N W comp st n = niSumStep A W comp st n := by
  unfold niSumStepC niSumStep compC
  rw [if_pos hn, bind_ok, niCandidatesC_ok h, bind_ok]
  obtain ⟨h1, h2⟩ := foldlM_eq (f := fun (b : ℚ × Option (Nat × Nat)) ai => do
      let p ← rd st.core.paths ai.1
      let x ← rd p (ai.2 - 1)
      let y ← rd p ai.2
      let d := ((← wt3 A N W ai.1 x n) + (← wt3 A N W ai.1 n y)) - (← wt3 A N W ai.1 x y)
      return if d < b.1 then (d, some ai) else b)
    (g := fun (b : ℚ × Option (Nat × Nat)) ai =>
      if niDelta (W ai.1) (st.core.paths.getD ai.1 []) ai.2 n < b.1 then (niDelta (W ai.1) (st.core.paths.getD ai.1 []) ai.2 n, some ai) else b)
    (fun b => ∀ ai, b.2 = some ai → ai ∈ niCandidates A st.core (comp n)) (niCandidates A st.core (comp n)) (dblMax, none) (by simp) (by
      intro b ai hai hb
      obtain ⟨r1, r2, r3⟩ := cand_range h hai
      have m1 := h.node_lt hp r1 (ai.2 - 1) (by omega)
      have m2 := h.node_lt hp r1 ai.2 r3
      rw [rd_ok [] (by rw [h.len]; exact r1), bind_ok, rd_ok 0 (by omega), bind_ok, rd_ok 0 r3, bind_ok, wt3_ok r1 m1 hn, bind_ok,
        wt3_ok r1 hn m2, bind_ok, wt3_ok r1 m1 m2, bind_ok]
      refine ⟨rfl, ?_⟩
      intro bi
      split
      · rintro hh; simp only [Option.some.injEq] at hh; rw [← hh]; exact hai
      · exact hb bi)
  rw [h1, bind_ok]
  dsimp only
  split
  · next he => rw [he]
  · next a i he =>
    obtain ⟨r1, r2, r3⟩ := cand_range h (h2 _ he)
    rw [he]
    dsimp only
    rw [insertC_ok h r1 r3]; rfl

theorem niPotentialC_ok {lens : List ℚ} (hl : lens.length = A) (longest : Nat) (pot : ℚ) :
    niPotentialC A lens longest pot = .ok (niPotential A lens longest pot) := by
  unfold niPotentialC niPotential
  refine (foldlM_eq (fun _ => True) _ _ trivial ?_).1
  intro b aa haa _
  split
  · exact ⟨rfl, trivial⟩
  · rw [rd_ok 0 (by rw [hl]; exact List.mem_range.1 haa), bind_ok]
    exact ⟨rfl, trivial⟩

theorem niMaxCandC_ok {st : NIMax} (h : CoreInv A s e comp done st.core I) (hp : PathNodes A N s e done) (hl : st.lens.length = A) (hlg : st.longest < A)
    {n : Nat} (hn : n < N) {cp : Nat} {ai : Nat × Nat} (hai : ai ∈ niCandidates A st.core cp) :
    niMaxCandC A N W st n ai = .ok (niMaxCand A W st n ai) := by
  obtain ⟨r1, r2, r3⟩ := cand_range h hai
  have m1 := h.node_lt hp r1 (ai.2 - 1) (by omega)
  have m2 := h.node_lt hp r1 ai.2 r3
  unfold niMaxCandC niMaxCand
  rw [rd_ok [] (by rw [h.len]; exact r1), bind_ok, rd_ok 0 (by omega), bind_ok, rd_ok 0 r3, bind_ok, wt3_ok r1 m1 m2, bind_ok,
    wt3_ok r1 m1 hn, bind_ok, wt3_ok r1 hn m2, bind_ok, rd_ok 0 (by rw [hl]; exact r1), bind_ok]
  dsimp only
  split
  · rw [niPotentialC_ok hl, bind_ok, rd_ok 0 (by rw [hl]; exact hlg), bind_ok]; rfl
  · rw [rd_ok 0 (by rw [hl]; exact hlg), bind_ok]; rfl

theorem niMaxStepC_eq {st : NIMax} (h : CoreInv A s e comp done st.core I) (hp : PathNodes A N s e done) (hl : st.lens.length = A) (hlg : st.longest < A)
    {n : Nat} (hn : n < N) : niMaxStepC A N W comp st n = niMaxStep A W comp st n := by
  unfold niMaxStepC niMaxStep compC
  rw [if_pos hn, bind_ok, niCandidatesC_ok h, bind_ok]
  obtain ⟨h1, h2⟩ := foldlM_eq (f := fun (b : ℚ × Option ((Nat × Nat) × ℚ × Nat)) ai => do
      let c ← niMaxCandC A N W st n ai
      return if c.1 < b.1 then (c.1, some (ai, c.2)) else b)
    (g := fun (b : ℚ × Option ((Nat × Nat) × ℚ × Nat)) ai =>
      if (niMaxCand A W st n ai).1 < b.1 then ((niMaxCand A W st n ai).1, some (ai, (niMaxCand A W st n ai).2)) else b)
    (fun b => ∀ x, b.2 = some x → x.1 ∈ niCandidates A st.core (comp n)) (niCandidates A st.core (comp n)) (dblMax, none) (by simp) (by
      intro b ai hai hb
      rw [niMaxCandC_ok h hp hl hlg hn hai, bind_ok]
      refine ⟨rfl, ?_⟩
      intro x
      split
      · rintro hh; simp only [Option.some.injEq] at hh; rw [← hh]; exact hai
      · exact hb x)
  rw [h1, bind_ok]
  dsimp only
  split
  · next he => rw [he]
  · next ai len lng he =>
    obtain ⟨r1, r2, r3⟩ := cand_range h (h2 _ he)
    rw [he]
    dsimp only at r1 r3 ⊢
    rw [insertC_ok h r1 r3, bind_ok, wr_ok _ (by rw [hl]; exact r1)]; rfl

theorem niInitCoreC_eq {starts ends : List Nat} (hs : starts.length = A) (he : ends.length = A) (hlt : ∀ x ∈ starts, x < N) :
    niInitCoreC A N starts ends comp = niInitCore A starts ends comp := by
  unfold niInitCoreC niInitCore
  have : ∀ (l : List Nat) (c : NICore), (∀ a ∈ l, a < A) → l.foldlM (niInitStepC A N starts ends comp) c = l.foldlM (niInitStep A starts ends comp) c := by
    intro l
    induction l with
    | nil => intro c _; rfl
    | cons a l ih =>
      intro c h
      have ha := h a List.mem_cons_self
      have hstep : niInitStepC A N starts ends comp c a = niInitStep A starts ends comp c a := by
        unfold niInitStepC niInitStep compC
        have hm : starts.getD a 0 < N := by
          refine hlt _ ?_
          rw [List.getD_eq_getElem?_getD, List.getElem?_eq_getElem (by omega)]; exact List.getElem_mem _
        rw [rd_ok 0 (by omega), bind_ok, rd_ok 0 (by omega), bind_ok, if_pos hm, bind_ok]
        split <;> rfl
      rw [List.foldlM_cons, List.foldlM_cons, hstep]
      congr 1
      funext c'
      exact ih c' fun x hx => h x (List.mem_cons_of_mem _ hx)
  exact this _ _ fun a ha => List.mem_range.1 ha

theorem getD_lt_of {l : List Nat} (h : ∀ x ∈ l, x < N) {a : Nat} (ha : a < l.length) : l.getD a 0 < N := by
  refine h _ ?_
  rw [List.getD_eq_getElem?_getD, List.getElem?_eq_getElem ha]; exact List.getElem_mem _

theorem niInitLensC_ok {starts ends : List Nat} (hs : starts.length = A) (he : ends.length = A) (hlt : ∀ x ∈ starts, x < N) (hlt' : ∀ x ∈ ends, x < N) :
    niInitLensC A N W starts ends = .ok (niInitLens A W starts ends) := by
  unfold niInitLensC niInitLens
  refine (foldlM_eq (fun b => b.1.length = A ∧ (b.2 < A ∨ b.2 = 0)) _ _ (by simp) ?_).1
  rintro b a ha ⟨h1, h2⟩
  have ha := List.mem_range.1 ha
  have hl : ∀ x, (b.1.set a x).length = A := fun x => by rw [List.length_set, h1]
  rw [rd_ok 0 (by omega), bind_ok, rd_ok 0 (by omega), bind_ok, wt3_ok ha (getD_lt_of hlt (by omega)) (getD_lt_of hlt' (by omega)), bind_ok,
    wr_ok _ (by omega), bind_ok, rd_ok 0 (by rw [hl]; exact ha), bind_ok, rd_ok 0 (by rw [hl]; omega), bind_ok]
  refine ⟨rfl, hl _, ?_⟩
  dsimp only
  split
  · exact Or.inl ha
  · exact h2

theorem nearestInsertionC_eq {mode : Mode} {starts ends : List Nat} {deps : DepGraph} {D : Nat → Nat → Prop}
    (h : Inst N starts ends D) (hdeps : ∀ u v, (u, v) ∈ deps.arcs ↔ D u v) (hW : SmallDeltas starts.length N W) (t : Nat) :
    nearestInsertionC mode W N starts ends deps t = nearestInsertion mode W N starts ends deps t := by
  obtain ⟨d, hd, hperm, hbef, _⟩ := ni_order h hdeps
  have hltN : ∀ n ∈ d.reverse, n < N := fun n hn => List.mem_range.1 (hperm.mem_iff.1 hn)
  have hA : 0 < starts.length := h.pos
  have hls : ∀ x ∈ starts, x < N := fun x hx => h.lt x (List.mem_append_left _ hx)
  have hle : ∀ x ∈ ends, x < N := fun x hx => h.lt x (List.mem_append_right _ hx)
  have hlen : ends.length = starts.length := h.lenEq.symm
  have hpn : PathNodes starts.length N (starts.getD · 0) (ends.getD · 0) [] :=
    ⟨fun a ha => getD_lt_of hls ha, fun a ha => getD_lt_of hle (by omega), by simp⟩
  set comp := componentIds (niArcs starts ends deps) with hcomp
  cases mode with
  | sum =>
    simp only [nearestInsertionC, nearestInsertion, nearestInsertionSumC, nearestInsertionSum, ← hcomp, hd, bind_ok]
    rw [niInitCoreC_eq rfl hlen hls]
    rcases niInitCore_spec starts.length starts ends comp with ⟨c, hc, hinv, _⟩ | ⟨hc, _⟩
    swap
    · rw [hc]; rfl
    rw [hc, bind_ok, (foldlM_eq (g := fun o a => o + W a (starts.getD a 0) (ends.getD a 0)) (fun _ => True) _ _ trivial ?_).1, bind_ok]
    swap
    · intro b a ha _
      have ha := List.mem_range.1 ha
      rw [rd_ok 0 ha, bind_ok, rd_ok 0 (by omega), bind_ok, wt3_ok ha (getD_lt_of hls ha) (getD_lt_of hle (by omega)), bind_ok]
      exact ⟨rfl, trivial⟩
    dsimp only
    obtain ⟨k1, _⟩ := niLoop_congr starts ends (niSumStep starts.length W comp) (niSumStepC starts.length N W comp)
      (fun _ st => ∃ done I, CoreInv starts.length (starts.getD · 0) (ends.getD · 0) comp done st.core I ∧
        PathNodes starts.length N (starts.getD · 0) (ends.getD · 0) done ∧
        st.objective = ((List.range starts.length).map fun a => pathCost (W a) (starts.getD a 0 :: I a ++ [ends.getD a 0])).sum) N
      (by
        rintro k st n ⟨done, I, i1, i2, i3⟩ _ hn
        refine ⟨niSumStepC_eq i1 i2 hn, ?_⟩
        intro s' es
        obtain ⟨st', I', e, j1, j2, j3⟩ := niSumStep_spec hA hW done st n hn i1 i2 i3
        rw [es] at e
        simp only [Except.ok.injEq] at e
        subst e
        exact ⟨_, I', j1, j2, j3⟩)
      (fun _ _ h => h) d.reverse t 0
      { core := c, objective := (List.range starts.length).foldl (fun o a => o + W a (starts.getD a 0) (ends.getD a 0)) 0 }
      hltN (by rw [hperm.length_eq]; simp) ⟨[], fun _ => [], hinv, hpn, by simp only [foldl_add_map, zero_add]; simp [pathCost]⟩
    rw [k1]
    cases niLoop starts ends (niSumStep starts.length W comp) d.reverse t
      { core := c, objective := (List.range starts.length).foldl (fun o a => o + W a (starts.getD a 0) (ends.getD a 0)) 0 } with
    | error => rfl
    | ok x =>
      obtain ⟨o, t1⟩ := x
      cases o <;> rfl
  | max =>
    simp only [nearestInsertionC, nearestInsertion, nearestInsertionMaxC, nearestInsertionMax, ← hcomp, hd, bind_ok]
    rw [niInitCoreC_eq rfl hlen hls]
    rcases niInitCore_spec starts.length starts ends comp with ⟨c, hc, hinv, _⟩ | ⟨hc, _⟩
    swap
    · rw [hc]; rfl
    rw [hc, bind_ok, niInitLensC_ok rfl hlen hls hle, bind_ok]
    obtain ⟨l1, l2⟩ := niInitLens_spec starts.length hA W starts ends
    dsimp only
    obtain ⟨k1, k2⟩ := niLoop_congr starts ends (niMaxStep starts.length W comp) (niMaxStepC starts.length N W comp)
      (fun _ st => ∃ done I, CoreInv starts.length (starts.getD · 0) (ends.getD · 0) comp done st.core I ∧
        PathNodes starts.length N (starts.getD · 0) (ends.getD · 0) done ∧
        st.lens = ((List.range starts.length).map fun a => pathCost (W a) (starts.getD a 0 :: I a ++ [ends.getD a 0])) ∧
        IsLongest starts.length (fun a => pathCost (W a) (starts.getD a 0 :: I a ++ [ends.getD a 0])) st.longest) N
      (by
        rintro k st n ⟨done, I, i1, i2, i3, i4⟩ _ hn
        refine ⟨niMaxStepC_eq i1 i2 (by rw [i3]; simp) i4.1 hn, ?_⟩
        intro s' es
        obtain ⟨st', I', e, j1, j2, j3, j4⟩ := niMaxStep_spec hA hW done st n hn i1 i2 i3 i4
        rw [es] at e
        simp only [Except.ok.injEq] at e
        subst e
        exact ⟨_, I', j1, j2, j3, j4⟩)
      (fun _ _ h => h) d.reverse t 0
      { core := c, lens := (niInitLens starts.length W starts ends).1, longest := (niInitLens starts.length W starts ends).2 }
      hltN (by rw [hperm.length_eq]; simp) ⟨[], fun _ => [], hinv, hpn, by simpa [pathCost] using l1, by simpa [pathCost] using l2⟩
    rw [k1]
    cases hr : niLoop starts ends (niMaxStep starts.length W comp) d.reverse t
      { core := c, lens := (niInitLens starts.length W starts ends).1, longest := (niInitLens starts.length W starts ends).2 } with
    | error => rfl
    | ok x =>
      obtain ⟨o, t1⟩ := x
      cases o with
      | none => rfl
      | some st =>
        obtain ⟨_, _, _, _, i3, i4⟩ := k2 st t1 hr
        rw [bind_ok]
        dsimp only
        rw [rd_ok 0 (by rw [i3]; simpa using i4.1)]; rfl

end Mtsp
