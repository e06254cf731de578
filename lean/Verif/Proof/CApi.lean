import Verif.Spec.CApi
import Verif.Proof.Solver
import Verif.Proof.Depots
import Verif.Proof.InputCover

/-! Lemmas about the C function: the layout of the output, and the cases of a call. -/

namespace Mtsp
open Relation

theorem shown_length (starts ends : List Nat) (P : Paths) : (shown starts ends P).length = P.length := by simp [shown]

theorem copyPaths_spec (P : Paths) (starts ends : List Nat) (hne : ∀ p ∈ P, p ≠ []) : ∀ (k a : Nat) (o : COut),
    a + k = P.length → (∀ i, o.paths i = ((shown starts ends P).take a).flatten[i]?) →
    (∀ b, o.offsets b = if b < a then some ((shown starts ends P).take b).flatten.length else none) →
    ∃ o', copyPaths P starts ends (List.range' a k) ((shown starts ends P).take a).flatten.length o = some o' ∧ o'.lower = o.lower ∧
      o'.upper = o.upper ∧ Layout (shown starts ends P) o' := by
  intro k
  induction k with
  | zero =>
    intro a o ha hp ho
    have hal : a = P.length := by omega
    refine ⟨o, rfl, rfl, rfl, ?_, ?_⟩
    · intro i; rw [hp, List.take_of_length_le (by rw [shown_length]; omega)]
    · intro b; rw [ho, shown_length, hal]
  | succ k ih =>
    intro a o ha hp ho
    have hal : a < P.length := by omega
    have hpa : P[a]? = some P[a] := List.getElem?_eq_getElem hal
    have hW : (shown starts ends P)[a]? = some (if starts[a]? = ends[a]? then P[a].dropLast else P[a]) := by
      simp [shown, hpa]
    have hWl : a < (shown starts ends P).length := by rw [shown_length]; exact hal
    set q := (if starts[a]? = ends[a]? then P[a].dropLast else P[a]) with hq
    have htake : (shown starts ends P).take (a + 1) = (shown starts ends P).take a ++ [q] := by
      rw [List.take_add_one, hW]; rfl
    have hlen : ((shown starts ends P).take (a + 1)).flatten.length = ((shown starts ends P).take a).flatten.length + q.length := by
      rw [htake]; simp
    -- one round of the loop
    have hstep : copyPaths P starts ends (List.range' a (k + 1)) ((shown starts ends P).take a).flatten.length o =
        copyPaths P starts ends (List.range' (a + 1) k) ((shown starts ends P).take (a + 1)).flatten.length
          (COut.copyN { o with offsets := fun i => if i = a then some ((shown starts ends P).take a).flatten.length else o.offsets i } P[a] q.length
            ((shown starts ends P).take a).flatten.length) := by
      rw [List.range'_succ, hlen]
      conv_lhs => unfold copyPaths
      rw [hpa]
      dsimp only
      by_cases hse : starts[a]? = ends[a]?
      · have hnz : ¬ P[a].length = 0 := fun h0 => hne _ (List.getElem_mem hal) (List.length_eq_zero_iff.1 h0)
        have : q.length = P[a].length - 1 := by rw [hq, if_pos hse, List.length_dropLast]
        rw [if_pos hse, if_neg hnz, this]
      · have : q.length = P[a].length := by rw [hq, if_neg hse]
        rw [if_neg hse, this]
    rw [hstep]
    have hpre : ∀ i < q.length, P[a][i]? = q[i]? := by
      intro i hi
      rw [hq]
      split
      · rename_i hse
        rw [hq, if_pos hse, List.length_dropLast] at hi
        rw [List.getElem?_dropLast, if_pos hi]
      · rfl
    obtain ⟨o', h1, h2, h3, h4⟩ := ih (a + 1) (COut.copyN { o with offsets := fun i => if i = a then some ((shown starts ends P).take a).flatten.length else o.offsets i } P[a] q.length
            ((shown starts ends P).take a).flatten.length) (by omega) (by
        intro i
        unfold COut.copyN
        dsimp only
        rw [htake, List.flatten_append, List.flatten_singleton, hp]
        split
        · rename_i hi
          rw [List.getElem?_append_right hi.1, hpre _ (by omega)]
        · rename_i hi
          by_cases hlt : i < ((shown starts ends P).take a).flatten.length
          · rw [List.getElem?_append_left hlt]
          · rw [List.getElem?_eq_none (by omega), List.getElem?_eq_none (by simp only [List.length_append]; omega)]) (by
        intro b
        unfold COut.copyN
        dsimp only
        by_cases hb : b = a
        · subst hb; simp
        · rw [if_neg hb, ho]
          by_cases hlt : b < a
          · rw [if_pos hlt, if_pos (by omega)]
          · rw [if_neg hlt, if_neg (by omega)])
    exact ⟨o', h1, h2, h3, h4⟩

/-- without paths the loop has undefined behaviour -/
theorem copyPaths_empty (starts ends : List Nat) (a : Nat) (as : List Nat) (off : Nat) (o : COut) :
    copyPaths [] starts ends (a :: as) off o = none := by
  unfold copyPaths
  simp

section
variable {a : CArgs} {L : Lib} {t : Nat} {tr : List (Nat × Inp)} {x : CEnd}

theorem CArgs.startList_length (a : CArgs) : a.startList.length = a.A := by simp [CArgs.startList]
theorem CArgs.endList_length (a : CArgs) : a.endList.length = a.A := by simp [CArgs.endList]

theorem CArgs.accepted_iff (a : CArgs) : a.Accepted ↔ a.badSize = false ∧ a.badPointer = false ∧ a.badMode = false := by
  constructor
  · rintro ⟨h1, h2, h3, ⟨p1, p2, p3, p4, p5, p6, p7⟩, h5⟩
    refine ⟨?_, ?_, ?_⟩
    · simp [CArgs.badSize, wrap64, h1]; omega
    · rw [← Option.isSome_iff_ne_none] at p1 p2 p3
      simp [CArgs.badPointer, p4, p5, p6, p7, p1, p2, p3]
    · unfold CArgs.badMode; rcases h5 with h5 | h5 <;> simp [h5]
  · rintro ⟨h1, h2, h3⟩
    simp [CArgs.badSize, wrap64] at h1
    simp [CArgs.badPointer] at h2
    unfold CArgs.badMode at h3
    refine ⟨h1.1.1, h1.1.2, h1.2, ⟨Option.isSome_iff_ne_none.1 h2.1.1.1.1.1.1, Option.isSome_iff_ne_none.1 h2.1.1.1.1.1.2, Option.isSome_iff_ne_none.1 h2.1.1.1.1.2, h2.1.1.1.2, h2.1.1.2, h2.1.2, h2.2⟩, ?_⟩
    by_cases h0 : a.mode = 0
    · exact Or.inl h0
    · simp [h0] at h3; exact Or.inr h3

theorem CArgs.Typed.intWeights (h : a.Typed) (hp : a.weights ≠ none) : IntWeights a.N a.weight := by
  obtain ⟨W, hW⟩ := Option.ne_none_iff_exists'.1 hp
  intro i _ j _
  refine ⟨W (i * a.N + j), ?_, h.wts W hW _⟩
  simp [CArgs.weight, hW]

theorem CArgs.Typed.size (h : a.Typed) : a.N + 2 * a.startList.length ≤ 2 ^ 70 := by
  rw [a.startList_length]
  have h1 := h.agents
  have h2 := h.nodes
  omega

theorem CArgs.Accepted.valid (h : a.Accepted) (hr : a.InRange) : ValidArgs a.N a.N a.startList a.endList := by
  refine ⟨by rw [a.startList_length, a.endList_length], ?_, rfl, h.nodes, hr.1, hr.2⟩
  intro e
  have := a.startList_length
  rw [e] at this
  exact h.agents this.symm

/-- an accepted call goes into the `try` block -/
theorem CArgs.Call.try (h : a.Accepted) (hc : a.Call L t tr x) : a.Try L t tr x := by
  obtain ⟨h1, h2, h3⟩ := a.accepted_iff.1 h
  cases hc with
  | size hb => rw [h1] at hb; simp at hb
  | pointer _ hb => rw [h2] at hb; simp at hb
  | mode _ _ hb => rw [h3] at hb; simp at hb
  | run _ _ _ _ _ ht => exact ht

/-- two agents are tied together by the dependencies of the preprocessed instance -/
def Tied (rows : Nat) (w : Weights) (starts ends : List Nat) : Prop :=
  ∃ m, WM.make rows rows w starts ends = .ok m ∧
    ∃ a b s s' : Nat, a < b ∧ m.starts[a]? = some s ∧ m.starts[b]? = some s' ∧ Linked m.starts m.ends (DepIn m.n m.w) s s'

/-- what a finished search reports: the paths of a cover -/
theorem report_spec {S : Solver} (hm : S.Made a.N a.weight a.startList a.endList a.opt t) (ht : S.m.n ≤ t) (hw : IntWeights a.N a.weight)
    (hL : L.Correct) {r : ResState} (hs : S.Solve L a.threads tr (.ok r)) :
    ∃ o, a.report r = .ret (if r.lower < r.upper then 1 else 0) o ∧ o.lower = some r.lower ∧ o.upper = some r.upper ∧
      InputCover a.N a.startList a.endList r.paths ∧ Layout (shown a.startList a.endList r.paths) o := by
  obtain ⟨h1, h2, h3, h4, _⟩ := Solver.solve_ok hm hw hL hs
  obtain ⟨Q, hQ, hP⟩ := h4 ht
  have hcov := inputCover_of_cover hm.make hQ
  rw [← hP] at hcov
  have hne : ∀ p ∈ r.paths, p ≠ [] := by
    intro p hp
    obtain ⟨k, hk⟩ := List.mem_iff_getElem?.1 hp
    obtain ⟨s, e, mid, _, _, rfl⟩ := hcov.shape k p hk
    simp
  have hlen : r.paths.length = a.A := by rw [hcov.len, a.startList_length]
  obtain ⟨o, e1, e2, e3, e4⟩ := copyPaths_spec r.paths a.startList a.endList hne a.A 0
    { lower := some r.getBounds.Lower, upper := some r.getBounds.Upper } (by omega) (by simp) (by simp)
  have hub : r.getBounds.Upper = r.upper := rfl
  have hlb : r.getBounds.Lower = r.lower := rfl
  have hne2 : ¬ r.upper = dblMax := ne_of_lt h2
  refine ⟨o, ?_, e2, e3, hcov, e4⟩
  simp only [List.take_zero, List.flatten_nil, List.length_nil] at e1
  rw [← List.range_eq_range', hub, hlb] at e1
  unfold CArgs.report
  rw [hub, hlb]
  simp only [hne2, decide_false, Bool.and_false, Bool.false_eq_true, if_false]
  rw [e1]
  dsimp only
  by_cases hlt : r.lower < r.upper
  · rw [if_neg (not_le.2 hlt), if_pos hlt]
  · rw [if_pos (not_lt.1 hlt), if_neg hlt]

/-- with the deadline inside the construction heuristic there are no paths to report -/
theorem report_short {S : Solver} (hA : a.A ≠ 0) (hm : S.Made a.N a.weight a.startList a.endList a.opt t) (ht : t < S.m.n) (hw : IntWeights a.N a.weight)
    (hL : L.Correct) {r : ResState} (hs : S.Solve L a.threads tr (.ok r)) : a.report r = .undefined := by
  obtain ⟨h1, h2, h3, _, h4⟩ := Solver.solve_ok hm hw hL hs
  obtain ⟨h5, _⟩ := h4 ht
  have hub : r.getBounds.Upper = r.upper := rfl
  have hne2 : ¬ r.upper = dblMax := ne_of_lt h2
  unfold CArgs.report
  rw [hub]
  simp only [hne2, decide_false, Bool.and_false, Bool.false_eq_true, if_false]
  rw [h5]
  obtain ⟨k, hk⟩ := Nat.exists_eq_succ_of_ne_zero hA
  rw [hk, List.range_succ_eq_map, copyPaths_empty]

/-- with the deadline inside the construction heuristic the search is not started -/
theorem solve_short {S : Solver} (hm : S.Made a.N a.weight a.startList a.endList a.opt t) (ht : t < S.m.n) {o : Outcome ResState}
    (hs : S.Solve L a.threads tr o) : ∃ r, o = .ok r := by
  have h0 := (hm.short ht).2.2
  cases hs with
  | late => exact ⟨_, rfl⟩
  | refused c er h => omega
  | finished c tr s late r h => omega
  | unfinished c tr s late er h => omega
  | failed c tr s er h => omega
  | aborted c tr s er u h => omega

/-- how the `try` block can end -/
theorem try_cases (hT : a.Typed) (hA : a.Accepted) (hL : L.Correct) (h : a.Try L t tr x) :
    (x = .ret (-2147483648) .untouched ∧ ¬ a.InRange) ∨
    (a.InRange ∧ x = .ret (-5) .untouched ∧ WM.make a.N a.N a.weight a.startList a.endList = .error .cyclic) ∨
    (a.InRange ∧ x = .ret (-6) .untouched ∧ (WM.make a.N a.N a.weight a.startList a.endList = .error .incompatible ∨ Tied a.N a.weight a.startList a.endList)) ∨
    (a.InRange ∧ ∃ m, WM.make a.N a.N a.weight a.startList a.endList = .ok m ∧ ¬ Tied a.N a.weight a.startList a.endList ∧
      ((x = .ret (-2147483648) .untouched ∧ 2147483647 < a.A * m.n * m.n) ∨
       (x = .ret (-2147483648) .untouched ∧ m.n ≤ t ∧ ((a.threads = 0 ∧ L.hw = 0) ∨ (∀ y ∈ tr, y.2.late = false) ∨ ∃ y ∈ tr, y.2.ans = .error)) ∨
       (x = .terminated ∧ m.n ≤ t ∧ ∃ y ∈ tr, y.2.ans = .error) ∨
       (x = .undefined ∧ t < m.n) ∨
       (m.n ≤ t ∧ ∃ o lo up P, x = .ret (if lo < up then 1 else 0) o ∧ o.lower = some lo ∧ o.upper = some up ∧ lo ≤ up ∧
          InputCover a.N a.startList a.endList P ∧ Layout (shown a.startList a.endList P) o))) := by
  have hw := hT.intWeights hA.pointers.2.2.1
  have hsz := hT.size
  have hval : a.InRange ↔ ValidArgs a.N a.N a.startList a.endList := by
    constructor
    · exact hA.valid
    · exact fun h => ⟨h.2.2.2.2.1, h.2.2.2.2.2⟩
  have hin : ∀ m, WM.make a.N a.N a.weight a.startList a.endList = .ok m → a.InRange := by
    intro m hm
    rw [hval]
    by_contra hcon
    obtain ⟨msg, he⟩ := (C17_argument_error_iff _ _ _ _ _).2 hcon
    rw [hm] at he
    simp at he
  have hnt : ∀ S : Solver, S.Made a.N a.weight a.startList a.endList a.opt t → ¬ Tied a.N a.weight a.startList a.endList := by
    rintro S hS ⟨m, hm, k, b, s, s', h1, h2, h3, h4⟩
    rw [hS.make] at hm
    simp only [Except.ok.injEq] at hm
    subst hm
    exact hS.free k b s s' h1 h2 h3 h4
  cases h with
  | ctor e he =>
    rcases Solver.make_error hw hsz he with h1 | ⟨m, hm, ⟨rfl, h2⟩ | ⟨rfl, h2, h3⟩⟩
    · by_cases hr : a.InRange
      · have hv := hval.1 hr
        rcases C17_outcomes a.N a.N a.weight a.startList a.endList hv with ⟨m, h2⟩ | h2 | h2
        · rw [h1] at h2; simp at h2
        · rw [h1] at h2
          simp only [Except.error.injEq] at h2
          subst h2
          exact Or.inr (Or.inl ⟨hr, rfl, h1⟩)
        · rw [h1] at h2
          simp only [Except.error.injEq] at h2
          subst h2
          exact Or.inr (Or.inr (Or.inl ⟨hr, rfl, Or.inl h1⟩))
      · obtain ⟨msg, h2⟩ := (C17_argument_error_iff a.N a.N a.weight a.startList a.endList).2 (fun hv => hr (hval.2 hv))
        rw [h1] at h2
        simp only [Except.error.injEq] at h2
        subst h2
        exact Or.inl ⟨rfl, hr⟩
    · exact Or.inr (Or.inr (Or.inl ⟨hin m hm, rfl, Or.inr ⟨m, hm, h2⟩⟩))
    · refine Or.inr (Or.inr (Or.inr ⟨hin m hm, m, hm, ?_, Or.inl ⟨rfl, ?_⟩⟩))
      · rintro ⟨m', hm', k, b, s, s', h4, h5, h6, h7⟩
        rw [hm] at hm'
        simp only [Except.ok.injEq] at hm'
        subst hm'
        exact h3 k b s s' h4 h5 h6 h7
      · rw [a.startList_length] at h2; exact h2
  | solved S _ r hm hs =>
    have hS := Solver.make_ok hw hsz hm
    refine Or.inr (Or.inr (Or.inr ⟨hin _ hS.make, S.m, hS.make, hnt S hS, ?_⟩))
    by_cases ht : t < S.m.n
    · exact Or.inr (Or.inr (Or.inr (Or.inl ⟨report_short hA.agents hS ht hw hL hs, ht⟩)))
    · obtain ⟨o, h1, h2, h3, h4, h5⟩ := report_spec hS (not_lt.1 ht) hw hL hs
      have h6 := (Solver.solve_ok hS hw hL hs).1
      exact Or.inr (Or.inr (Or.inr (Or.inr ⟨not_lt.1 ht, o, r.lower, r.upper, r.paths, h1, h2, h3, h6, h4, h5⟩)))
  | thrown S _ e hm hs =>
    have hS := Solver.make_ok hw hsz hm
    refine Or.inr (Or.inr (Or.inr ⟨hin _ hS.make, S.m, hS.make, hnt S hS, Or.inr (Or.inl ?_)⟩))
    have ht : S.m.n ≤ t := by
      by_contra hcon
      obtain ⟨r, hr⟩ := solve_short hS (not_le.1 hcon) hs
      simp at hr
    rcases Solver.solve_exc hS hw hL hs with ⟨rfl, h1⟩ | ⟨rfl, h1⟩ | ⟨rfl, h1⟩
    · exact ⟨rfl, ht, Or.inl h1⟩
    · exact ⟨rfl, ht, Or.inr (Or.inl h1)⟩
    · exact ⟨rfl, ht, Or.inr (Or.inr h1)⟩
  | terminated S _ hm hs =>
    have hS := Solver.make_ok hw hsz hm
    refine Or.inr (Or.inr (Or.inr ⟨hin _ hS.make, S.m, hS.make, hnt S hS, Or.inr (Or.inr (Or.inl ?_))⟩))
    have ht : S.m.n ≤ t := by
      by_contra hcon
      obtain ⟨r, hr⟩ := solve_short hS (not_le.1 hcon) hs
      simp at hr
    refine ⟨rfl, ht, ?_⟩
    generalize ho : (Outcome.terminated : Outcome ResState) = o at hs
    cases hs with
    | late => simp at ho
    | refused => simp at ho
    | finished => simp at ho
    | unfinished => simp at ho
    | failed => simp at ho
    | aborted c _ s er u h0 hc hrun h2 hu hpc => exact Solver.crash_ans hS hw hL h0 hc hrun hu hpc

/-! ### How much is written -/

theorem shown_cons (s e : Nat) (ss es : List Nat) (p : List Nat) (P : Paths) :
    shown (s :: ss) (e :: es) (p :: P) = (if s = e then p.dropLast else p) :: shown ss es P := by
  unfold shown
  rw [List.mapIdx_cons]
  simp

theorem shown_flatten_length : ∀ (ss es : List Nat) (P : Paths), P.length = ss.length → ss.length = es.length →
    (∀ (k : Nat) (p : List Nat), P[k]? = some p → ∃ s e mid, ss[k]? = some s ∧ es[k]? = some e ∧ p = s :: mid ++ [e]) →
    (shown ss es P).flatten.length = (P.map middle).flatten.length + (depotUses ss es).length
  | [], [], [], _, _, _ => by simp [shown, depotUses]
  | s :: ss, e :: es, p :: P, h1, h2, h => by
    simp only [List.length_cons, Nat.add_right_cancel_iff] at h1 h2
    have ih := shown_flatten_length ss es P h1 h2 (fun k q hq => by simpa using h (k + 1) q (by simpa using hq))
    obtain ⟨s', e', mid, e1, e2, e3⟩ := h 0 p rfl
    simp only [List.getElem?_cons_zero, Option.some.injEq] at e1 e2
    subst e1 e2
    rw [shown_cons, List.flatten_cons, List.length_append, ih, e3]
    simp only [List.map_cons, List.flatten_cons, List.length_append, depotUses, middle_shape]
    split
    · simp; omega
    · simp; omega
  | [], _ :: _, _, _, h, _ => by simp at h
  | _ :: _, [], _, _, h, _ => by simp at h
  | [], [], _ :: _, h, _, _ => by simp at h
  | _ :: _, _ :: _, [], h, _, _ => by simp at h

theorem mem_depotUses : ∀ (ss es : List Nat), ss.length = es.length → ∀ v, v ∈ depotUses ss es ↔ v ∈ ss ++ es
  | [], [], _, v => by simp [depotUses]
  | s :: ss, e :: es, h, v => by
    simp only [List.length_cons, Nat.add_right_cancel_iff] at h
    have ih := mem_depotUses ss es h v
    rw [depotUses, List.mem_append, ih]
    by_cases hse : s = e
    · subst hse; rw [if_pos rfl]; simp; tauto
    · rw [if_neg hse]; simp; tauto
  | [], _ :: _, h, _ => by simp at h
  | _ :: _, [], h, _ => by simp at h

theorem depotUses_length : ∀ (ss es : List Nat), (depotUses ss es).length ≤ 2 * ss.length
  | s :: ss, e :: es => by
    have ih := depotUses_length ss es
    rw [depotUses]
    split <;> simp <;> omega
  | [], _ => by simp [depotUses]
  | _ :: _, [] => by simp [depotUses]

/-- at most `N + 2 A` nodes are written, at least `N`, and exactly `N` only if no two agents share a depot -/
theorem shown_total {P : Paths} (h : InputCover a.N a.startList a.endList P) :
    (shown a.startList a.endList P).flatten.length ≤ a.N + 2 * a.A ∧
    (a.InRange → a.N ≤ (shown a.startList a.endList P).flatten.length ∧
      ((shown a.startList a.endList P).flatten.length = a.N ↔ (depotUses a.startList a.endList).Nodup)) := by
  have hl : a.startList.length = a.endList.length := by rw [a.startList_length, a.endList_length]
  rw [shown_flatten_length _ _ P h.len hl h.shape, h.rest.length_eq]
  have h1 := depotUses_length a.startList a.endList
  rw [a.startList_length] at h1
  have h2 : ((List.range a.N).filter fun v => decide (v ∉ a.startList ++ a.endList)).length ≤ a.N := by
    have := List.length_filter_le (fun v => decide (v ∉ a.startList ++ a.endList)) (List.range a.N)
    rwa [List.length_range] at this
  refine ⟨by omega, fun hr => ?_⟩
  have hsplit : ((List.range a.N).filter fun v => decide (v ∉ a.startList ++ a.endList)).length + (depotUses a.startList a.endList).dedup.length = a.N := by
    have hp : ((List.range a.N).filter fun v => decide (v ∈ a.startList ++ a.endList)).Perm (depotUses a.startList a.endList).dedup := by
      rw [List.perm_ext_iff_of_nodup (List.nodup_range.filter _) (List.nodup_dedup _)]
      intro v
      rw [List.mem_filter, List.mem_dedup, mem_depotUses _ _ hl, List.mem_range, decide_eq_true_eq]
      constructor
      · exact fun h => h.2
      · intro h
        refine ⟨?_, h⟩
        rcases List.mem_append.1 h with h | h
        · exact hr.1 v h
        · exact hr.2 v h
    rw [← hp.length_eq]
    have := List.length_eq_length_filter_add (l := List.range a.N) (fun v => decide (v ∉ a.startList ++ a.endList))
    rw [List.length_range] at this
    have e : (fun v => !decide (v ∉ a.startList ++ a.endList)) = fun v => decide (v ∈ a.startList ++ a.endList) := by
      funext v; simp
    rw [e] at this
    exact this.symm
  have hle : (depotUses a.startList a.endList).dedup.length ≤ (depotUses a.startList a.endList).length := (List.dedup_sublist _).length_le
  refine ⟨by omega, ?_⟩
  constructor
  · intro he
    have : (depotUses a.startList a.endList).dedup.length = (depotUses a.startList a.endList).length := by omega
    rw [← (List.dedup_sublist (depotUses a.startList a.endList)).eq_of_length this]
    exact List.nodup_dedup _
  · intro hn
    rw [hn.dedup] at hsplit
    exact hsplit

end
end Mtsp
