import Verif.Proof.WeightManager
import Mathlib.Algebra.BigOperators.Group.Finset.Basic
import Mathlib.Algebra.BigOperators.Group.Finset.Piecewise
import Mathlib.Algebra.BigOperators.Group.Finset.Sigma
import Mathlib.Algebra.BigOperators.Intervals

/-! C17–C22: instance preprocessing.

`m.orig i` is the input node that the preprocessed node `i` stands for.  C18 shows that it is the identity
on input nodes and that every additional node is the start or end of some agent, for whom it stands for the
position the caller asked for; so `m.orig` is determined by the caller's request. -/

namespace Mtsp
open Relation

/-- the caller's arguments are well-formed -/
def ValidArgs (rows cols : Nat) (starts ends : List Nat) : Prop :=
  starts.length = ends.length ∧ starts ≠ [] ∧ rows = cols ∧ 2 ≤ rows ∧ (∀ s ∈ starts, s < rows) ∧ (∀ e ∈ ends, e < rows)

theorem loop_error_of_invalid {rows : Nat} {w : Weights} {starts ends : List Nat} (hl : starts.length = ends.length)
    (h : (∃ s ∈ starts, rows ≤ s) ∨ (∃ e ∈ ends, rows ≤ e)) (st : WMState)
    (hok : (starts.zip ends).foldlM (wmAgent rows) { n := rows, w := w } = .ok st) : False := by
  have rng := (wmLoop_ok hok).2
  have e1 : (starts.zip ends).map (·.1) = starts := by rw [List.map_fst_zip]; omega
  have e2 : (starts.zip ends).map (·.2) = ends := by rw [List.map_snd_zip]; omega
  rcases h with ⟨s, hs, h⟩ | ⟨s, hs, h⟩
  · rw [← e1] at hs; obtain ⟨a, ha, rfl⟩ := List.mem_map.1 hs
    have := (rng a ha).1; omega
  · rw [← e2] at hs; obtain ⟨a, ha, rfl⟩ := List.mem_map.1 hs
    have := (rng a ha).2; omega

/-- **C17.** The constructor fails with an argument error (`std::runtime_error`) exactly when the
arguments are not well-formed. -/
theorem C17_argument_error_iff (rows cols : Nat) (w : Weights) (starts ends : List Nat) :
    (∃ msg, WM.make rows cols w starts ends = .error (.runtime msg)) ↔ ¬ ValidArgs rows cols starts ends := by
  unfold WM.make ValidArgs
  by_cases h1 : starts.length = ends.length
  swap
  · simp [h1]
  by_cases h2 : starts.length = 0
  · have : starts = [] := List.length_eq_zero_iff.1 h2
    subst this
    simp at h1
    simp [← h1]
  have h2' : starts ≠ [] := fun e => h2 (by simp [e])
  by_cases h3 : rows = cols
  swap
  · simp [h1, h2, h3]; simp [h1] at h2; simp [h2]
  by_cases h4 : rows < 2
  · have : ¬ 2 ≤ rows := by omega
    simp only [h1, h2, h3, ne_eq, not_true, if_false, h4, if_true]
    rw [h3] at h4 this
    rw [h1] at h2
    simp [h2, h4, this]
  rw [if_neg (by simpa using h1), if_neg h2, if_neg (by simpa using h3), if_neg h4]
  constructor
  · rintro ⟨msg, h⟩ ⟨_, _, _, _, hs, he⟩
    split at h
    · next e hl =>
      obtain ⟨a, ha, hr⟩ := (wmLoop_error hl).2
      have hz := List.of_mem_zip (show (a.1, a.2) ∈ starts.zip ends from ha)
      have := hs _ hz.1
      have := he _ hz.2
      omega
    · next st hst =>
      obtain ⟨inv, _⟩ := wmLoop_ok hst
      split at h
      · next e hc =>
        have := (C14_cycle_reported_iff _ _).2 _ hc
        simp at h; rw [this] at h; simp at h
      · dsimp only at h
        split at h
        · next e hS =>
          have := (requireAll_error hS (by
            intro s hs
            obtain ⟨l, hl, _⟩ := (C16_queries_agree st.n _).2.2.2.1 s (inv.lt s (List.mem_append_left _ hs))
            exact ⟨l, hl⟩)).1
          simp at h; rw [this] at h; simp at h
        · split at h
          · next e hE =>
            have := (requireAll_error hE (by
              intro s hs
              obtain ⟨l, hl, _⟩ := (C16_queries_agree st.n _).2.2.1 s (inv.lt s (List.mem_append_right _ hs))
              exact ⟨l, hl⟩)).1
            simp at h; rw [this] at h; simp at h
          · simp at h
  · intro hn
    have hbad : (∃ s ∈ starts, rows ≤ s) ∨ (∃ e ∈ ends, rows ≤ e) := by
      by_contra hc
      push Not at hc
      exact hn ⟨h1, h2', h3, by omega, hc.1, hc.2⟩
    split
    · next e hl =>
      obtain ⟨⟨msg, rfl⟩, _⟩ := wmLoop_error hl
      exact ⟨msg, rfl⟩
    · next st hst => exact absurd hst (fun h => loop_error_of_invalid h1 hbad st h)

/-- C17, the other outcomes: for well-formed arguments the constructor succeeds or reports cyclic or
incompatible dependencies; nothing is accessed out of range. -/
theorem C17_outcomes (rows cols : Nat) (w : Weights) (starts ends : List Nat) (hv : ValidArgs rows cols starts ends) :
    (∃ m, WM.make rows cols w starts ends = .ok m) ∨ WM.make rows cols w starts ends = .error .cyclic ∨
    WM.make rows cols w starts ends = .error .incompatible := by
  have hnr := fun h => (C17_argument_error_iff rows cols w starts ends).1 h hv
  cases h : WM.make rows cols w starts ends with
  | ok m => exact Or.inl ⟨m, rfl⟩
  | error e =>
    right
    unfold WM.make at h
    obtain ⟨h1, h2, h3, h4, hs, he⟩ := hv
    have h2' : starts.length ≠ 0 := fun e => h2 (List.length_eq_zero_iff.1 e)
    rw [if_neg (by simpa using h1), if_neg h2', if_neg (by simpa using h3), if_neg (by omega)] at h
    split at h
    · next e' hl =>
      obtain ⟨a, ha, hr⟩ := (wmLoop_error hl).2
      have hz := List.of_mem_zip (show (a.1, a.2) ∈ starts.zip ends from ha)
      have := hs _ hz.1
      have := he _ hz.2
      omega
    · next st hst =>
      obtain ⟨inv, _⟩ := wmLoop_ok hst
      split at h
      · next e' hc =>
        have := (C14_cycle_reported_iff _ _).2 _ hc
        simp at h; rw [← h, this]; simp
      · dsimp only at h
        split at h
        · next e' hS =>
          have := (requireAll_error hS (by
            intro s hs
            obtain ⟨l, hl, _⟩ := (C16_queries_agree st.n _).2.2.2.1 s (inv.lt s (List.mem_append_left _ hs))
            exact ⟨l, hl⟩)).1
          simp at h; rw [← h, this]; simp
        · split at h
          · next e' hE =>
            have := (requireAll_error hE (by
              intro s hs
              obtain ⟨l, hl, _⟩ := (C16_queries_agree st.n _).2.2.1 s (inv.lt s (List.mem_append_right _ hs))
              exact ⟨l, hl⟩)).1
            simp at h; rw [← h, this]; simp
          · simp at h

variable {rows cols : Nat} {w : Weights} {starts ends : List Nat} {m : WM}

/-- **C18.** After preprocessing the starts and ends of all agents are pairwise distinct and in range, one
per agent, and stand for the positions the caller asked for; input nodes stand for themselves, and every
additional node is the start or end of some agent. -/
theorem C18_own_starts_and_ends (h : WM.make rows cols w starts ends = .ok m) :
    (m.starts ++ m.ends).Nodup ∧ (∀ x ∈ m.starts ++ m.ends, x < m.n) ∧
    m.starts.length = starts.length ∧ m.ends.length = ends.length ∧
    m.starts.map m.orig = starts ∧ m.ends.map m.orig = ends ∧
    rows ≤ m.n ∧ (∀ i, i < rows → m.orig i = i) ∧ (∀ i, i < m.n → m.orig i < rows) ∧
    (∀ i, rows ≤ i → i < m.n → i ∈ m.starts ++ m.ends) := by
  have s := (WM.make_ok h).1
  refine ⟨s.nodup, s.lt, ?_, ?_, s.mapS, s.mapE, by have := s.n_eq; omega, ?_, ?_, s.cover⟩
  · rw [← s.mapS]; simp
  · rw [← s.mapE]; simp
  · intro i hi; exact origOf_self (by rw [s.origN]; exact hi)
  · intro i hi
    have := origOf_lt (origN := m.origN) (t := m.toOrig) (fun x hx => by rw [s.origN]; exact s.toLt x hx) (i := i)
      (by rw [s.origN, ← s.n_eq]; exact hi)
    rw [← s.origN]; exact this

/-- the pairs (end of agent a, start of agent a+1) -/
def IsArtificial (m : WM) (i j : Nat) : Prop :=
  ∃ a, a < m.starts.length ∧ m.ends[a]? = some i ∧ m.starts[(a + 1) % m.starts.length]? = some j

theorem mem_artificial {m : WM} (hl : m.starts.length = m.ends.length) (i j : Nat) :
    (i, j) ∈ artificialArcs m.starts m.ends ↔ IsArtificial m i j := by
  simp only [artificialArcs, List.mem_map, List.mem_range, Prod.mk.injEq, IsArtificial]
  refine exists_congr fun a => ?_
  constructor
  · rintro ⟨ha, h1, h2⟩
    have hm : (a + 1) % m.starts.length < m.starts.length := Nat.mod_lt _ (by omega)
    refine ⟨ha, ?_, ?_⟩
    · rw [List.getElem?_eq_getElem (by omega)]
      rw [List.getD_eq_getElem?_getD, List.getElem?_eq_getElem (by omega)] at h1
      simpa using h1
    · rw [List.getElem?_eq_getElem hm]
      rw [List.getD_eq_getElem?_getD, List.getElem?_eq_getElem hm] at h2
      simpa using h2
  · rintro ⟨ha, h1, h2⟩
    exact ⟨ha, by simp [h1], by simp [h2]⟩

theorem zeroDiag_apply (n : Nat) (w : Weights) (i j : Nat) (hi : i < n) : zeroDiag n w i j = if i = j then 0 else w i j := by
  simp [zeroDiag, hi]

/-- **C19.** Between any two preprocessed nodes `i`, `j` the weight is
* the dependency flag `-1`, and then it is a (transitive) consequence of input dependencies of the nodes
  they stand for, or
* 0 on an artificial end-to-next-start arc, or
* 0 if both stand for the same node, or
* 0 if the input had a dependency flag there that has been removed from a duplicated start (row) or a
  duplicated end (column), or
* the input weight of the nodes they stand for. -/
theorem C19_weights_mirror_input (h : WM.make rows cols w starts ends = .ok m) (i j : Nat) (hi : i < m.n) (hj : j < m.n) :
    (m.w i j = -1 ∧ TransGen (fun u v => u < rows ∧ v < rows ∧ u ≠ v ∧ w v u = -1) (m.orig j) (m.orig i)) ∨
    (m.w i j = 0 ∧ (IsArtificial m i j ∨ m.orig i = m.orig j ∨
      (w (m.orig i) (m.orig j) = -1 ∧ ((rows ≤ i ∧ i ∈ m.starts) ∨ (rows ≤ j ∧ j ∈ m.ends))))) ∨
    (m.w i j = w (m.orig i) (m.orig j) ∧ m.orig i ≠ m.orig j ∧ w (m.orig i) (m.orig j) ≠ -1) := by
  have s := (WM.make_ok h).1
  obtain ⟨_, _, hls, hle, _, _, _, _, hlt, _⟩ := C18_own_starts_and_ends h
  have hlen : m.starts.length = m.ends.length := by rw [hls, hle, s.lenEq]
  obtain ⟨base, hb, hac, hw⟩ := s.weights
  have hbase := hb i j hi hj
  rw [zeroDiag_apply _ _ _ _ (hlt i hi)] at hbase
  obtain ⟨hw1, hw2⟩ := hw i j hi hj
  by_cases hx : m.starts.length = 1 ∧ i = m.ends.getD 0 0 ∧ j = m.starts.getD 0 0
  · right; left
    refine ⟨hw2 hx, Or.inl ⟨0, by omega, ?_, ?_⟩⟩
    · rw [hx.2.1, List.getD_eq_getElem?_getD, List.getElem?_eq_getElem (by omega)]; rfl
    · rw [hx.1, hx.2.2, List.getD_eq_getElem?_getD, List.getElem?_eq_getElem (by omega)]
      rfl
  · obtain ⟨k1, k2⟩ := hw1 hx
    by_cases ht : TransGen (DepIn m.n base) j i
    · left
      refine ⟨k1.2 ht, ?_⟩
      refine TransGen.lift m.orig ?_ _ _ ht
      rintro u v ⟨hu, hv, e⟩
      have hb' := hb v u hv hu
      rw [e] at hb'
      split at hb'
      · norm_num at hb'
      · split at hb'
        · norm_num at hb'
        · rw [zeroDiag_apply _ _ _ _ (hlt v hv)] at hb'
          split at hb'
          · norm_num at hb'
          · next hne => exact ⟨hlt u hu, hlt v hv, fun e => hne e.symm, hb'.symm⟩
    · right
      rw [k2 ht, hbase]
      split
      · next ha => exact Or.inl ⟨rfl, Or.inl ((mem_artificial hlen i j).1 ha)⟩
      · next ha =>
        by_cases he : m.orig i = m.orig j
        · left; simp [he]
        · simp only [he, if_false]
          by_cases hd : w (m.orig i) (m.orig j) = -1
          · by_cases hdup : (rows ≤ i ∧ i ∈ m.starts) ∨ (rows ≤ j ∧ j ∈ m.ends)
            · left; simp [hd, hdup]
            · exfalso
              simp only [he, if_false, hd, hdup, and_false] at hbase
              rw [if_neg ha] at hbase
              exact ht (TransGen.single ⟨hj, hi, hbase⟩)
          · right; exact ⟨by simp [hd], he, hd⟩

/-- **C20 (partial).** An accepted instance has no dependency into a start or out of an end, and every
input dependency `u` before `v` is still present unless `v` is the end of an agent `a` and `u` the start of
agent `a + 1` (cyclically).  For a single agent this exception is `u` = its start, `v` = its end, which
its path respects anyway; for several agents the full property (no exception) is false, see
`C20_refuted`. -/
theorem C20_dependencies_survive_partial (h : WM.make rows cols w starts ends = .ok m) :
    (∀ s ∈ m.starts, ∀ u, u < m.n → m.w s u ≠ -1) ∧ (∀ e ∈ m.ends, ∀ v, v < m.n → m.w v e ≠ -1) ∧
    (∀ u v, u < rows → v < rows → u ≠ v → w v u = -1 → m.w v u = -1 ∨ IsArtificial m v u) := by
  have s := (WM.make_ok h).1
  obtain ⟨_, hltn, hls, hle, _, _, hrn, hid, hlt, _⟩ := C18_own_starts_and_ends h
  have hlen : m.starts.length = m.ends.length := by rw [hls, hle, s.lenEq]
  refine ⟨?_, ?_, ?_⟩
  · intro x hx u hu e; exact s.noIn x hx u ⟨hu, hltn x (List.mem_append_left _ hx), e⟩
  · intro x hx v hv e; exact s.noOut x hx v ⟨hltn x (List.mem_append_right _ hx), hv, e⟩
  · intro u v hu hv huv hd
    obtain ⟨base, hb, hac, hw⟩ := s.weights
    have hun : u < m.n := by omega
    have hvn : v < m.n := by omega
    have hbase := hb v u hvn hun
    rw [zeroDiag_apply _ _ _ _ (hlt v hvn), hid u hu, hid v hv] at hbase
    by_cases ha : IsArtificial m v u
    · exact Or.inr ha
    left
    rw [if_neg (fun h => ha ((mem_artificial hlen v u).1 h))] at hbase
    have hne : ¬ (v = u) := fun e => huv e.symm
    simp only [hne, if_false, hd, true_and] at hbase
    rw [if_neg (by omega)] at hbase
    obtain ⟨hw1, _⟩ := hw v u hvn hun
    refine ((hw1 ?_).1).2 (TransGen.single ⟨hun, hvn, hbase⟩)
    rintro ⟨h1, h2, h3⟩
    apply ha
    refine ⟨0, by omega, ?_, ?_⟩
    · rw [h2, List.getD_eq_getElem?_getD, List.getElem?_eq_getElem (by omega)]; rfl
    · rw [h1, h3, List.getD_eq_getElem?_getD, List.getElem?_eq_getElem (by omega)]
      rfl

/-- C20 for one agent, in full: a dependency that disappears is the one from the agent's start to its end. -/
theorem C20_single_agent (h : WM.make rows cols w starts ends = .ok m) (h1 : starts.length = 1) (u v : Nat)
    (hu : u < rows) (hv : v < rows) (huv : u ≠ v) (hd : w v u = -1) :
    m.w v u = -1 ∨ (m.starts = [u] ∧ m.ends = [v]) := by
  have s := (WM.make_ok h).1
  obtain ⟨_, _, hls, hle, _, _, _, _, _, _⟩ := C18_own_starts_and_ends h
  rcases (C20_dependencies_survive_partial h).2.2 u v hu hv huv hd with h' | ⟨a, ha, e1, e2⟩
  · exact Or.inl h'
  · right
    have hl : m.starts.length = 1 := by omega
    have hl2 : m.ends.length = 1 := by have := s.lenEq; omega
    have : a = 0 := by omega
    subst this
    obtain ⟨x, hx⟩ := List.length_eq_one_iff.1 hl
    obtain ⟨y, hy⟩ := List.length_eq_one_iff.1 hl2
    rw [hx] at e2; rw [hy] at e1
    simp at e1 e2
    rw [hx, hy, e1, e2]; exact ⟨rfl, rfl⟩

/-- two agents, starts 0 and 1, ends 2 and 3; the only dependency is 1 before 2 -/
def c20W : Weights := fun v u => if v = 2 ∧ u = 1 then -1 else 1

/-- **C20 is false in full**: with two agents, the dependency of agent 0's end on agent 1's start — which
no solution can satisfy — is silently dropped and the instance accepted. -/
theorem C20_refuted : ∃ (rows : Nat) (w : Weights) (starts ends : List Nat) (m : WM) (u v : Nat),
    WM.make rows rows w starts ends = .ok m ∧ 2 ≤ starts.length ∧ u < rows ∧ v < rows ∧ u ≠ v ∧ w v u = -1 ∧
    (∀ i j, i < m.n → j < m.n → m.w i j ≠ -1) := by
  have key : (match WM.make 4 4 c20W [0, 1] [2, 3] with
      | .ok m => decide (m.n = 4 ∧ ∀ i ∈ List.range 4, ∀ j ∈ List.range 4, m.w i j ≠ -1)
      | .error _ => false) = true := by decide +kernel
  cases h : WM.make 4 4 c20W [0, 1] [2, 3] with
  | error e => rw [h] at key; simp at key
  | ok m =>
    rw [h] at key
    replace key := of_decide_eq_true key
    refine ⟨4, c20W, [0, 1], [2, 3], m, 1, 2, h, by decide, by decide, by decide, by decide, by decide +kernel, ?_⟩
    intro i j hi hj
    simp only [key.1] at hi hj
    exact key.2 i (List.mem_range.2 hi) j (List.mem_range.2 hj)

theorem mapM_ok_of {α β : Type} {f : α → Except Err β} {g : α → β} (l : List α) (h : ∀ x ∈ l, f x = .ok (g x)) :
    l.mapM f = .ok (l.map g) := by
  induction l with
  | nil => rfl
  | cons a l ih =>
    rw [List.mapM_cons, h a List.mem_cons_self, ih fun x hx => h x (List.mem_cons_of_mem _ hx)]
    rfl

/-- **C21.** Mapping paths of preprocessed nodes back never accesses anything out of range, replaces each
node by the input node it stands for (so keeps the number of paths and all lengths), and turns a path from
agent `a`'s start to its end into one from the requested start to the requested end. -/
theorem C21_paths_mapped_back (h : WM.make rows cols w starts ends = .ok m) (P : List (List Nat))
    (hP : ∀ p ∈ P, ∀ i ∈ p, i < m.n) :
    m.transformPathsBack P = .ok (P.map (·.map m.orig)) ∧
    (∀ p ∈ P, ∀ i ∈ p, m.orig i < rows) ∧
    (∀ (a : Nat) (p : List Nat), P[a]? = some p → p.head? = m.starts[a]? → p.getLast? = m.ends[a]? →
      (p.map m.orig).head? = starts[a]? ∧ (p.map m.orig).getLast? = ends[a]?) := by
  have s := (WM.make_ok h).1
  obtain ⟨_, hltn, hls, hle, hmS, hmE, hrn, hid, hlt, _⟩ := C18_own_starts_and_ends h
  refine ⟨?_, fun p hp i hi => hlt i (hP p hp i hi), ?_⟩
  · unfold WM.transformPathsBack
    apply mapM_ok_of
    intro p hp
    apply mapM_ok_of
    intro i hi
    have hi := hP p hp i hi
    unfold WM.toOriginal WM.orig origOf
    split
    · rfl
    · next hge =>
      have : i - m.origN < m.toOrig.length := by have := s.n_eq; have := s.origN; omega
      simp [List.getElem?_eq_getElem this]
  · intro a p _ h1 h2
    constructor
    · rw [List.head?_map, h1, ← List.getElem?_map, hmS]
    · rw [List.getLast?_map, h2, ← List.getElem?_map, hmE]

/-! ### C22 -/

theorem foldl_add_fun (l : List Nat) (f : Nat → Tensor3 → Tensor3) (d : Nat → ℚ) (a i j : Nat) (r : Tensor3)
    (h : ∀ u ∈ l, ∀ r, f u r a i j = r a i j + d u) :
    l.foldl (fun r u => f u r) r a i j = r a i j + (l.map d).sum := by
  induction l generalizing r with
  | nil => simp
  | cons u l ih =>
    rw [List.foldl_cons, ih _ (fun v hv => h v (List.mem_cons_of_mem _ hv)), h u List.mem_cons_self]
    simp; ring

theorem sum_range'_eq (a k : Nat) (f : Nat → ℚ) : ((List.range' a k).map f).sum = ∑ u ∈ Finset.Ico a (a + k), f u := by
  induction k with
  | zero => simp
  | succ k ih =>
    rw [List.range'_concat, List.map_append, List.sum_append, ih, ← Nat.add_assoc, Finset.sum_Ico_succ_top (by omega)]
    simp

/-- **C22.** The tensor reported to the callback: for every agent and every pair of input nodes the sum of
the values of all preprocessed arcs that stand for this pair. -/
theorem C22_tensor_mapped_back (h : WM.make rows cols w starts ends = .ok m) (t : Tensor3) (a i j : Nat)
    (hi : i < rows) (hj : j < rows) :
    m.transformTensorBack t a i j =
      ∑ u ∈ Finset.range m.n, ∑ v ∈ Finset.range m.n, if m.orig u = i ∧ m.orig v = j then t a u v else 0 := by
  have s := (WM.make_ok h).1
  obtain ⟨_, hltn, hls, hle, hmS, hmE, hrn, hid, hlt, _⟩ := C18_own_starts_and_ends h
  have hO := s.origN
  unfold WM.transformTensorBack
  rw [foldl_add_fun _ _ (fun u => (if j = m.orig u then t a i u else 0) + (if i = m.orig u then t a u j else 0) +
    ∑ v ∈ Finset.Ico rows m.n, if i = m.orig u ∧ j = m.orig v then t a u v else 0)]
  · rw [sum_range'_eq, hO, show rows + (m.n - rows) = m.n by omega]
    have split : ∀ f : Nat → ℚ, ∑ u ∈ Finset.range m.n, f u = ∑ u ∈ Finset.range rows, f u + ∑ u ∈ Finset.Ico rows m.n, f u :=
      fun f => (Finset.sum_range_add_sum_Ico f hrn).symm
    have inner : ∀ x k : Nat, k < rows → ∀ g : Nat → ℚ, (∑ v ∈ Finset.range m.n, if m.orig v = k then g v else 0) =
        g k + ∑ v ∈ Finset.Ico rows m.n, if m.orig v = k then g v else 0 := by
      intro x k hk g
      rw [split]
      congr 1
      rw [Finset.sum_eq_single k]
      · simp [hid k hk]
      · intro b hb hne
        rw [hid b (Finset.mem_range.1 hb), if_neg hne]
      · intro hb; exact absurd (Finset.mem_range.2 hk) hb
    have step : ∀ u, (∑ v ∈ Finset.range m.n, if m.orig u = i ∧ m.orig v = j then t a u v else 0) =
        if m.orig u = i then (∑ v ∈ Finset.range m.n, if m.orig v = j then t a u v else 0) else 0 := by
      intro u
      by_cases hu : m.orig u = i <;> simp [hu]
    simp only [step]
    rw [inner 0 i hi, inner 0 j hj, Finset.sum_add_distrib, Finset.sum_add_distrib]
    have e1 : (∑ u ∈ Finset.Ico rows m.n, if m.orig u = i then (∑ v ∈ Finset.range m.n, if m.orig v = j then t a u v else 0) else 0) =
        (∑ u ∈ Finset.Ico rows m.n, if i = m.orig u then t a u j else 0) +
        ∑ u ∈ Finset.Ico rows m.n, ∑ v ∈ Finset.Ico rows m.n, if i = m.orig u ∧ j = m.orig v then t a u v else 0 := by
      rw [← Finset.sum_add_distrib]
      apply Finset.sum_congr rfl
      intro u _
      by_cases hu : m.orig u = i
      · simp only [hu, if_true, true_and]
        rw [inner 0 j hj]
        congr 1
        apply Finset.sum_congr rfl
        intro v _
        by_cases hv : m.orig v = j
        · simp [hv]
        · rw [if_neg hv, if_neg (fun e => hv e.symm)]
      · have : ¬ i = m.orig u := fun e => hu e.symm
        simp [hu, this]
    have e2 : (∑ u ∈ Finset.Ico rows m.n, if j = m.orig u then t a i u else 0) =
        ∑ v ∈ Finset.Ico rows m.n, if m.orig v = j then t a i v else 0 := by
      apply Finset.sum_congr rfl
      intro v _
      by_cases hv : m.orig v = j
      · simp [hv]
      · rw [if_neg hv, if_neg (fun e => hv e.symm)]
    rw [e1, e2]; ring
  · intro u hu r
    rw [foldl_add_fun _ _ (fun v => if i = m.orig u ∧ j = m.orig v then t a u v else 0)]
    · rw [sum_range'_eq, hO, show rows + (m.n - rows) = m.n by omega]
      simp only [hi, hj, and_true]
      by_cases h1 : j = m.orig u <;> by_cases h2 : i = m.orig u <;> simp only [h1, h2, if_true, if_false] <;> ring
    · intro v _ r
      by_cases h1 : i = m.orig u ∧ j = m.orig v
      · simp [h1]
      · simp [h1]

/-- C22, total: mapping back preserves each agent's total. -/
theorem C22_total_preserved (h : WM.make rows cols w starts ends = .ok m) (t : Tensor3) (a : Nat) :
    ∑ i ∈ Finset.range rows, ∑ j ∈ Finset.range rows, m.transformTensorBack t a i j =
      ∑ u ∈ Finset.range m.n, ∑ v ∈ Finset.range m.n, t a u v := by
  obtain ⟨_, _, _, _, _, _, _, _, hlt, _⟩ := C18_own_starts_and_ends h
  have : ∀ i ∈ Finset.range rows, ∀ j ∈ Finset.range rows, m.transformTensorBack t a i j = _ :=
    fun i hi j hj => C22_tensor_mapped_back h t a i j (Finset.mem_range.1 hi) (Finset.mem_range.1 hj)
  rw [Finset.sum_congr rfl fun i hi => Finset.sum_congr rfl fun j hj => this i hi j hj]
  rw [Finset.sum_congr rfl fun i _ => Finset.sum_comm]
  rw [Finset.sum_comm]
  apply Finset.sum_congr rfl
  intro u hu
  rw [Finset.sum_congr rfl fun i _ => Finset.sum_comm]
  rw [Finset.sum_comm]
  apply Finset.sum_congr rfl
  intro v hv
  have hu := hlt u (Finset.mem_range.1 hu)
  have hv := hlt v (Finset.mem_range.1 hv)
  rw [Finset.sum_eq_single (m.orig u)]
  · rw [Finset.sum_eq_single (m.orig v)]
    · simp
    · intro b _ hb; rw [if_neg]; exact fun e => hb e.2.symm
    · intro hb; exact absurd (Finset.mem_range.2 hv) hb
  · intro b _ hb
    apply Finset.sum_eq_zero
    intro c _
    rw [if_neg]; exact fun e => hb e.1.symm
  · intro hb; exact absurd (Finset.mem_range.2 hu) hb

/-! ### Non-vacuity: two agents sharing depot 0 as start and end, dependency 1 → 2 → 3. -/

def depotW : Weights := fun v u => if v = 2 ∧ u = 1 ∨ v = 3 ∧ u = 2 then -1 else (3 * v + u : Nat)

example : (match WM.make 5 5 depotW [0, 0] [0, 4] with
    | .ok m => decide (m.n = 7 ∧ m.starts = [0, 6] ∧ m.ends = [5, 4] ∧ m.toOrig = [0, 0] ∧ m.w 3 1 = -1)
    | .error _ => false) = true := by decide +kernel

example : ValidArgs 5 5 [0, 0] [0, 4] := by unfold ValidArgs; decide
example : ¬ ValidArgs 5 5 [0, 0] [0, 5] := by unfold ValidArgs; decide

end Mtsp
