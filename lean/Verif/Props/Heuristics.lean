import Verif.Proof.NIResult

/-! C23–C27, C56: objective and construction heuristic.

Specification vocabulary (Spec/Cost.lean, Spec/Instance.lean): `pathCost`, `sumCost`, `IsMaxCost`, `IsCover`,
`Before`, `Inst`; `Linked` (Proof/NIResult.lean): the equivalence generated by the dependencies and by the
pairs (start, end) of the agents; `SmallDeltas A N W` (Proof/NearestInsertion.lean): no insertion costs
`DBL_MAX` or more. -/

namespace Mtsp
open Relation

/-- **C23.** Sum mode: the sum of all path lengths. -/
theorem C23_sum_objective (P : Paths) (W : Nat → Weights) : calcObjective .sum P W = sumCost W P := by
  unfold calcObjective
  rw [sumCost_eq]
  simp only [calcPathLength_eq]
  rw [foldl_add_map, zero_add]

theorem foldl_max_spec (l : List Nat) (f : Nat → ℚ) (x : ℚ) :
    let r := l.foldl (fun obj a => max (f a) obj) x
    x ≤ r ∧ (∀ a ∈ l, f a ≤ r) ∧ (r = x ∨ ∃ a ∈ l, r = f a) := by
  induction l generalizing x with
  | nil => simp
  | cons b l ih =>
    simp only [List.foldl_cons]
    obtain ⟨h1, h2, h3⟩ := ih (max (f b) x)
    refine ⟨le_trans (le_max_right _ _) h1, ?_, ?_⟩
    · intro a ha
      rcases List.mem_cons.1 ha with rfl | ha
      · exact le_trans (le_max_left _ _) h1
      · exact h2 a ha
    · rcases h3 with h3 | ⟨a, ha, h3⟩
      · rcases le_total (f b) x with h | h
        · left; rw [h3, max_eq_right h]
        · right; exact ⟨b, by simp, by rw [h3, max_eq_left h]⟩
      · right; exact ⟨a, by simp [ha], h3⟩

/-- **C23.** Max mode: the largest path length, or 0 if no path has positive length. -/
theorem C23_max_objective (P : Paths) (W : Nat → Weights) : IsMaxCost W P (calcObjective .max P W) := by
  unfold calcObjective
  simp only [calcPathLength_eq]
  obtain ⟨h1, h2, h3⟩ := foldl_max_spec (List.range P.length) (fun a => pathCost (W a) (P.getD a [])) 0
  refine ⟨h1, ?_, ?_⟩
  · intro a p hp
    have := h2 a (List.mem_range.2 (List.getElem?_eq_some_iff.1 hp).1)
    simpa [List.getD_eq_getElem?_getD, hp] using this
  · rcases h3 with h3 | ⟨a, ha, h3⟩
    · exact Or.inl h3
    · right
      have ha := List.mem_range.1 ha
      refine ⟨a, P[a], List.getElem?_eq_getElem ha, ?_⟩
      rw [h3]; simp [List.getD_eq_getElem?_getD, ha]

theorem isMaxCost_unique {W : Nat → Weights} {P : Paths} {x y : ℚ} (hx : IsMaxCost W P x) (hy : IsMaxCost W P y) : x = y := by
  have key : ∀ {x y : ℚ}, IsMaxCost W P x → IsMaxCost W P y → x ≤ y := by
    intro x y hx hy
    rcases hx.2.2 with h | ⟨a, p, hp, h⟩
    · rw [h]; exact hy.1
    · rw [← h]; exact hy.2.1 a p hp
  exact le_antisymm (key hx hy) (key hy hx)

variable {rows cols : Nat} {w : Weights} {starts ends : List Nat} {m : WM}

theorem WM.arcs_iff (h : WM.make rows cols w starts ends = .ok m) (u v : Nat) : (u, v) ∈ m.deps.arcs ↔ DepIn m.n m.w u v := by
  rw [(WM.make_ok h).1.deps]; exact mem_arcs m.n m.w u v

/-- **C56.** For every accepted instance the topological sort succeeds, and the processing order (its
reverse) lists every node exactly once and every node after all its predecessors. -/
theorem C56_processing_order (h : WM.make rows cols w starts ends = .ok m) :
    ∃ d, topologicalSort m.n (niArcs m.starts m.ends m.deps) = .ok d ∧ d.reverse.Perm (List.range m.n) ∧
      (∀ u v, DepIn m.n m.w u v → Before d.reverse u v) ∧
      (∀ (a : Nat) (u v : Nat), m.starts[a]? = some u → m.ends[a]? = some v → Before d.reverse u v) :=
  ni_order (WM.inst h) (WM.arcs_iff h)

/-! ### what a completed construction looks like -/

theorem flatMap_paths_perm (l : List Nat) (s e : Nat → Nat) (I : Nat → List Nat) :
    (l.flatMap fun a => s a :: I a ++ [e a]).Perm (l.map s ++ l.map e ++ l.flatMap I) := by
  induction l with
  | nil => simp
  | cons a l ih =>
    simp only [List.flatMap_cons, List.map_cons, List.cons_append]
    refine List.Perm.cons _ ?_
    refine (List.Perm.append_left _ ih).trans ?_
    have e1 : (I a ++ [e a] ++ (l.map s ++ l.map e ++ l.flatMap I)).Perm
        (e a :: (I a ++ (l.map s ++ l.map e ++ l.flatMap I))) := by
      simp only [List.append_assoc, List.singleton_append]; exact List.perm_middle
    refine e1.trans ?_
    have e2 : (l.map s ++ e a :: l.map e ++ (I a ++ l.flatMap I)).Perm
        (e a :: (l.map s ++ l.map e ++ (I a ++ l.flatMap I))) := by
      simp only [List.append_assoc, List.cons_append]; exact List.perm_middle
    refine List.Perm.trans ?_ e2.symm
    refine List.Perm.cons _ ?_
    have e3 := (List.perm_append_comm (l₁ := I a) (l₂ := l.map s ++ l.map e)).append_right (l.flatMap I)
    simpa only [List.append_assoc] using e3

theorem map_getD_range (l : List Nat) : (List.range l.length).map (l.getD · 0) = l := by
  apply List.ext_getElem
  · simp
  · intro i h1 h2
    have : i < l.length := by simpa using h1
    simp [List.getD_eq_getElem?_getD, this]

theorem NIDone.cover {mode : Mode} {W : Nat → Weights} {N : Nat} {starts ends : List Nat} {comp : Nat → Nat} {ord : List Nat}
    {P : Paths} {obj : ℚ} {D : Nat → Nat → Prop} (hi : Inst N starts ends D) (hord : ord.Perm (List.range N))
    (h : NIDone mode W N starts ends comp ord P obj) : IsCover N starts ends P := by
  obtain ⟨c, I, inv, rfl, _⟩ := h.ex
  rw [inv.paths]
  refine ⟨by simp, ?_, ?_, ?_⟩
  · intro a p hp
    obtain ⟨ha, rfl⟩ := List.getElem?_eq_some_iff.1 hp
    simp at ha
    simp [List.getD_eq_getElem?_getD, ha]
  · intro a p hp
    obtain ⟨ha, rfl⟩ := List.getElem?_eq_some_iff.1 hp
    simp at ha
    have ha' : a < ends.length := hi.lenEq ▸ ha
    simp only [List.getElem_map, List.getElem_range, List.getLast?_append, List.getLast?_singleton, Option.some_or]
    simp [List.getD_eq_getElem?_getD, ha']
  · rw [← List.flatMap_def]
    refine (flatMap_paths_perm _ _ _ _).trans ?_
    rw [map_getD_range]
    have : (List.range starts.length).map (ends.getD · 0) = ends := by rw [hi.lenEq]; exact map_getD_range ends
    rw [this]
    refine (List.Perm.append_left _ inv.perm).trans ?_
    have hnd : ord.Nodup := hord.nodup_iff.2 List.nodup_range
    rw [List.perm_ext_iff_of_nodup ?_ List.nodup_range]
    · intro x
      simp only [List.mem_append, List.mem_filter, decide_eq_true_eq, hord.mem_iff]
      constructor
      · rintro ((hx | hx) | ⟨hx, _⟩)
        · exact List.mem_range.2 (hi.lt x (List.mem_append_left _ hx))
        · exact List.mem_range.2 (hi.lt x (List.mem_append_right _ hx))
        · exact hx
      · intro hx
        by_cases h1 : x ∈ starts
        · exact Or.inl (Or.inl h1)
        · by_cases h2 : x ∈ ends
          · exact Or.inl (Or.inr h2)
          · exact Or.inr ⟨hx, h1, h2⟩
    · refine List.Nodup.append hi.nodup (hnd.filter _) ?_
      intro x hx hx'
      simp only [List.mem_filter, decide_eq_true_eq] at hx'
      rcases List.mem_append.1 hx with hx | hx
      · exact hx'.2.1 hx
      · exact hx'.2.2 hx

theorem CoreInv.getElem {A : Nat} {s e comp : Nat → Nat} {done : List Nat} {c : NICore} {I : Nat → List Nat}
    (h : CoreInv A s e comp done c I) {a : Nat} {p : List Nat} (hp : c.paths[a]? = some p) :
    a < A ∧ p = s a :: I a ++ [e a] := by
  rw [h.paths] at hp
  obtain ⟨ha, rfl⟩ := List.getElem?_eq_some_iff.1 hp
  simp at ha
  exact ⟨ha, by simp⟩

theorem CoreInv.comp_agent {A : Nat} {s e comp : Nat → Nat} {done : List Nat} {c : NICore} {I : Nat → List Nat}
    (h : CoreInv A s e comp done c I) (hse : ∀ a, a < A → comp (e a) = comp (s a)) {a : Nat} (ha : a < A) {x : Nat}
    (hx : x ∈ s a :: I a ++ [e a]) : c.c2a (comp x) = a := by
  simp only [List.cons_append, List.mem_cons, List.mem_append, List.not_mem_nil, or_false] at hx
  rcases hx with rfl | hx | rfl
  · exact h.own a ha
  · exact h.at_ a ha x hx
  · rw [hse a ha]; exact h.own a ha

section NI
variable {mode : Mode} {W : Nat → Weights} {t t' : Nat} {P : Paths} {obj : ℚ}

/-- the possible outcomes, in terms of the specification only -/
theorem ni_outcome (h : WM.make rows cols w starts ends = .ok m) (hW : SmallDeltas m.starts.length m.n W) (t : Nat) :
    (nearestInsertion mode W m.n m.starts m.ends m.deps t = .error .incompatible ∧
      ∃ a b s s' : Nat, a < b ∧ m.starts[a]? = some s ∧ m.starts[b]? = some s' ∧ Linked m.starts m.ends (DepIn m.n m.w) s s') ∨
    ((∀ a b s s' : Nat, a < b → m.starts[a]? = some s → m.starts[b]? = some s' → ¬ Linked m.starts m.ends (DepIn m.n m.w) s s') ∧
      (t < m.n → nearestInsertion mode W m.n m.starts m.ends m.deps t = .ok (([], 0), 0)) ∧
      (m.n ≤ t → ∃ P obj ord, nearestInsertion mode W m.n m.starts m.ends m.deps t = .ok ((P, obj), t - m.n) ∧
        ord.Perm (List.range m.n) ∧ (∀ u v, DepIn m.n m.w u v → Before ord u v) ∧
        NIDone mode W m.n m.starts m.ends (componentIds (niArcs m.starts m.ends m.deps)) ord P obj ∧
        topologicalSort m.n (niArcs m.starts m.ends m.deps) = .ok ord.reverse)) := by
  have hl := comp_iff_linked (starts := m.starts) (ends := m.ends) (WM.arcs_iff h)
  have hg : ∀ (a s : Nat), m.starts[a]? = some s → m.starts.getD a 0 = s := by
    intro a s hs; rw [List.getD_eq_getElem?_getD, hs]; rfl
  rcases ni_main (mode := mode) (WM.inst h) (WM.arcs_iff h) hW t with ⟨⟨a, b, hab, hb, he⟩, hr⟩ | ⟨hne, h1, h2⟩
  · left
    refine ⟨hr, a, b, m.starts.getD a 0, m.starts.getD b 0, hab, ?_, ?_, (hl _ _).1 he⟩
    · simp [List.getD_eq_getElem?_getD, show a < m.starts.length by omega]
    · simp [List.getD_eq_getElem?_getD, hb]
  · right
    refine ⟨?_, h1, h2⟩
    intro a b s s' hab hs hs' hlk
    have := hne a b hab (List.getElem?_eq_some_iff.1 hs').1
    rw [hg a s hs, hg b s' hs'] at this
    exact this ((hl _ _).2 hlk)

/-- **C24.** If the deadline is not hit, an accepted result is one path per agent from its start to its
end, every node on exactly one path exactly once; otherwise the result is empty.  Nothing else can happen
apart from the `Incompatible` error of C25. -/
theorem C24_construction_covers (h : WM.make rows cols w starts ends = .ok m) (hW : SmallDeltas m.starts.length m.n W)
    (hr : nearestInsertion mode W m.n m.starts m.ends m.deps t = .ok ((P, obj), t')) :
    (m.n ≤ t → IsCover m.n m.starts m.ends P) ∧ (t < m.n → P = [] ∧ obj = 0) := by
  rcases ni_outcome (mode := mode) h hW t with ⟨he, _⟩ | ⟨_, h1, h2⟩
  · rw [he] at hr; simp at hr
  · constructor
    · intro ht
      obtain ⟨P', obj', ord, e, hp, _, hd, _⟩ := h2 ht
      rw [e] at hr; simp at hr; obtain ⟨⟨rfl, rfl⟩, _⟩ := hr
      exact hd.cover (WM.inst h) hp
    · intro ht; rw [h1 ht] at hr; simp at hr; exact ⟨hr.1.1, hr.1.2.symm⟩

/-- **C25.** The only error is `Incompatible`, and it is reported exactly when two agents are tied together
by the dependencies. -/
theorem C25_incompatible_iff (h : WM.make rows cols w starts ends = .ok m) (hW : SmallDeltas m.starts.length m.n W) (e : Err) :
    nearestInsertion mode W m.n m.starts m.ends m.deps t = .error e ↔
      e = .incompatible ∧ ∃ a b s s' : Nat, a < b ∧ m.starts[a]? = some s ∧ m.starts[b]? = some s' ∧
        Linked m.starts m.ends (DepIn m.n m.w) s s' := by
  rcases ni_outcome (mode := mode) h hW t with ⟨he, hex⟩ | ⟨hne, h1, h2⟩
  · rw [he]; simp only [Except.error.injEq]
    exact ⟨fun h => ⟨h.symm, hex⟩, fun h => h.1.symm⟩
  · constructor
    · intro hr
      by_cases ht : t < m.n
      · rw [h1 ht] at hr; simp at hr
      · obtain ⟨P', obj', ord, e', _⟩ := h2 (by omega)
        rw [e'] at hr; simp at hr
    · rintro ⟨_, a, b, s, s', hab, hs, hs', hl⟩
      exact absurd hl (hne a b s s' hab hs hs')

theorem NIDone.together (h : WM.make rows cols w starts ends = .ok m) {ord : List Nat} (hp : ord.Perm (List.range m.n))
    (hd : NIDone mode W m.n m.starts m.ends (componentIds (niArcs m.starts m.ends m.deps)) ord P obj) :
    (∀ (a b : Nat) (p q : List Nat) (u v : Nat), P[a]? = some p → P[b]? = some q → u ∈ p → v ∈ q →
      Linked m.starts m.ends (DepIn m.n m.w) u v → a = b) ∧ Grouped (DepIn m.n m.w) P := by
  have hcov := hd.cover (WM.inst h) hp
  have hl := comp_iff_linked (starts := m.starts) (ends := m.ends) (WM.arcs_iff h)
  obtain ⟨c, I, inv, rfl, _⟩ := hd.ex
  have hi := WM.inst h
  have hse : ∀ a, a < m.starts.length → componentIds (niArcs m.starts m.ends m.deps) (m.ends.getD a 0) =
      componentIds (niArcs m.starts m.ends m.deps) (m.starts.getD a 0) := by
    intro a ha
    refine (hl _ _).2 (EqvGen.symm _ _ (EqvGen.rel _ _ (Or.inr ⟨a, ?_, ?_⟩)))
    · simp [List.getD_eq_getElem?_getD, ha]
    · simp [List.getD_eq_getElem?_getD, hi.lenEq ▸ ha]
  have key : ∀ (a b : Nat) (p q : List Nat) (u v : Nat), c.paths[a]? = some p → c.paths[b]? = some q → u ∈ p → v ∈ q →
      Linked m.starts m.ends (DepIn m.n m.w) u v → a = b := by
    intro a b p q u v ha hb hu hv hlk
    obtain ⟨ha', rfl⟩ := inv.getElem ha
    obtain ⟨hb', rfl⟩ := inv.getElem hb
    have e1 := inv.comp_agent hse ha' hu
    have e2 := inv.comp_agent hse hb' hv
    rw [(hl u v).2 hlk] at e1
    omega
  refine ⟨key, ?_⟩
  intro u v hD
  obtain ⟨hu, hv⟩ := hi.dlt u v hD
  obtain ⟨p, hp, hup⟩ := List.mem_flatten.1 (hcov.perm.mem_iff.2 (List.mem_range.2 hu))
  obtain ⟨q, hq, hvq⟩ := List.mem_flatten.1 (hcov.perm.mem_iff.2 (List.mem_range.2 hv))
  obtain ⟨a, ha⟩ := List.mem_iff_getElem?.1 hp
  obtain ⟨b, hb⟩ := List.mem_iff_getElem?.1 hq
  have := key a b p q u v ha hb hup hvq (EqvGen.rel _ _ (Or.inl hD))
  subst this
  rw [ha] at hb; simp at hb; subst hb
  exact ⟨p, hp, hup, hvq⟩

/-- **C25.** Linked nodes — in particular the two nodes of a dependency — end up on the same path. -/
theorem C25_linked_nodes_together (h : WM.make rows cols w starts ends = .ok m) (hW : SmallDeltas m.starts.length m.n W)
    (hr : nearestInsertion mode W m.n m.starts m.ends m.deps t = .ok ((P, obj), t')) (ht : m.n ≤ t) :
    (∀ (a b : Nat) (p q : List Nat) (u v : Nat), P[a]? = some p → P[b]? = some q → u ∈ p → v ∈ q →
      Linked m.starts m.ends (DepIn m.n m.w) u v → a = b) ∧
    Grouped (DepIn m.n m.w) P := by
  rcases ni_outcome (mode := mode) h hW t with ⟨he, _⟩ | ⟨_, _, h2⟩
  · rw [he] at hr; simp at hr
  obtain ⟨P', obj', ord, e, hp, _, hd, _⟩ := h2 ht
  rw [e] at hr; simp at hr; obtain ⟨⟨rfl, rfl⟩, _⟩ := hr
  exact hd.together h hp

/-- **C26, exactly which dependencies can be violated.** A dependency is respected, unless a node `x` that is not linked with its
nodes was inserted after `u` and before `v`, and into `u`'s path before `u`.  The nodes are inserted in the order `d.reverse`. -/
theorem C26_violations_partial (h : WM.make rows cols w starts ends = .ok m) (hW : SmallDeltas m.starts.length m.n W)
    (hr : nearestInsertion mode W m.n m.starts m.ends m.deps t = .ok ((P, obj), t')) (ht : m.n ≤ t)
    {d : List Nat} (hs : topologicalSort m.n (niArcs m.starts m.ends m.deps) = .ok d)
    (u v : Nat) (hD : DepIn m.n m.w u v) (p : List Nat) (hp : p ∈ P) (hu : u ∈ p) :
    Before p u v ∨ ∃ x ∈ p, x ∉ m.starts ++ m.ends ∧ ¬ Linked m.starts m.ends (DepIn m.n m.w) x u ∧ Before p x u ∧
      Before d.reverse u x ∧ Before d.reverse x v := by
  have htog := C25_linked_nodes_together h hW hr ht
  have hcov := (C24_construction_covers h hW hr).1 ht
  have hi := WM.inst h
  have hv : v ∈ p := by
    obtain ⟨q, hq, hvq⟩ := List.mem_flatten.1 (hcov.perm.mem_iff.2 (List.mem_range.2 (hi.dlt u v hD).2))
    obtain ⟨a, ha⟩ := List.mem_iff_getElem?.1 hp
    obtain ⟨b, hb⟩ := List.mem_iff_getElem?.1 hq
    have := htog.1 a b p q u v ha hb hu hvq (EqvGen.rel _ _ (Or.inl hD))
    subst this
    rw [ha] at hb; simp at hb; subst hb; exact hvq
  rcases ni_outcome (mode := mode) h hW t with ⟨he, _⟩ | ⟨_, _, h2⟩
  · rw [he] at hr; simp at hr
  obtain ⟨P', obj', ord, e, hperm, hbef, hd, hsrt⟩ := h2 ht
  rw [hs] at hsrt; simp only [Except.ok.injEq] at hsrt
  rw [e] at hr; simp at hr; obtain ⟨⟨rfl, rfl⟩, _⟩ := hr
  have hl := comp_iff_linked (starts := m.starts) (ends := m.ends) (WM.arcs_iff h)
  obtain ⟨c, I, inv, rfl, _⟩ := hd.ex
  obtain ⟨a, ha⟩ := List.mem_iff_getElem?.1 hp
  obtain ⟨haA, rfl⟩ := inv.getElem ha
  have hsa : m.starts.getD a 0 ∈ m.starts := by simp [List.getD_eq_getElem?_getD, haA]
  have hea : m.ends.getD a 0 ∈ m.ends := by simp [List.getD_eq_getElem?_getD, hi.lenEq ▸ haA]
  have hvs : v ∉ m.starts := fun hvs => hi.noIn v hvs u hD
  have hue : u ∉ m.ends := fun hue => hi.noOut u hue v hD
  have hIin : ∀ x ∈ I a, x ∉ m.starts ∧ x ∉ m.ends := by
    intro x hx
    have := inv.perm.subset (List.mem_flatMap.2 ⟨a, List.mem_range.2 haA, hx⟩)
    simpa using (List.mem_filter.1 this).2
  have hv' : v ∈ I a ++ [m.ends.getD a 0] := by
    simp only [List.cons_append, List.mem_cons] at hv
    rcases hv with rfl | hv
    · exact absurd hsa hvs
    · exact hv
  have hu' : u ∈ m.starts.getD a 0 :: I a := by
    rw [List.mem_append] at hu
    rcases hu with hu | hu
    · exact hu
    · rw [List.mem_singleton.1 hu] at hue; exact absurd hea hue
  by_cases hus : u = m.starts.getD a 0
  · left; rw [hus]; simp only [List.cons_append]; exact before_cons hv'
  by_cases hve : v = m.ends.getD a 0
  · left; rw [hve]; exact before_snoc hu'
  have huI : u ∈ I a := by
    rcases List.mem_cons.1 hu' with h | h
    · exact absurd h hus
    · exact h
  have hvI : v ∈ I a := by
    rcases List.mem_append.1 hv' with h | h
    · exact h
    · exact absurd (List.mem_singleton.1 h) hve
  have hsubI : (I a).Sublist (m.starts.getD a 0 :: I a ++ [m.ends.getD a 0]) :=
    (List.sublist_cons_self _ _).trans (List.sublist_append_left _ _)
  have hond : ord.Nodup := hperm.nodup_iff.2 List.nodup_range
  have hord : d.reverse = ord := by rw [hsrt, List.reverse_reverse]
  -- the inner nodes in the order in which they are inserted
  obtain ⟨o1, o2, o3, ho⟩ := hbef u v hD
  have hfu : decide (u ∉ m.starts ∧ u ∉ m.ends) = true := by simpa using hIin u huI
  have hfv : decide (v ∉ m.starts ∧ v ∉ m.ends) = true := by simpa using hIin v hvI
  by_contra hcon
  push Not at hcon
  obtain ⟨hnb, hcon⟩ := hcon
  refine hnb ((inv.pair (hond.filter _) a haA u huI v hvI ((hl u v).2 (EqvGen.rel _ _ (Or.inl hD)))
    (o1.filter fun n => decide (n ∉ m.starts ∧ n ∉ m.ends)) (o2.filter fun n => decide (n ∉ m.starts ∧ n ∉ m.ends))
    (o3.filter fun n => decide (n ∉ m.starts ∧ n ∉ m.ends)) ?_ ?_).of_sublist hsubI)
  · rw [ho, List.filter_append, List.filter_append, List.filter_cons, List.filter_cons, if_pos hfu, if_pos hfv]
  · intro x hx hxI hcx hbx
    have hx2 := (List.mem_filter.1 hx).1
    obtain ⟨q1, q2, rfl⟩ := List.append_of_mem hx2
    refine hcon x (hsubI.subset hxI) (by have := hIin x hxI; simp [this]) (fun hlk => hcx ((hl x u).2 hlk)) (hbx.of_sublist hsubI) ?_ ?_
    · rw [hord, ho]; exact ⟨o1, q1, q2 ++ v :: o3, by simp⟩
    · rw [hord, ho]; exact ⟨o1 ++ u :: q1, q2, o3, by simp⟩

/-- **C26 (partial).** A dependency is respected
* if it starts at an agent's start or ends at an agent's end, and
* if all inner nodes of the path its nodes are on are linked with each other.
In general the order can be violated: `C26_refuted`. -/
theorem C26_order_partial (h : WM.make rows cols w starts ends = .ok m) (hW : SmallDeltas m.starts.length m.n W)
    (hr : nearestInsertion mode W m.n m.starts m.ends m.deps t = .ok ((P, obj), t')) (ht : m.n ≤ t)
    (u v : Nat) (hD : DepIn m.n m.w u v) (p : List Nat) (hp : p ∈ P) (hu : u ∈ p)
    (hc : u ∈ m.starts ∨ v ∈ m.ends ∨
      ∀ x ∈ p, ∀ y ∈ p, x ∉ m.starts ++ m.ends → y ∉ m.starts ++ m.ends → Linked m.starts m.ends (DepIn m.n m.w) x y) :
    Before p u v := by
  have htog := C25_linked_nodes_together h hW hr ht
  have hcov := (C24_construction_covers h hW hr).1 ht
  have hi := WM.inst h
  have hv : v ∈ p := by
    obtain ⟨q, hq, hvq⟩ := List.mem_flatten.1 (hcov.perm.mem_iff.2 (List.mem_range.2 (hi.dlt u v hD).2))
    obtain ⟨a, ha⟩ := List.mem_iff_getElem?.1 hp
    obtain ⟨b, hb⟩ := List.mem_iff_getElem?.1 hq
    have := htog.1 a b p q u v ha hb hu hvq (EqvGen.rel _ _ (Or.inl hD))
    subst this
    rw [ha] at hb; simp at hb; subst hb; exact hvq
  have hne : u ≠ v := by rintro rfl; exact hi.acyclic u (.single hD)
  have hnd : P.flatten.Nodup := hcov.perm.nodup_iff.2 List.nodup_range
  have hpnd : p.Nodup := (List.nodup_flatten.1 hnd).1 p hp
  rcases ni_outcome (mode := mode) h hW t with ⟨he, _⟩ | ⟨_, _, h2⟩
  · rw [he] at hr; simp at hr
  obtain ⟨P', obj', ord, e, hperm, hbef, hd, _⟩ := h2 ht
  rw [e] at hr; simp at hr; obtain ⟨⟨rfl, rfl⟩, _⟩ := hr
  have hl := comp_iff_linked (starts := m.starts) (ends := m.ends) (WM.arcs_iff h)
  obtain ⟨c, I, inv, rfl, _⟩ := hd.ex
  obtain ⟨a, ha⟩ := List.mem_iff_getElem?.1 hp
  obtain ⟨haA, rfl⟩ := inv.getElem ha
  have hsa : m.starts.getD a 0 ∈ m.starts := by simp [List.getD_eq_getElem?_getD, haA]
  have hea : m.ends.getD a 0 ∈ m.ends := by simp [List.getD_eq_getElem?_getD, hi.lenEq ▸ haA]
  have hvs : v ∉ m.starts := fun hvs => hi.noIn v hvs u hD
  have hue : u ∉ m.ends := fun hue => hi.noOut u hue v hD
  have hIin : ∀ x ∈ I a, x ∉ m.starts ∧ x ∉ m.ends := by
    intro x hx
    have := inv.perm.subset (List.mem_flatMap.2 ⟨a, List.mem_range.2 haA, hx⟩)
    simpa using (List.mem_filter.1 this).2
  -- `v` is not the first, `u` not the last node
  have hv' : v ∈ I a ++ [m.ends.getD a 0] := by
    simp only [List.cons_append, List.mem_cons] at hv
    rcases hv with rfl | hv
    · exact absurd hsa hvs
    · exact hv
  have hu' : u ∈ m.starts.getD a 0 :: I a := by
    rw [List.mem_append] at hu
    rcases hu with hu | hu
    · exact hu
    · rw [List.mem_singleton.1 hu] at hue; exact absurd hea hue
  by_cases hus : u = m.starts.getD a 0
  · rw [hus]; simp only [List.cons_append]; exact before_cons hv'
  by_cases hve : v = m.ends.getD a 0
  · rw [hve]; exact before_snoc hu'
  have huI : u ∈ I a := by
    rcases List.mem_cons.1 hu' with h | h
    · exact absurd h hus
    · exact h
  have hvI : v ∈ I a := by
    rcases List.mem_append.1 hv' with h | h
    · exact h
    · exact absurd (List.mem_singleton.1 h) hve
  rcases hc with hc | hc | hc
  · exact absurd hc (hIin u huI).1
  · exact absurd hc (hIin v hvI).2
  have hhom : ∀ x ∈ I a, ∀ y ∈ I a, componentIds (niArcs m.starts m.ends m.deps) x = componentIds (niArcs m.starts m.ends m.deps) y := by
    intro x hx y hy
    refine (hl x y).2 (hc x (by simp [hx]) y (by simp [hy]) ?_ ?_)
    · have := hIin x hx; simp [this]
    · have := hIin y hy; simp [this]
  obtain ⟨hsub, _⟩ := inv.order a haA hhom
  have hsubo : (I a).Sublist ord := hsub.trans (List.filter_sublist)
  have hond : ord.Nodup := hperm.nodup_iff.2 List.nodup_range
  have hbI : Before (I a) u v := by
    rcases before_total (hond.sublist hsubo) huI hvI hne with hb | hb
    · exact hb
    · exact absurd (hb.of_sublist hsubo) (fun h => Before.asymm hond h (hbef u v hD))
  refine hbI.of_sublist ?_
  exact ((List.sublist_cons_self _ _).trans (List.sublist_append_left _ _))

/-- **C27.** The objective returned with the constructed paths is the sum of their lengths (Sum),
respectively the largest of their lengths (Max), measured with the weights used for the construction. -/
theorem C27_reported_objective (h : WM.make rows cols w starts ends = .ok m) (hW : SmallDeltas m.starts.length m.n W)
    (hr : nearestInsertion mode W m.n m.starts m.ends m.deps t = .ok ((P, obj), t')) (ht : m.n ≤ t) :
    match mode with
    | .sum => obj = sumCost W P
    | .max => (∃ a p, P[a]? = some p ∧ obj = pathCost (W a) p) ∧
        ∀ a p, P[a]? = some p → pathCost (W a) p ≤ obj := by
  rcases ni_outcome (mode := mode) h hW t with ⟨he, _⟩ | ⟨_, _, h2⟩
  · rw [he] at hr; simp at hr
  obtain ⟨P', obj', ord, e, hperm, hbef, hd, _⟩ := h2 ht
  rw [e] at hr; simp at hr; obtain ⟨⟨rfl, rfl⟩, _⟩ := hr
  obtain ⟨c, I, inv, rfl, hobj⟩ := hd.ex
  have hlen : c.paths.length = m.starts.length := by rw [inv.paths]; simp
  cases mode with
  | sum =>
    dsimp only at hobj ⊢
    rw [hobj, sumCost_eq, hlen]
    congr 1
    apply List.map_congr_left
    intro a ha
    rw [inv.path (List.mem_range.1 ha)]
  | max =>
    dsimp only at hobj ⊢
    obtain ⟨l, h1, hl1, hl2⟩ := hobj
    refine ⟨⟨l, _, ?_, h1⟩, ?_⟩
    · rw [inv.paths]; simp [hl1]
    · intro a p hp
      obtain ⟨ha, rfl⟩ := inv.getElem hp
      rw [h1]; exact hl2 a ha

/-- C27, consequence: it is what `CalculateObjective` computes for these paths, provided (Max) that some
path has non-negative length. -/
theorem C27_agrees_with_objective (h : WM.make rows cols w starts ends = .ok m) (hW : SmallDeltas m.starts.length m.n W)
    (hr : nearestInsertion mode W m.n m.starts m.ends m.deps t = .ok ((P, obj), t')) (ht : m.n ≤ t)
    (hpos : mode = .sum ∨ ∃ a p, P[a]? = some p ∧ 0 ≤ pathCost (W a) p) : obj = calcObjective mode P W := by
  have := C27_reported_objective h hW hr ht
  cases mode with
  | sum => rw [C23_sum_objective]; exact this
  | max =>
    dsimp only at this
    obtain ⟨⟨a, p, hp, e⟩, hall⟩ := this
    refine isMaxCost_unique ?_ (C23_max_objective P W)
    refine ⟨?_, hall, Or.inr ⟨a, p, hp, e.symm⟩⟩
    rcases hpos with hpos | ⟨b, q, hq, h0⟩
    · simp at hpos
    · exact le_trans h0 (hall b q hq)

end NI

/-! ### C26 is false in full -/

/-- five nodes, start 0, end 4, node 3 before node 1, all weights 0 -/
def c26W : Weights := fun v u => if v = 1 ∧ u = 3 then -1 else 0

/-- an `Except` outcome tested by a Boolean predicate -/
def testOk {α : Type} (x : Except Err α) (f : α → Bool) : Bool :=
  match x with
  | .ok a => f a
  | .error _ => false

theorem testOk_iff {α : Type} {x : Except Err α} {f : α → Bool} (h : testOk x f = true) : ∃ a, x = .ok a ∧ f a = true := by
  cases x with
  | ok a => exact ⟨a, rfl, h⟩
  | error e => simp [testOk] at h

/-- **C26 is false in full**: on this instance the construction puts node 1 before node 3. -/
theorem C26_refuted : ∃ (rows : Nat) (w : Weights) (starts ends : List Nat) (m : WM) (P : Paths) (obj : ℚ) (t t' u v : Nat),
    WM.make rows rows w starts ends = .ok m ∧ m.n ≤ t ∧ SmallDeltas m.starts.length m.n (fun _ => m.w) ∧
    nearestInsertion .sum (fun _ => m.w) m.n m.starts m.ends m.deps t = .ok ((P, obj), t') ∧
    DepIn m.n m.w u v ∧ ∀ p ∈ P, ¬ Before p u v := by
  have key : testOk (WM.make 5 5 c26W [0] [4]) (fun m =>
      decide (m.n = 5 ∧ m.w 1 3 = -1 ∧ (∀ i ∈ List.range 5, ∀ j ∈ List.range 5, m.w i j = 0 ∨ m.w i j = -1)) &&
      testOk (nearestInsertion .sum (fun _ => m.w) m.n m.starts m.ends m.deps 5)
        (fun r => decide (r.1 = ([[0, 2, 1, 3, 4]], -1)))) = true := by decide +kernel
  obtain ⟨m, hm, k⟩ := testOk_iff key
  rw [Bool.and_eq_true] at k
  obtain ⟨k1, k2⟩ := k
  obtain ⟨hn, hw, hw2⟩ := of_decide_eq_true k1
  obtain ⟨⟨r, t'⟩, hr, k3⟩ := testOk_iff k2
  have k3 := of_decide_eq_true k3
  dsimp only at k3
  subst k3
  refine ⟨5, c26W, [0], [4], m, [[0, 2, 1, 3, 4]], -1, 5, t', 3, 1, hm, by omega, ?_, hr,
    ⟨by omega, by omega, hw⟩, ?_⟩
  · rintro a i j k _ hi hj hk
    have b : ∀ i j, i < m.n → j < m.n → -1 ≤ m.w i j ∧ m.w i j ≤ 0 := by
      intro i j hi hj
      rcases hw2 i (List.mem_range.2 (by omega)) j (List.mem_range.2 (by omega)) with h | h <;> rw [h] <;> norm_num
    have b1 := b i k hi hk
    have b2 := b k j hk hj
    have b3 := b i j hi hj
    dsimp only
    have : (1 : ℚ) < dblMax := one_lt_dblMax
    linarith
  · intro p hp hb
    rw [List.mem_singleton.1 hp, before_iff_idxOf (by decide)] at hb
    revert hb; decide

/-! Non-vacuity: two agents with a shared depot, six nodes, dependencies 3 before 1 and 1 before 5. -/

def niExW : Weights := fun v u => if (v = 1 ∧ u = 3) ∨ (v = 5 ∧ u = 1) then -1 else v + 2 * u

example : testOk (WM.make 6 6 niExW [0, 0] [0, 4]) (fun m =>
    decide (m.n = 8) &&
    testOk (nearestInsertion .max (fun _ => m.w) m.n m.starts m.ends m.deps 8) (fun r =>
      decide (r.1.1 = [[0, 3, 1, 5, 6], [7, 2, 4]]))) = true := by decide +kernel

/-- as `c26W`, but the way from the start to node 2 costs something: node 2 is inserted between 3 and 1, but behind 3 -/
def c26V : Weights := fun v u => if v = 1 ∧ u = 3 then -1 else if v = 0 ∧ u = 2 then 2 else 0

/-- `C26_violations_partial` shows that the dependency is respected, on a path with a node that is not linked with it -/
example : ∃ (m : WM) (P : Paths) (obj : ℚ) (t' : Nat), WM.make 5 5 c26V [0] [4] = .ok m ∧
    nearestInsertion .sum (fun _ => m.w) m.n m.starts m.ends m.deps 5 = .ok ((P, obj), t') ∧ P = [[0, 3, 1, 2, 4]] ∧
    ∀ p ∈ P, Before p 3 1 := by
  have key : testOk (WM.make 5 5 c26V [0] [4]) (fun m =>
      decide (m.n = 5 ∧ m.starts = [0] ∧ m.ends = [4] ∧ m.w 1 3 = -1 ∧ ∀ i ∈ List.range 5, ∀ j ∈ List.range 5, -1 ≤ m.w i j ∧ m.w i j ≤ 2) &&
      testOk (topologicalSort m.n (niArcs m.starts m.ends m.deps)) (fun d => decide (d = [4, 0, 1, 2, 3])) &&
      testOk (nearestInsertion .sum (fun _ => m.w) m.n m.starts m.ends m.deps 5) (fun r => decide (r.1.1 = [[0, 3, 1, 2, 4]]))) = true := by
    decide +kernel
  obtain ⟨m, hm, k⟩ := testOk_iff key
  rw [Bool.and_eq_true, Bool.and_eq_true] at k
  obtain ⟨⟨k1, k2⟩, k3⟩ := k
  obtain ⟨hn, _, _, hw, hw2⟩ := of_decide_eq_true k1
  obtain ⟨d, hd, k2⟩ := testOk_iff k2
  have k2 := of_decide_eq_true k2
  obtain ⟨⟨⟨P, obj⟩, t'⟩, hr, k3⟩ := testOk_iff k3
  have k3 : P = [[0, 3, 1, 2, 4]] := of_decide_eq_true k3
  subst k2 k3
  refine ⟨m, _, obj, t', hm, hr, rfl, ?_⟩
  intro p hp
  have hW : SmallDeltas m.starts.length m.n (fun _ => m.w) := by
    rintro a i j k _ hi hj hk
    have b : ∀ i j, i < m.n → j < m.n → -1 ≤ m.w i j ∧ m.w i j ≤ 2 :=
      fun i j hi hj => hw2 i (List.mem_range.2 (by omega)) j (List.mem_range.2 (by omega))
    have b1 := b i k hi hk
    have b2 := b k j hk hj
    have b3 := b i j hi hj
    have : (10 : ℚ) < dblMax := by
      have h2 : (10 : ℚ) < 2 ^ 53 - 1 := by norm_num
      have h3 : (1 : ℚ) ≤ 2 ^ 971 := one_le_pow₀ (by norm_num)
      unfold dblMax
      generalize (2 : ℚ) ^ 971 = b at h3 ⊢
      generalize (2 : ℚ) ^ 53 - 1 = c at h2 ⊢
      nlinarith
    dsimp only
    linarith [b1.2, b2.2, b3.1]
  have hp' : p = [0, 3, 1, 2, 4] := by simpa using hp
  rcases C26_violations_partial hm hW hr (by omega) hd 3 1 ⟨by omega, by omega, hw⟩ p hp (by rw [hp']; simp) with h | ⟨x, _, hx, _, hb, _, _⟩
  · exact h
  · exfalso
    rw [hp', before_iff_idxOf (by decide)] at hb
    have hx0 : x = 0 := by
      have hxm : x ∈ [0, 3, 1, 2, 4] := hb.1
      have : ∀ y ∈ [0, 3, 1, 2, 4], List.idxOf y [0, 3, 1, 2, 4] < 1 → y = 0 := by decide
      exact this x hxm (by have := hb.2.2; simpa using this)
    have h0 : m.starts = [0] := (of_decide_eq_true k1).2.1
    rw [hx0, h0] at hx
    simp at hx

end Mtsp
