import Verif.Proof.NearestInsertion
import Verif.Proof.Before

namespace Mtsp
open Relation

/-- nodes that are tied together: by dependencies, and each agent's start with its end -/
def Linked (starts ends : List Nat) (D : Nat → Nat → Prop) : Nat → Nat → Prop :=
  EqvGen fun u v => D u v ∨ ∃ a : Nat, starts[a]? = some u ∧ ends[a]? = some v

theorem mem_zip_iff (starts ends : List Nat) (u v : Nat) :
    (u, v) ∈ starts.zip ends ↔ ∃ a : Nat, starts[a]? = some u ∧ ends[a]? = some v := by
  rw [List.mem_iff_getElem?]
  refine exists_congr fun a => ?_
  rw [List.getElem?_zip_eq_some]

theorem mem_niArcs {starts ends : List Nat} {deps : DepGraph} {D : Nat → Nat → Prop}
    (hdeps : ∀ u v, (u, v) ∈ deps.arcs ↔ D u v) (u v : Nat) : (u, v) ∈ niArcs starts ends deps ↔
      (D u v ∨ ∃ a : Nat, starts[a]? = some u ∧ ends[a]? = some v) := by
  rw [niArcs, List.mem_append, hdeps, mem_zip_iff]

theorem comp_iff_linked {starts ends : List Nat} {deps : DepGraph} {D : Nat → Nat → Prop}
    (hdeps : ∀ u v, (u, v) ∈ deps.arcs ↔ D u v) (x y : Nat) :
    componentIds (niArcs starts ends deps) x = componentIds (niArcs starts ends deps) y ↔ Linked starts ends D x y := by
  rw [components_iff, Linked]
  have : (fun u v => (u, v) ∈ niArcs starts ends deps) = fun u v => D u v ∨ ∃ a : Nat, starts[a]? = some u ∧ ends[a]? = some v := by
    funext u v; exact propext (mem_niArcs hdeps u v)
  rw [this]

theorem Inst.start_not_end {N : Nat} {starts ends : List Nat} {D : Nat → Nat → Prop} (h : Inst N starts ends D) {x : Nat}
    (h1 : x ∈ starts) (h2 : x ∈ ends) : False :=
  List.disjoint_of_nodup_append h.nodup h1 h2

theorem niArcs_ok {N : Nat} {starts ends : List Nat} {deps : DepGraph} {D : Nat → Nat → Prop} (h : Inst N starts ends D)
    (hdeps : ∀ u v, (u, v) ∈ deps.arcs ↔ D u v) :
    (∀ e ∈ niArcs starts ends deps, e.1 < N ∧ e.2 < N) ∧ ∀ x, ¬ Reaches (niArcs starts ends deps) x x := by
  constructor
  · rintro ⟨u, v⟩ he
    rcases (mem_niArcs hdeps u v).1 he with hd | ⟨a, h1, h2⟩
    · exact h.dlt u v hd
    · exact ⟨h.lt u (List.mem_append_left _ (List.mem_of_getElem? h1)), h.lt v (List.mem_append_right _ (List.mem_of_getElem? h2))⟩
  · have hout : ∀ x y, x ∈ ends → (x, y) ∉ niArcs starts ends deps := by
      intro x y hx he
      rcases (mem_niArcs hdeps x y).1 he with hd | ⟨a, h1, _⟩
      · exact h.noOut x hx y hd
      · exact h.start_not_end (List.mem_of_getElem? h1) hx
    have key : ∀ x y, Reaches (niArcs starts ends deps) x y → TransGen D x y ∨ y ∈ ends := by
      intro x y hxy
      induction hxy with
      | single he =>
        rcases (mem_niArcs hdeps _ _).1 he with hd | ⟨a, _, h2⟩
        · exact Or.inl (.single hd)
        · exact Or.inr (List.mem_of_getElem? h2)
      | tail _ he ih =>
        rcases ih with ih | ih
        · rcases (mem_niArcs hdeps _ _).1 he with hd | ⟨a, _, h2⟩
          · exact Or.inl (ih.tail hd)
          · exact Or.inr (List.mem_of_getElem? h2)
        · exact absurd he (hout _ _ ih)
    intro x hx
    rcases key x x hx with hc | hc
    · exact h.acyclic x hc
    · obtain ⟨c, hc', _⟩ := TransGen.head'_iff.1 hx
      exact hout x c hc hc'

/-- the processing order -/
theorem ni_order {N : Nat} {starts ends : List Nat} {deps : DepGraph} {D : Nat → Nat → Prop} (h : Inst N starts ends D)
    (hdeps : ∀ u v, (u, v) ∈ deps.arcs ↔ D u v) : ∃ d, topologicalSort N (niArcs starts ends deps) = .ok d ∧
      d.reverse.Perm (List.range N) ∧ (∀ u v, D u v → Before d.reverse u v) ∧
      (∀ (a : Nat) (u v : Nat), starts[a]? = some u → ends[a]? = some v → Before d.reverse u v) := by
  obtain ⟨h1, h2⟩ := niArcs_ok h hdeps
  obtain ⟨d, hd, hp, hf⟩ := topologicalSort_acyclic N _ h1 h2
  have hb : ∀ u v, (u, v) ∈ niArcs starts ends deps → Before d.reverse u v := by
    intro u v he
    have hu : u ∈ d := hp.mem_iff.2 (List.mem_range.2 (h1 _ he).1)
    have hnd : d.Nodup := hp.nodup_iff.2 List.nodup_range
    obtain ⟨l1, l2, rfl⟩ := List.append_of_mem hu
    have hv := hf l1 u l2 rfl v ((mem_adjOf _ _ _).2 he)
    obtain ⟨l3, l4, rfl⟩ := List.append_of_mem hv
    exact ⟨l2.reverse, l4.reverse, l3.reverse, by simp⟩
  refine ⟨d, hd, (List.reverse_perm d).trans hp, ?_, ?_⟩
  · intro u v hD; exact hb u v ((mem_niArcs hdeps u v).2 (Or.inl hD))
  · intro a u v hu hv; exact hb u v ((mem_niArcs hdeps u v).2 (Or.inr ⟨a, hu, hv⟩))

/-- everything known about a completed construction -/
structure NIDone (mode : Mode) (W : Nat → Weights) (N : Nat) (starts ends : List Nat) (comp : Nat → Nat) (ord : List Nat)
    (P : Paths) (obj : ℚ) : Prop where
  ex : ∃ c I, CoreInv starts.length (starts.getD · 0) (ends.getD · 0) comp
      (ord.filter fun n => decide (n ∉ starts ∧ n ∉ ends)) c I ∧ P = c.paths ∧
      match mode with
      | .sum => obj = ((List.range starts.length).map fun a =>
          pathCost (W a) (starts.getD a 0 :: I a ++ [ends.getD a 0])).sum
      | .max => ∃ l, obj = pathCost (W l) (starts.getD l 0 :: I l ++ [ends.getD l 0]) ∧
          IsLongest starts.length (fun a => pathCost (W a) (starts.getD a 0 :: I a ++ [ends.getD a 0])) l

theorem ni_main {mode : Mode} {W : Nat → Weights} {N : Nat} {starts ends : List Nat} {deps : DepGraph} {D : Nat → Nat → Prop}
    (h : Inst N starts ends D) (hdeps : ∀ u v, (u, v) ∈ deps.arcs ↔ D u v) (hW : SmallDeltas starts.length N W) (t : Nat) :
    ((∃ a b, a < b ∧ b < starts.length ∧ componentIds (niArcs starts ends deps) (starts.getD a 0) =
        componentIds (niArcs starts ends deps) (starts.getD b 0)) ∧
      nearestInsertion mode W N starts ends deps t = .error .incompatible) ∨
    ((∀ a b, a < b → b < starts.length → componentIds (niArcs starts ends deps) (starts.getD a 0) ≠
        componentIds (niArcs starts ends deps) (starts.getD b 0)) ∧
      (t < N → nearestInsertion mode W N starts ends deps t = .ok (([], 0), 0)) ∧
      (N ≤ t → ∃ P obj ord, nearestInsertion mode W N starts ends deps t = .ok ((P, obj), t - N) ∧
        ord.Perm (List.range N) ∧ (∀ u v, D u v → Before ord u v) ∧
        NIDone mode W N starts ends (componentIds (niArcs starts ends deps)) ord P obj ∧
        topologicalSort N (niArcs starts ends deps) = .ok ord.reverse)) := by
  obtain ⟨d, hd, hperm, hbef, _⟩ := ni_order h hdeps
  have hlenN : d.reverse.length = N := by rw [hperm.length_eq]; simp
  have hltN : ∀ n ∈ d.reverse, n < N := fun n hn => List.mem_range.1 (hperm.mem_iff.1 hn)
  have hA : 0 < starts.length := h.pos
  have hpn : PathNodes starts.length N (starts.getD · 0) (ends.getD · 0) [] := by
    refine ⟨?_, ?_, by simp⟩
    · intro a ha
      refine h.lt _ (List.mem_append_left _ ?_)
      simp [List.getD_eq_getElem?_getD, ha]
    · intro a ha
      refine h.lt _ (List.mem_append_right _ ?_)
      simp [List.getD_eq_getElem?_getD, h.lenEq ▸ ha]
  rcases niInitCore_spec starts.length starts ends (componentIds (niArcs starts ends deps)) with
    ⟨c, hc, hinv, hne⟩ | ⟨he, hex⟩
  swap
  · left
    refine ⟨hex, ?_⟩
    cases mode <;> simp only [nearestInsertion, nearestInsertionSum, nearestInsertionMax, hd, he]
  right
  refine ⟨hne, ?_⟩
  cases mode with
  | sum =>
    obtain ⟨k1, k2⟩ := niLoop_total starts ends
      (niSumStep starts.length W (componentIds (niArcs starts ends deps)))
      (fun done st => ∃ I, CoreInv starts.length (starts.getD · 0) (ends.getD · 0) (componentIds (niArcs starts ends deps)) done st.core I ∧
        PathNodes starts.length N (starts.getD · 0) (ends.getD · 0) done ∧
        st.objective = ((List.range starts.length).map fun a => pathCost (W a) (starts.getD a 0 :: I a ++ [ends.getD a 0])).sum) N
      (by
        rintro done st n ⟨I, i1, i2, i3⟩ hn _ _
        obtain ⟨st', I', e, j1, j2, j3⟩ := niSumStep_spec hA hW done st n hn i1 i2 i3
        exact ⟨st', e, I', j1, j2, j3⟩)
      d.reverse t []
      { core := c, objective := (List.range starts.length).foldl (fun o a => o + W a (starts.getD a 0) (ends.getD a 0)) 0 }
      hltN ⟨fun _ => [], hinv, hpn, by simp only [foldl_add_map, zero_add]; simp [pathCost]⟩
    rw [hlenN] at k1 k2
    refine ⟨?_, ?_⟩
    · intro ht
      simp only [nearestInsertion, nearestInsertionSum, hd, hc, k2 ht]
    · intro ht
      obtain ⟨st', e, I, i1, _, i3⟩ := k1 ht
      refine ⟨st'.core.paths, st'.objective, d.reverse, ?_, hperm, hbef, ⟨st'.core, I, by simpa using i1, rfl, i3⟩, by rw [List.reverse_reverse]; exact hd⟩
      simp only [nearestInsertion, nearestInsertionSum, hd, hc, e]
  | max =>
    obtain ⟨l1, l2⟩ := niInitLens_spec starts.length hA W starts ends
    obtain ⟨k1, k2⟩ := niLoop_total starts ends
      (niMaxStep starts.length W (componentIds (niArcs starts ends deps)))
      (fun done st => ∃ I, CoreInv starts.length (starts.getD · 0) (ends.getD · 0) (componentIds (niArcs starts ends deps)) done st.core I ∧
        PathNodes starts.length N (starts.getD · 0) (ends.getD · 0) done ∧
        st.lens = ((List.range starts.length).map fun a => pathCost (W a) (starts.getD a 0 :: I a ++ [ends.getD a 0])) ∧
        IsLongest starts.length (fun a => pathCost (W a) (starts.getD a 0 :: I a ++ [ends.getD a 0])) st.longest) N
      (by
        rintro done st n ⟨I, i1, i2, i3, i4⟩ hn _ _
        obtain ⟨st', I', e, j1, j2, j3, j4⟩ := niMaxStep_spec hA hW done st n hn i1 i2 i3 i4
        exact ⟨st', e, I', j1, j2, j3, j4⟩)
      d.reverse t []
      { core := c, lens := (niInitLens starts.length W starts ends).1, longest := (niInitLens starts.length W starts ends).2 }
      hltN ⟨fun _ => [], hinv, hpn, by simpa [pathCost] using l1, by simpa [pathCost] using l2⟩
    rw [hlenN] at k1 k2
    refine ⟨?_, ?_⟩
    · intro ht
      simp only [nearestInsertion, nearestInsertionMax, hd, hc, k2 ht]
    · intro ht
      obtain ⟨st', e, I, i1, _, i3, i4⟩ := k1 ht
      refine ⟨st'.core.paths, st'.lens.getD st'.longest 0, d.reverse, ?_, hperm, hbef,
        ⟨st'.core, I, by simpa using i1, rfl, st'.longest, ?_, i4⟩, by rw [List.reverse_reverse]; exact hd⟩
      · simp only [nearestInsertion, nearestInsertionMax, hd, hc, e]
      · rw [i3]; simp [List.getD_eq_getElem?_getD, i4.1]

end Mtsp
