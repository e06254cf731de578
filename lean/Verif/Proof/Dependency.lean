import Verif.Model.Dependency
import Verif.Proof.Graph

namespace Mtsp
open Relation

theorem mem_depArcs (n : Nat) (w : Weights) (u v : Nat) :
    (u, v) ∈ depArcs n w ↔ u < n ∧ v < n ∧ w v u = -1 := by
  simp only [depArcs, List.mem_flatMap, List.mem_range, List.mem_filterMap]
  constructor
  · rintro ⟨a, ha, b, hb, h⟩
    split at h
    · simp at h; obtain ⟨rfl, rfl⟩ := h; exact ⟨hb, ha, by assumption⟩
    · simp at h
  · rintro ⟨hu, hv, h⟩
    exact ⟨v, hv, u, hu, by simp [h]⟩

theorem depArcs_lt (n : Nat) (w : Weights) : ∀ e ∈ depArcs n w, e.1 < n ∧ e.2 < n := by
  rintro ⟨u, v⟩ h
  obtain ⟨h1, h2, _⟩ := (mem_depArcs n w u v).1 h
  exact ⟨h1, h2⟩

theorem reaches_lt {n : Nat} {w : Weights} {u v : Nat} (h : Reaches (depArcs n w) u v) : u < n ∧ v < n := by
  constructor
  · obtain ⟨x, hx, _⟩ := TransGen.head'_iff.1 h
    exact (depArcs_lt n w _ hx).1
  · obtain ⟨x, _, hx⟩ := TransGen.tail'_iff.1 h
    exact (depArcs_lt n w _ hx).2

theorem foldl_setAt (l : Arcs) (w : Weights) (a b : Nat) :
    l.foldl (fun w e => setAt w e.2 e.1 (-1)) w a b = if (b, a) ∈ l then -1 else w a b := by
  induction l generalizing w with
  | nil => simp
  | cons e l ih =>
    simp only [List.foldl_cons, ih, List.mem_cons, setAt]
    obtain ⟨x, y⟩ := e
    by_cases h1 : (b, a) ∈ l
    · simp [h1]
    · by_cases h2 : a = y ∧ b = x
      · obtain ⟨rfl, rfl⟩ := h2; simp
      · simp only [h1, if_false, h2, or_false, Prod.mk.injEq]
        rw [if_neg]; rintro ⟨rfl, rfl⟩; exact h2 ⟨rfl, rfl⟩

theorem foldl_filter_append {α : Type} (p : α → Bool) (l f : List α) :
    l.foldl (fun f v => if p v then f ++ [v] else f) f = f ++ l.filter p := by
  induction l generalizing f with
  | nil => simp
  | cons a l ih =>
    simp only [List.foldl_cons, ih, List.filter_cons]
    split <;> simp

theorem spans_fold (n : Nat) (p : Nat → Nat → Bool) (k : Nat) :
    let r := (List.range k).foldl (spanStep n p) ([], [])
    r.1 = (List.range k).flatMap (fun u => (List.range n).filter (p u)) ∧ r.2.length = k ∧
    ∀ u, u < k → ∃ s t, r.2[u]? = some (s, t) ∧ s = ((List.range u).flatMap (fun u => (List.range n).filter (p u))).length ∧
      t = s + ((List.range n).filter (p u)).length := by
  induction k with
  | zero => simp
  | succ k ih =>
    simp only [List.range_succ, List.foldl_append, List.foldl_cons, List.foldl_nil] at ih ⊢
    obtain ⟨h1, h2, h3⟩ := ih
    refine ⟨?_, ?_, ?_⟩
    · simp [spanStep, h1, foldl_filter_append, List.flatMap_append]
    · simp [spanStep, h2]
    · intro u hu
      by_cases h : u < k
      · obtain ⟨s, t, e1, e2, e3⟩ := h3 u h
        refine ⟨s, t, ?_, e2, e3⟩
        simp only [spanStep]
        rw [List.getElem?_append_left (by omega)]; exact e1
      · have : u = k := by omega
        subst this
        refine ⟨_, _, by simp [spanStep, h2]; exact ⟨rfl, rfl⟩, ?_, ?_⟩
        · rw [h1]
        · simp [foldl_filter_append]

theorem getSpan_eq (n : Nat) (p : Nat → Nat → Bool) (u : Nat) (hu : u < n) :
    getSpan ((List.range n).foldl (spanStep n p) ([], [])).1 ((List.range n).foldl (spanStep n p) ([], [])).2 u =
      .ok ((List.range n).filter (p u)) := by
  obtain ⟨h1, h2, h3⟩ := spans_fold n p n
  obtain ⟨s, t, e1, e2, e3⟩ := h3 u hu
  simp only [getSpan, e1, h1]
  have hsplit : List.range n = List.range u ++ u :: (List.range' (u + 1) (n - u - 1)) := by
    rw [List.range_eq_range', List.range_eq_range']
    have : n = u + ((n - u - 1) + 1) := by omega
    conv_lhs => rw [this, ← List.range'_append_1]
    simp [List.range'_succ]
  have : (List.range n).flatMap (fun u => (List.range n).filter (p u)) =
      (List.range u).flatMap (fun u => (List.range n).filter (p u)) ++ ((List.range n).filter (p u) ++
        (List.range' (u + 1) (n - u - 1)).flatMap (fun u => (List.range n).filter (p u))) := by
    conv_lhs => rw [hsplit]
    rw [List.flatMap_append, List.flatMap_cons, ← hsplit]
  rw [this, e3, e2, Nat.add_sub_cancel_left, List.drop_left, List.take_left]

theorem arcs_eq (n : Nat) (w : Weights) : (DepGraph.make n w).arcs =
    (List.range n).flatMap fun u => ((List.range n).filter fun v => decide (w u v = -1)).map fun v => (v, u) := by
  simp only [DepGraph.make]
  have h1 : ∀ (l : List Nat) (u : Nat) (acc : Arcs), l.foldl (fun l v => if w u v = -1 then l ++ [(v, u)] else l) acc =
      acc ++ (l.filter fun v => decide (w u v = -1)).map fun v => (v, u) := by
    intro l u
    induction l with
    | nil => simp
    | cons a l ih =>
      intro acc
      simp only [List.foldl_cons, ih, List.filter_cons]
      split <;> simp_all
  have h2 : ∀ (l : List Nat) (acc : Arcs), l.foldl (fun l u => (List.range n).foldl
      (fun l v => if w u v = -1 then l ++ [(v, u)] else l) l) acc =
      acc ++ l.flatMap fun u => ((List.range n).filter fun v => decide (w u v = -1)).map fun v => (v, u) := by
    intro l
    induction l with
    | nil => simp
    | cons a l ih => intro acc; rw [List.foldl_cons, ih, List.flatMap_cons, h1, List.append_assoc]
  simpa using h2 (List.range n) []

theorem mem_arcs (n : Nat) (w : Weights) (u v : Nat) :
    (u, v) ∈ (DepGraph.make n w).arcs ↔ u < n ∧ v < n ∧ w v u = -1 := by
  rw [arcs_eq]
  simp only [List.mem_flatMap, List.mem_map, List.mem_filter, List.mem_range, decide_eq_true_eq, Prod.mk.injEq]
  constructor
  · rintro ⟨a, ha, b, ⟨hb, h⟩, rfl, rfl⟩; exact ⟨hb, ha, h⟩
  · rintro ⟨hu, hv, h⟩; exact ⟨v, hv, u, ⟨hu, h⟩, rfl, rfl⟩

theorem arcs_nodup (n : Nat) (w : Weights) : (DepGraph.make n w).arcs.Nodup := by
  rw [arcs_eq, List.nodup_flatMap]
  refine ⟨?_, ?_⟩
  · intro u _
    refine List.Nodup.map ?_ (List.nodup_range.filter _)
    intro a b h; simpa using h
  · refine List.nodup_range.imp ?_
    intro a b hab
    simp only [Function.onFun]
    intro x h1 h2
    simp only [List.mem_map] at h1 h2
    obtain ⟨v, _, rfl⟩ := h1
    obtain ⟨v', _, h⟩ := h2
    simp at h; exact hab h.2.symm

end Mtsp
