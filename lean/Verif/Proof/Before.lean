import Verif.Spec.Cost

namespace Mtsp

theorem before_iff_sublist (p : List Nat) (u v : Nat) : Before p u v ↔ [u, v].Sublist p := by
  constructor
  · rintro ⟨l1, l2, l3, rfl⟩
    have h1 : [u].Sublist (l1 ++ u :: l2) := List.singleton_sublist.2 (by simp)
    have h2 : [v].Sublist (v :: l3) := List.singleton_sublist.2 (by simp)
    simpa using h1.append h2
  · intro h
    obtain ⟨r1, r2, e, h1, h2⟩ := List.cons_sublist_iff.1 h
    obtain ⟨l1, l2, rfl⟩ := List.append_of_mem h1
    obtain ⟨l3, l4, rfl⟩ := List.append_of_mem (List.singleton_sublist.1 h2)
    exact ⟨l1, l2 ++ l3, l4, by simp [e]⟩

theorem pairwise_idxOf {l : List Nat} (h : l.Nodup) : l.Pairwise (fun x y => l.idxOf x < l.idxOf y) := by
  rw [List.pairwise_iff_getElem]
  intro i j hi hj hij
  rw [h.idxOf_getElem, h.idxOf_getElem]; exact hij

theorem before_iff_idxOf {l : List Nat} (h : l.Nodup) (u v : Nat) :
    Before l u v ↔ u ∈ l ∧ v ∈ l ∧ l.idxOf u < l.idxOf v := by
  rw [before_iff_sublist]
  constructor
  · intro hs
    have := (pairwise_idxOf h).sublist hs
    refine ⟨hs.subset (by simp), hs.subset (by simp), ?_⟩
    simpa using this
  · rintro ⟨hu, hv, hlt⟩
    have hi : l.idxOf u < l.length := List.idxOf_lt_length_of_mem hu
    have hj : l.idxOf v < l.length := List.idxOf_lt_length_of_mem hv
    have e1 : l[l.idxOf u] = u := List.getElem_idxOf hi
    have e2 : l[l.idxOf v] = v := List.getElem_idxOf hj
    rw [← before_iff_sublist]
    refine ⟨l.take (l.idxOf u), (l.drop (l.idxOf u + 1)).take (l.idxOf v - l.idxOf u - 1), l.drop (l.idxOf v + 1), ?_⟩
    conv_lhs => rw [← List.take_append_drop (l.idxOf u) l]
    rw [List.append_assoc]
    congr 1
    rw [List.drop_eq_getElem_cons hi, e1, List.cons_append]
    congr 1
    conv_lhs => rw [← List.take_append_drop (l.idxOf v - l.idxOf u - 1) (l.drop (l.idxOf u + 1))]
    congr 1
    rw [List.drop_drop, show l.idxOf u + 1 + (l.idxOf v - l.idxOf u - 1) = l.idxOf v by omega,
      List.drop_eq_getElem_cons hj, e2]

theorem Before.of_sublist {p q : List Nat} {u v : Nat} (h : Before p u v) (hs : p.Sublist q) : Before q u v := by
  rw [before_iff_sublist] at *; exact h.trans hs

theorem Before.asymm {p : List Nat} (hn : p.Nodup) {u v : Nat} (h : Before p u v) (h' : Before p v u) : False := by
  have := ((before_iff_idxOf hn u v).1 h).2.2
  have := ((before_iff_idxOf hn v u).1 h').2.2
  omega

theorem before_total {p : List Nat} (hn : p.Nodup) {u v : Nat} (hu : u ∈ p) (hv : v ∈ p) (hne : u ≠ v) :
    Before p u v ∨ Before p v u := by
  rw [before_iff_idxOf hn, before_iff_idxOf hn]
  rcases Nat.lt_trichotomy (p.idxOf u) (p.idxOf v) with h | h | h
  · exact Or.inl ⟨hu, hv, h⟩
  · exact absurd (by
      have := List.getElem_idxOf (List.idxOf_lt_length_of_mem hu)
      have h2 := List.getElem_idxOf (List.idxOf_lt_length_of_mem hv)
      simp only [h] at this
      exact this.symm.trans h2) hne
  · exact Or.inr ⟨hv, hu, h⟩

theorem before_cons {p : List Nat} {s v : Nat} (h : v ∈ p) : Before (s :: p) s v := by
  obtain ⟨l1, l2, rfl⟩ := List.append_of_mem h
  exact ⟨[], l1, l2, by simp⟩

theorem before_snoc {p : List Nat} {u e : Nat} (h : u ∈ p) : Before (p ++ [e]) u e := by
  obtain ⟨l1, l2, rfl⟩ := List.append_of_mem h
  exact ⟨l1, l2, [], by simp⟩

end Mtsp
