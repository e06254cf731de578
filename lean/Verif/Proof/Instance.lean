import Verif.Props.WeightManager
import Verif.Spec.Instance

namespace Mtsp
open Relation

theorem WMSpec.inst {rows : Nat} {w : Weights} {starts ends : List Nat} {m : WM} (s : WMSpec rows w starts ends m) :
    Inst m.n m.starts m.ends (DepIn m.n m.w) := by
  have hl1 : m.starts.length = starts.length := by rw [← s.mapS]; simp
  have hl2 : m.ends.length = ends.length := by rw [← s.mapE]; simp
  obtain ⟨base, hb, hac, hw⟩ := s.weights
  have hD : ∀ u v, DepIn m.n m.w u v → TransGen (DepIn m.n base) u v := by
    rintro u v ⟨hu, hv, e⟩
    by_cases hx : m.starts.length = 1 ∧ v = m.ends.getD 0 0 ∧ u = m.starts.getD 0 0
    · have := (hw v u hv hu).2 hx; rw [this] at e; norm_num at e
    · exact (((hw v u hv hu).1 hx).1).1 e
  refine ⟨by rw [hl1, hl2, s.lenEq], by rw [hl1]; exact s.pos, s.nodup, s.lt, ?_, s.noIn, s.noOut, ?_, ?_⟩
  · rintro u v ⟨hu, hv, _⟩; exact ⟨hu, hv⟩
  · intro x hx
    refine hac x ?_
    have := TransGen.mono hD _ _ hx
    rwa [transGen_eq_self] at this
  · intro u v x huv hvx
    have ht := (hD u v huv).trans (hD v x hvx)
    by_cases hx : m.starts.length = 1 ∧ x = m.ends.getD 0 0 ∧ u = m.starts.getD 0 0
    · right
      obtain ⟨y, hy⟩ := List.length_eq_one_iff.1 hx.1
      obtain ⟨z, hz⟩ := List.length_eq_one_iff.1 (show m.ends.length = 1 by rw [hl2, ← s.lenEq, ← hl1]; exact hx.1)
      obtain ⟨_, h2, h3⟩ := hx
      rw [hy] at h3; rw [hz] at h2
      simp at h2 h3
      rw [hy, hz, h2, h3]; exact ⟨rfl, rfl⟩
    · left
      exact ⟨huv.1, hvx.2.1, (((hw x u hvx.2.1 huv.1).1 hx).1).2 ht⟩

theorem WM.inst {rows cols : Nat} {w : Weights} {starts ends : List Nat} {m : WM}
    (h : WM.make rows cols w starts ends = .ok m) : Inst m.n m.starts m.ends (DepIn m.n m.w) :=
  (WM.make_ok h).1.inst

end Mtsp
