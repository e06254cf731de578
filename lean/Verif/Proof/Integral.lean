import Verif.Props.Cuts
import Mathlib.Data.Finset.Card
import Mathlib.Algebra.BigOperators.Group.Finset.Sigma
import Mathlib.Data.Finset.Prod

/-! Integral points of the LP: owner, successor, predecessor, and the paths. -/

namespace Mtsp
open Finset

theorem sum01_unique {α : Type} (s : Finset α) (f : α → ℚ) (h01 : ∀ i ∈ s, f i = 0 ∨ f i = 1)
    (hs : ∑ i ∈ s, f i = 1) : ∃ i ∈ s, f i = 1 ∧ ∀ j ∈ s, f j = 1 → j = i := by
  classical
  have h1 : ∑ i ∈ s, f i = ∑ i ∈ s, if f i = 1 then (1 : ℚ) else 0 := by
    refine Finset.sum_congr rfl fun i hi => ?_
    rcases h01 i hi with h | h <;> simp [h]
  rw [h1, Finset.sum_boole] at hs
  have hcard : #{i ∈ s | f i = 1} = 1 := by exact_mod_cast hs
  obtain ⟨i, hi⟩ := Finset.card_eq_one.1 hcard
  have hm : i ∈ ({i ∈ s | f i = 1} : Finset α) := by rw [hi]; simp
  obtain ⟨hm1, hm2⟩ := Finset.mem_filter.1 hm
  refine ⟨i, hm1, hm2, fun j hj hj1 => ?_⟩
  have : j ∈ ({i ∈ s | f i = 1} : Finset α) := Finset.mem_filter.2 ⟨hj, hj1⟩
  rw [hi] at this; simpa using this

theorem sum01_unique₂ (A N : Nat) (f : Nat → Nat → ℚ) (h01 : ∀ a < A, ∀ u < N, f a u = 0 ∨ f a u = 1)
    (hs : ∑ a ∈ range A, ∑ u ∈ range N, f a u = 1) :
    ∃ a < A, ∃ u < N, f a u = 1 ∧ ∀ b < A, ∀ v < N, f b v = 1 → b = a ∧ v = u := by
  rw [← Finset.sum_product' (range A) (range N) f] at hs
  obtain ⟨⟨a, u⟩, hm, h1, h2⟩ := sum01_unique (range A ×ˢ range N) (fun p => f p.1 p.2) (by
    rintro ⟨a, u⟩ hm
    have := Finset.mem_product.1 hm
    exact h01 a (Finset.mem_range.1 this.1) u (Finset.mem_range.1 this.2)) hs
  have hm := Finset.mem_product.1 hm
  refine ⟨a, Finset.mem_range.1 hm.1, u, Finset.mem_range.1 hm.2, h1, ?_⟩
  intro b hb v hv hbv
  have := h2 (b, v) (Finset.mem_product.2 ⟨Finset.mem_range.2 hb, Finset.mem_range.2 hv⟩) hbv
  simpa using this

section
variable {N : Nat} {starts ends : List Nat} {D : Nat → Nat → Prop} {arcs : List (Nat × Nat)} {y : Nat → ℚ}

theorem tour_of_integral (r : LPRows N starts ends arcs y)
    (h01 : ∀ a < starts.length, ∀ u < N, ∀ v < N, y (varId N a u v) = 0 ∨ y (varId N a u v) = 1) :
    ∃ own nx pv, TourPoint N starts.length y own nx pv := by
  have ho : ∀ u : Nat, ∃ a v : Nat, u < N → a < starts.length ∧ v < N ∧ y (varId N a u v) = 1 ∧
      ∀ b < starts.length, ∀ v' < N, y (varId N b u v') = 1 → b = a ∧ v' = v := by
    intro u
    by_cases hu : u < N
    · obtain ⟨a, ha, v, hv, h1, h2⟩ := sum01_unique₂ starts.length N (fun a v => y (varId N a u v))
        (fun a ha v hv => h01 a ha u hu v hv) (r.degOut u hu)
      exact ⟨a, v, fun _ => ⟨ha, hv, h1, h2⟩⟩
    · exact ⟨0, 0, fun h => absurd h hu⟩
  have hi : ∀ v : Nat, ∃ u : Nat, v < N → u < N ∧ (∃ a < starts.length, y (varId N a u v) = 1) ∧
      ∀ b < starts.length, ∀ u' < N, y (varId N b u' v) = 1 → u' = u := by
    intro v
    by_cases hv : v < N
    · obtain ⟨a, ha, u, hu, h1, h2⟩ := sum01_unique₂ starts.length N (fun a u => y (varId N a u v))
        (fun a ha u hu => h01 a ha u hu v hv) (r.degIn v hv)
      exact ⟨u, fun _ => ⟨hu, ⟨a, ha, h1⟩, fun b hb u' hu' e => (h2 b hb u' hu' e).2⟩⟩
    · exact ⟨0, fun h => absurd h hv⟩
  choose own nx hout using ho
  choose pv hin using hi
  refine ⟨own, nx, pv, fun u hu => (hout u hu).1, fun u hu => (hout u hu).2.1, fun v hv => (hin v hv).1, ?_, ?_, ?_⟩
  · intro v hv
    obtain ⟨hp, ⟨a, ha, h1⟩, _⟩ := hin v hv
    exact ((hout (pv v) hp).2.2.2 a ha v hv h1).2.symm
  · intro u hu
    obtain ⟨ha, hv, h1, _⟩ := hout u hu
    exact ((hin (nx u) hv).2.2 _ ha u hu h1).symm
  · intro a ha u hu v hv
    obtain ⟨_, _, h1, h2⟩ := hout u hu
    by_cases hc : own u = a ∧ nx u = v
    · obtain ⟨rfl, rfl⟩ := hc
      rw [if_pos ⟨rfl, rfl⟩]; exact h1
    · rw [if_neg hc]
      rcases h01 a ha u hu v hv with h | h
      · exact h
      · obtain ⟨rfl, rfl⟩ := h2 a ha v hv h
        exact absurd ⟨rfl, rfl⟩ hc

/-- what the rows say about owners -/
structure Owned (N : Nat) (starts ends : List Nat) (own nx pv : Nat → Nat) : Prop where
  nxLt : ∀ u < N, nx u < N
  inj : ∀ u < N, ∀ v < N, nx u = nx v → u = v
  pvLt : ∀ u < N, pv u < N
  nxpv : ∀ u < N, nx (pv u) = u
  ownLt : ∀ u < N, own u < starts.length
  keep : ∀ u < N, nx u ∉ starts → own (nx u) = own u
  start : ∀ a < starts.length, own (starts.getD a 0) = a
  fin : ∀ a < starts.length, own (ends.getD a 0) = a
  art : ∀ a < starts.length, nx (ends.getD a 0) = starts.getD ((a + 1) % starts.length) 0

theorem owned_of_rows (hi : Inst N starts ends D) (r : LPRows N starts ends arcs y) {own nx pv : Nat → Nat}
    (ht : TourPoint N starts.length y own nx pv) : Owned N starts ends own nx pv := by
  have hl := hi.lenEq
  have hsm : ∀ a < starts.length, starts.getD a 0 ∈ starts := fun a ha => List.mem_of_getElem? (getElem?_getD ha)
  have hem : ∀ a < starts.length, ends.getD a 0 ∈ ends := fun a ha => List.mem_of_getElem? (getElem?_getD (hl ▸ ha))
  have hslt : ∀ a < starts.length, starts.getD a 0 < N := fun a ha => hi.lt _ (List.mem_append_left _ (hsm a ha))
  have helt : ∀ a < starts.length, ends.getD a 0 < N := fun a ha => hi.lt _ (List.mem_append_right _ (hem a ha))
  have hart : ∀ a < starts.length, own (ends.getD a 0) = a ∧ nx (ends.getD a 0) = starts.getD ((a + 1) % starts.length) 0 := by
    intro a ha
    have := r.art a ha
    rw [ht.val a ha _ (helt a ha) _ (hslt _ (Nat.mod_lt _ (by omega)))] at this
    by_contra hne
    rw [if_neg hne] at this
    norm_num at this
  refine ⟨ht.nxLt, ?_, ht.pvLt, ht.nxpv, ht.ownLt, ?_, ?_, fun a ha => (hart a ha).1, fun a ha => (hart a ha).2⟩
  · intro u hu v hv e
    rw [← ht.pvnx u hu, ← ht.pvnx v hv, e]
  · intro u hu hs
    have hn := ht.nxLt u hu
    have := r.flow (nx u) hn hs (own (nx u)) (ht.ownLt _ hn)
    rw [ht.in_eq (ht.ownLt _ hn) hn, ht.out_eq (ht.ownLt _ hn) hn, if_pos rfl, ht.pvnx u hu] at this
    by_contra hne
    rw [if_neg (fun e => hne e.symm)] at this
    norm_num at this
  · intro a ha
    have := r.start a ha
    rw [ht.out_eq ha (hslt a ha)] at this
    by_contra hne
    rw [if_neg hne] at this
    norm_num at this

variable {own nx pv : Nat → Nat}

theorem iter_lt (o : Owned N starts ends own nx pv) {s : Nat} (hs : s < N) (i : Nat) : nx^[i] s < N := by
  induction i with
  | zero => exact hs
  | succ i ih => rw [Function.iterate_succ_apply']; exact o.nxLt _ ih

theorem iter_cancel (o : Owned N starts ends own nx pv) {s t : Nat} (hs : s < N) (ht : t < N) (i : Nat)
    (h : nx^[i] s = nx^[i] t) : s = t := by
  induction i with
  | zero => exact h
  | succ i ih =>
    rw [Function.iterate_succ_apply', Function.iterate_succ_apply'] at h
    exact ih (o.inj _ (iter_lt o hs i) _ (iter_lt o ht i) h)

/-- before reaching its end the walk from a start stays with its agent -/
theorem own_iter (hi : Inst N starts ends D) (o : Owned N starts ends own nx pv) {a : Nat} (ha : a < starts.length) (i : Nat)
    (hne : ∀ j < i, nx^[j] (starts.getD a 0) ≠ ends.getD a 0) : own (nx^[i] (starts.getD a 0)) = a := by
  have hs : starts.getD a 0 < N := hi.lt _ (List.mem_append_left _ (List.mem_of_getElem? (getElem?_getD ha)))
  induction i with
  | zero => exact o.start a ha
  | succ i ih =>
    have ih := ih fun j hj => hne j (by omega)
    rw [Function.iterate_succ_apply']
    have hz := iter_lt o hs i
    by_cases hst : nx (nx^[i] (starts.getD a 0)) ∈ starts
    · exfalso
      obtain ⟨b, hb⟩ := List.mem_iff_getElem?.1 hst
      have hbl : b < starts.length := (List.getElem?_eq_some_iff.1 hb).1
      -- the previous agent
      obtain ⟨c, hc, hcb⟩ : ∃ c < starts.length, (c + 1) % starts.length = b := by
        rcases Nat.eq_zero_or_pos b with h0 | h0
        · exact ⟨starts.length - 1, by omega, by rw [Nat.sub_add_cancel (by omega), Nat.mod_self, h0]⟩
        · exact ⟨b - 1, by omega, by rw [Nat.sub_add_cancel h0, Nat.mod_eq_of_lt hbl]⟩
      have hcart := o.art c hc
      have hbd : starts.getD b 0 = nx (nx^[i] (starts.getD a 0)) := by
        rw [List.getD_eq_getElem?_getD (i := b), hb, Option.getD_some]
      rw [hcb, hbd] at hcart
      have hcn : ends.getD c 0 < N := hi.lt _ (List.mem_append_right _ (List.mem_of_getElem? (getElem?_getD (hi.lenEq ▸ hc))))
      have e := o.inj _ hcn _ hz hcart
      have hca := o.fin c hc
      rw [e, ih] at hca
      exact hne i (by omega) (by rw [← e, ← hca])
    · rw [o.keep _ hz hst, ih]

/-- the walk from a start reaches the end of its agent -/
theorem reach_end (hi : Inst N starts ends D) (o : Owned N starts ends own nx pv) {a : Nat} (ha : a < starts.length) :
    ∃ k, nx^[k] (starts.getD a 0) = ends.getD a 0 := by
  have hs : starts.getD a 0 < N := hi.lt _ (List.mem_append_left _ (List.mem_of_getElem? (getElem?_getD ha)))
  by_contra hno
  push Not at hno
  -- two equal nodes on the walk
  obtain ⟨i, hi1, j, hj1, hij, e⟩ := Finset.exists_ne_map_eq_of_card_lt_of_maps_to (s := range (N + 1)) (t := range N)
    (by simp) (f := fun i => nx^[i] (starts.getD a 0)) (fun i _ => Finset.mem_coe.2 (Finset.mem_range.2 (iter_lt o hs i)))
  -- then the walk comes back to the start
  have back : ∃ d, nx^[d + 1] (starts.getD a 0) = starts.getD a 0 := by
    have key : ∀ i j, i < j → nx^[i] (starts.getD a 0) = nx^[j] (starts.getD a 0) →
        ∃ d, nx^[d + 1] (starts.getD a 0) = starts.getD a 0 := by
      intro i j hij e
      refine ⟨j - i - 1, ?_⟩
      have h2 : nx^[i] (nx^[j - i - 1 + 1] (starts.getD a 0)) = nx^[i] (starts.getD a 0) := by
        rw [← Function.iterate_add_apply, show i + (j - i - 1 + 1) = j by omega, e]
      exact iter_cancel o (iter_lt o hs _) hs i h2
    rcases Nat.lt_or_gt_of_ne hij with h | h
    · exact key i j h e
    · exact key j i h e.symm
  obtain ⟨d, hd⟩ := back
  obtain ⟨c, hc, hcb⟩ : ∃ c < starts.length, (c + 1) % starts.length = a := by
    rcases Nat.eq_zero_or_pos a with h0 | h0
    · exact ⟨starts.length - 1, by omega, by rw [Nat.sub_add_cancel (by omega), Nat.mod_self, h0]⟩
    · exact ⟨a - 1, by omega, by rw [Nat.sub_add_cancel h0, Nat.mod_eq_of_lt ha]⟩
  have hcart := o.art c hc
  rw [hcb] at hcart
  have hcn : ends.getD c 0 < N := hi.lt _ (List.mem_append_right _ (List.mem_of_getElem? (getElem?_getD (hi.lenEq ▸ hc))))
  rw [Function.iterate_succ_apply'] at hd
  have e := o.inj _ hcn _ (iter_lt o hs d) (hcart.trans hd.symm)
  have hca := o.fin c hc
  rw [e, own_iter hi o ha d fun j _ => hno j] at hca
  exact hno d (by rw [← e, ← hca])

/-- the paths of an integral point whose tour is connected -/
theorem cover_of_owned (hi : Inst N starts ends D) (o : Owned N starts ends own nx pv)
    (hconn : ∀ u < N, ∃ i j, nx^[i] (starts.getD 0 0) = nx^[j] u) :
    ∃ P : List (List Nat), IsCover N starts ends P ∧
      ∀ a u v, a < starts.length → u < N → v < N → (Uses starts ends P a u v ↔ own u = a ∧ nx u = v) := by
  classical
  have hl := hi.lenEq
  have hslt : ∀ a < starts.length, starts.getD a 0 < N := fun a ha =>
    hi.lt _ (List.mem_append_left _ (List.mem_of_getElem? (getElem?_getD ha)))
  have hk : ∀ a : Nat, ∃ k : Nat, a < starts.length →
      nx^[k] (starts.getD a 0) = ends.getD a 0 ∧ ∀ j < k, nx^[j] (starts.getD a 0) ≠ ends.getD a 0 := by
    intro a
    by_cases ha : a < starts.length
    · have hex := reach_end hi o ha
      exact ⟨Nat.find hex, fun _ => ⟨Nat.find_spec hex, fun j hj => Nat.find_min hex hj⟩⟩
    · exact ⟨0, fun h => absurd h ha⟩
  choose k hk using hk
  let path : Nat → List Nat := fun a => (List.range (k a + 1)).map fun i => nx^[i] (starts.getD a 0)
  let P : List (List Nat) := (List.range starts.length).map path
  have hP : ∀ (a : Nat) (p : List Nat), P[a]? = some p ↔ a < starts.length ∧ p = path a := by
    intro a p
    by_cases ha : a < starts.length
    · simp [P, ha, eq_comm]
    · simp [P, ha]
  have hpm : ∀ a z, z ∈ path a ↔ ∃ i ≤ k a, nx^[i] (starts.getD a 0) = z := by
    intro a z
    simp only [path, List.mem_map, List.mem_range]
    constructor
    · rintro ⟨i, h1, h2⟩; exact ⟨i, by omega, h2⟩
    · rintro ⟨i, h1, h2⟩; exact ⟨i, by omega, h2⟩
  have hown : ∀ a < starts.length, ∀ z ∈ path a, own z = a ∧ z < N := by
    intro a ha z hz
    obtain ⟨i, hik, rfl⟩ := (hpm a z).1 hz
    exact ⟨own_iter hi o ha i fun j hj => (hk a ha).2 j (by omega), iter_lt o (hslt a ha) i⟩
  have hnd : ∀ a < starts.length, (path a).Nodup := by
    intro a ha
    refine List.Nodup.map_on ?_ List.nodup_range
    have key : ∀ i j, i < j → j ≤ k a → nx^[i] (starts.getD a 0) ≠ nx^[j] (starts.getD a 0) := by
      intro i j hij hj e
      have h2 : nx^[k a - j] (nx^[i] (starts.getD a 0)) = nx^[k a - j] (nx^[j] (starts.getD a 0)) := by rw [e]
      rw [← Function.iterate_add_apply, ← Function.iterate_add_apply, Nat.sub_add_cancel hj, (hk a ha).1] at h2
      exact (hk a ha).2 _ (by omega) h2
    intro i hi1 j hj1 e
    have hi1 := List.mem_range.1 hi1
    have hj1 := List.mem_range.1 hj1
    rcases Nat.lt_trichotomy i j with h | h | h
    · exact absurd e (key i j h (by omega))
    · exact h
    · exact absurd e.symm (key j i h (by omega))
  have hmem : ∀ z, z ∈ P.flatten ↔ ∃ a < starts.length, z ∈ path a := by
    intro z
    simp only [List.mem_flatten, P, List.mem_map, List.mem_range]
    constructor
    · rintro ⟨p, ⟨a, ha, rfl⟩, hz⟩; exact ⟨a, ha, hz⟩
    · rintro ⟨a, ha, hz⟩; exact ⟨_, ⟨a, ha, rfl⟩, hz⟩
  have hend : ∀ a < starts.length, ends.getD a 0 ∈ path a := fun a ha => (hpm a _).2 ⟨k a, le_refl _, (hk a ha).1⟩
  have hstart : ∀ a < starts.length, starts.getD a 0 ∈ path a := fun a ha => (hpm a _).2 ⟨0, by omega, rfl⟩
  -- closed under successor and predecessor
  have hnx : ∀ z, (∃ a < starts.length, z ∈ path a) → ∃ a < starts.length, nx z ∈ path a := by
    rintro z ⟨a, ha, hz⟩
    obtain ⟨i, hik, rfl⟩ := (hpm a z).1 hz
    rcases Nat.lt_or_ge i (k a) with h | h
    · exact ⟨a, ha, (hpm a _).2 ⟨i + 1, h, Function.iterate_succ_apply' _ _ _⟩⟩
    · have : i = k a := by omega
      subst this
      rw [(hk a ha).1, o.art a ha]
      have hm : (a + 1) % starts.length < starts.length := Nat.mod_lt _ (by omega)
      exact ⟨_, hm, hstart _ hm⟩
  have hpv : ∀ z < N, (∃ a < starts.length, nx z ∈ path a) → ∃ a < starts.length, z ∈ path a := by
    rintro z hzn ⟨a, ha, hz⟩
    obtain ⟨i, hik, e⟩ := (hpm a _).1 hz
    cases i with
    | zero =>
      obtain ⟨c, hc, hcb⟩ : ∃ c < starts.length, (c + 1) % starts.length = a := by
        rcases Nat.eq_zero_or_pos a with h0 | h0
        · exact ⟨starts.length - 1, by omega, by rw [Nat.sub_add_cancel (by omega), Nat.mod_self, h0]⟩
        · exact ⟨a - 1, by omega, by rw [Nat.sub_add_cancel h0, Nat.mod_eq_of_lt ha]⟩
      have hcart := o.art c hc
      rw [hcb] at hcart
      have hcn : ends.getD c 0 < N := (hown c hc _ (hend c hc)).2
      have := o.inj _ hcn _ hzn (hcart.trans e)
      exact ⟨c, hc, this ▸ hend c hc⟩
    | succ i =>
      rw [Function.iterate_succ_apply'] at e
      have := o.inj _ (iter_lt o (hslt a ha) i) _ hzn e
      exact ⟨a, ha, (hpm a z).2 ⟨i, by omega, this⟩⟩
  have hall : ∀ z < N, ∃ a < starts.length, z ∈ path a := by
    intro z hz
    obtain ⟨i, j, e⟩ := hconn z hz
    have h1 : ∃ a < starts.length, nx^[i] (starts.getD 0 0) ∈ path a := by
      clear e
      induction i with
      | zero => exact ⟨0, hi.pos, hstart 0 hi.pos⟩
      | succ i ih => rw [Function.iterate_succ_apply']; exact hnx _ ih
    rw [e] at h1
    clear e
    induction j with
    | zero => exact h1
    | succ j ih =>
      rw [Function.iterate_succ_apply'] at h1
      exact ih (hpv _ (iter_lt o hz j) h1)
  have hfn : P.flatten.Nodup := by
    rw [List.nodup_flatten]
    constructor
    · intro p hp
      obtain ⟨a, ha, rfl⟩ := List.mem_map.1 hp
      exact hnd a (List.mem_range.1 ha)
    · rw [List.pairwise_map]
      refine List.Pairwise.imp_of_mem ?_ List.nodup_range
      intro a b ha hb hab z hza hzb
      exact hab (((hown a (List.mem_range.1 ha) z hza).1).symm.trans (hown b (List.mem_range.1 hb) z hzb).1)
  have hc : IsCover N starts ends P := by
    refine ⟨by simp [P], ?_, ?_, ?_⟩
    · intro a p hp
      obtain ⟨ha, rfl⟩ := (hP a p).1 hp
      rw [getElem?_getD ha]
      simp [path, List.range_succ_eq_map]
    · intro a p hp
      obtain ⟨ha, rfl⟩ := (hP a p).1 hp
      rw [getElem?_getD (hl ▸ ha)]
      simp only [path, List.range_succ, List.map_append, List.map_cons, List.map_nil, List.getLast?_concat, (hk a ha).1]
    · rw [List.perm_ext_iff_of_nodup hfn List.nodup_range]
      intro z
      rw [hmem, List.mem_range]
      constructor
      · rintro ⟨a, ha, hz⟩; exact (hown a ha z hz).2
      · exact hall z
  refine ⟨P, hc, ?_⟩
  intro a u v ha hu hv
  constructor
  · rintro (⟨p, hp, l1, l2, e⟩ | ⟨_, h2, h3⟩)
    · obtain ⟨_, rfl⟩ := (hP a p).1 hp
      have hum : u ∈ path a := by rw [e]; simp
      refine ⟨(hown a ha u hum).1, ?_⟩
      have g1 : (path a)[l1.length]? = some u := by rw [e]; simp
      have g2 : (path a)[l1.length + 1]? = some v := by rw [e]; simp
      simp only [path, List.getElem?_map] at g1 g2
      have b2 : l1.length + 1 < k a + 1 := by
        by_contra hge
        rw [List.getElem?_eq_none (by simp; omega)] at g2; simp at g2
      rw [List.getElem?_range b2] at g2
      rw [List.getElem?_range (by omega)] at g1
      simp only [Option.map_some, Option.some.injEq] at g1 g2
      rw [Function.iterate_succ_apply', g1] at g2
      exact g2
    · have e1 : ends.getD a 0 = u := by rw [List.getD_eq_getElem?_getD, h2]; rfl
      have e2 : starts.getD ((a + 1) % starts.length) 0 = v := by rw [List.getD_eq_getElem?_getD, h3]; rfl
      rw [← e1, ← e2]
      exact ⟨o.fin a ha, o.art a ha⟩
  · rintro ⟨rfl, rfl⟩
    obtain ⟨b, hb, hub⟩ := hall u hu
    have hbo := (hown b hb u hub).1
    rw [hbo] at ha ⊢
    obtain ⟨i, hik, rfl⟩ := (hpm b u).1 hub
    rcases Nat.lt_or_ge i (k b) with h | h
    · left
      refine ⟨path b, (hP b _).2 ⟨hb, rfl⟩, (path b).take i, (path b).drop (i + 2), ?_⟩
      have hlen : (path b).length = k b + 1 := by simp [path]
      conv_lhs => rw [← List.take_append_drop i (path b)]
      congr 1
      rw [List.drop_eq_getElem_cons (by omega), List.drop_eq_getElem_cons (by omega)]
      simp only [path, List.getElem_map, List.getElem_range]
      rw [Function.iterate_succ_apply']
    · right
      have : i = k b := by omega
      subst this
      rw [(hk b hb).1, o.art b hb]
      exact ⟨hb, getElem?_getD (hl ▸ hb), getElem?_getD (Nat.mod_lt _ (by omega))⟩

end

end Mtsp
