import Verif.Proof.GHLoop
import Mathlib.Data.ZMod.Basic
import Mathlib.Algebra.CharP.Two

/-! The tree of the Gomory-Hu construction is a cut tree: every edge of the tree belongs to a call, the components of the call
are the sides of the edge, and the cut is a minimum cut between two nodes in the bags at the ends of the edge.  Hence every set
of nodes is, up to the complement, the symmetric difference of reported cuts that are not bigger than its own. -/

namespace Mtsp
open Relation Finset

variable {N : Nat} {ws : List ℚ} {s s' : GHState} {X : Nat} {mf : MaxFlow} {pt : Partition} {c : GHCall} {black : Nat → Bool} {src snk : Nat}

/-- every edge of the tree belongs to a call -/
def GHSpan (N : Nat) (ws : List ℚ) (s : GHState) (calls : List GHCall) : Prop :=
  ∀ e ∈ s.edges, ∃ D, ∃ c ∈ calls, Side s.edges e D ∧ (∀ v < N, D (bagIdx s.bags v) = decide (v ∈ c.compU)) ∧
    ((∀ q ∈ ws, 0 ≤ q) → ∃ x y, x < N ∧ y < N ∧ bagIdx s.bags x = e.1 ∧ bagIdx s.bags y = e.2.1 ∧
      ∀ W : Nat → Bool, W x ≠ W y → c.size ≤ gcut N ws W)

/-- a minimum cut `S` between `s` and `t` lets one replace the node `x` of a pair by `s` -/
theorem switch_end {N : Nat} {ws : List ℚ} (h0 : ∀ q ∈ ws, 0 ≤ q) {S : Nat → Bool} {s t x y : Nat} {k : ℚ} (hs : S s = true) (ht : S t = false)
    (hx : S x = false) (hy : S y = true) (hmin : ∀ W : Nat → Bool, W s = true → W t = false → gcut N ws S ≤ gcut N ws W)
    (hxy : ∀ W : Nat → Bool, W x ≠ W y → k ≤ gcut N ws W) : ∀ W : Nat → Bool, W s ≠ W y → k ≤ gcut N ws W := by
  have main : ∀ W : Nat → Bool, W s = true → W y = false → k ≤ gcut N ws W := by
    intro W h1 h2
    cases hwx : W x
    · cases hwt : W t
      · exact (hxy S (by rw [hx, hy]; simp)).trans (hmin W h1 hwt)
      · have a1 := gcut_submod (N := N) h0 S W
        have a2 := hmin (fun v => S v && W v) (by simp [hs, h1]) (by simp [ht])
        have a3 := hxy (fun v => S v || W v) (by simp [hx, hy, hwx])
        linarith
    · exact hxy W (by rw [hwx, h2]; simp)
  intro W hW
  cases hws : W s
  · have hwy : W y = true := by cases h : W y with
      | false => rw [hws, h] at hW; exact absurd rfl hW
      | true => rfl
    rw [← gcut_not]
    exact main _ (by simp [hws]) (by simp [hwy])
  · have hwy : W y = false := by cases h : W y with
      | false => rfl
      | true => rw [hws, h] at hW; exact absurd rfl hW
    exact main W hws hwy

theorem SplitCtx.span (h : SplitCtx N ws s X black src snk) (hpt : pt.Correct) (q : ℚ) {calls : List GHCall} (hsp : GHSpan N ws s calls)
    {st storage : List Nat} {pos : Nat → Nat} (hc : ∀ v < N, black v = decide (v ∈ c.compU))
    (hsz : (∀ q ∈ ws, 0 ≤ q) → c.size = gcut N ws black) :
    GHSpan N ws ⟨splitBags pt s X black, splitEdges s X black q, st, storage, pos⟩ (c :: calls) := by
  have hi := h.inv
  have hX := h.lt
  have hne : ∀ i < s.bags.length, i ≠ s.bags.length := fun i hi => by omega
  obtain ⟨s1, s2⟩ := bag_mem hi.perm h.msrc
  obtain ⟨t1, t2⟩ := bag_mem hi.perm h.msnk
  have bsrc : bagIdx (splitBags pt s X black) src = s.bags.length := by
    rw [h.bagIdx' hpt s1, if_pos s2, if_pos h.bsrc]
  have bsnk : bagIdx (splitBags pt s X black) snk = X := by
    rw [h.bagIdx' hpt t1, if_pos t2, if_neg (by simp [h.bsnk])]
  intro e' he'
  simp only at he' ⊢
  rcases mem_splitEdges.1 he' with ⟨e, he, rfl⟩ | rfl
  · obtain ⟨D, c0, hc0, hD, hDc, hmin⟩ := hsp e he
    have hcross : ∀ e ∈ s.edges, ((fun i => if i = s.bags.length then D X else D i) (mvEdge s X black e).1 ≠
        (fun i => if i = s.bags.length then D X else D i) (mvEdge s X black e).2.1) ↔ D e.1 ≠ D e.2.1 := by
      intro e he
      have hlt := hi.lt e he
      by_cases hm : ghMoves s.bags X black e = true
      · obtain ⟨h1, h2, h3⟩ := hi.otherEnd_spec he (moves_iff.1 hm).1
        have e1 : mvEdge s X black e = (s.bags.length, otherEnd X e, e.2.2) := by simp [mvEdge, hm]
        rw [e1]
        simp only [if_true, if_neg (hne _ h2)]
        rcases h3 with ⟨e3, e4⟩ | ⟨e3, e4⟩
        · rw [← e4, e3]
        · rw [← e3, e4]; exact ne_comm
      · have e1 : mvEdge s X black e = e := by simp [mvEdge, hm]
        rw [e1]
        simp only [if_neg (hne _ hlt.1), if_neg (hne _ hlt.2)]
    refine ⟨fun i => if i = s.bags.length then D X else D i, c0, List.mem_cons_of_mem _ hc0, ⟨(hcross e he).2 hD.1, ?_⟩, ?_, ?_⟩
    · intro e1 he1 hcr
      rcases mem_splitEdges.1 he1 with ⟨e2, he2, rfl⟩ | rfl
      · rw [hD.2 e2 he2 ((hcross e2 he2).1 hcr)]
      · simp [hne X hX] at hcr
    · intro v hv
      rw [← hDc v hv, h.bagIdx' hpt hv]
      have hb := (bag_of_lt hi.perm hv).1
      by_cases hv2 : bagIdx s.bags v = X
      · rw [if_pos hv2, hv2]
        split
        · simp
        · simp [hne X hX]
      · rw [if_neg hv2]
        simp only [if_neg (hne _ hb)]
    · intro h0
      obtain ⟨x, y, hx, hy, bx, by', hxy⟩ := hmin h0
      -- the pair with the node in the other bag second
      by_cases hinc : e.1 = X ∨ e.2.1 = X
      · obtain ⟨o1, o2, o3⟩ := hi.otherEnd_spec he hinc
        obtain ⟨x', y', hx', hy', bx', by'', hxy'⟩ : ∃ x' y', x' < N ∧ y' < N ∧ bagIdx s.bags x' = X ∧ bagIdx s.bags y' = otherEnd X e ∧
            ∀ W : Nat → Bool, W x' ≠ W y' → c0.size ≤ gcut N ws W := by
          rcases o3 with ⟨e3, e4⟩ | ⟨e3, e4⟩
          · exact ⟨x, y, hx, hy, bx.trans e3, by'.trans e4, hxy⟩
          · exact ⟨y, x, hy, hx, by'.trans e4, bx.trans e3, fun W hW => hxy W hW.symm⟩
        have hyX : bagIdx s.bags y' ≠ X := by rw [by'']; exact o1
        have nby : bagIdx (splitBags pt s X black) y' = otherEnd X e := by rw [h.bagIdx' hpt hy', if_neg hyX, by'']
        have hby : black y' = dark s black (otherEnd X e) := by rw [h.dark_eq hy' hyX, by'']
        by_cases hm : ghMoves s.bags X black e = true
        · have e1 : mvEdge s X black e = (s.bags.length, otherEnd X e, e.2.2) := by simp [mvEdge, hm]
          rw [e1]
          rw [(moves_iff.1 hm).2] at hby
          cases hbx : black x'
          · exact ⟨src, y', s1, hy', bsrc, nby, switch_end h0 h.bsrc h.bsnk hbx hby (h.min h0) hxy'⟩
          · refine ⟨x', y', hx', hy', ?_, nby, hxy'⟩
            rw [h.bagIdx' hpt hx', if_pos bx', if_pos hbx]
        · have e1 : mvEdge s X black e = e := by simp [mvEdge, hm]
          rw [e1]
          have hd : dark s black (otherEnd X e) = false := by
            cases hd : dark s black (otherEnd X e)
            · rfl
            · exact absurd (moves_iff.2 ⟨hinc, hd⟩) hm
          rw [hd] at hby
          obtain ⟨x2, hx2, bx2, hxy2⟩ : ∃ x2 < N, bagIdx (splitBags pt s X black) x2 = X ∧ ∀ W : Nat → Bool, W x2 ≠ W y' → c0.size ≤ gcut N ws W := by
            cases hbx : black x'
            · refine ⟨x', hx', ?_, hxy'⟩
              rw [h.bagIdx' hpt hx', if_pos bx', if_neg (by simp [hbx])]
            · refine ⟨snk, t1, bsnk, ?_⟩
              refine switch_end (S := fun v => !black v) (t := src) h0 (by simp [h.bsnk]) (by simp [h.bsrc]) (by simp [hbx]) (by simp [hby]) ?_ hxy'
              intro W w1 w2
              rw [gcut_not, ← gcut_not N ws W]
              exact h.min h0 _ (by simp [w2]) (by simp [w1])
          rcases o3 with ⟨e3, e4⟩ | ⟨e3, e4⟩
          · exact ⟨x2, y', hx2, hy', bx2.trans e3.symm, nby.trans e4.symm, hxy2⟩
          · exact ⟨y', x2, hy', hx2, nby.trans e3.symm, bx2.trans e4.symm, fun W hW => hxy2 W hW.symm⟩
      · have hn1 : e.1 ≠ X := fun hh => hinc (Or.inl hh)
        have hn2 : e.2.1 ≠ X := fun hh => hinc (Or.inr hh)
        have hm : ¬ ghMoves s.bags X black e = true := fun hm => hinc (moves_iff.1 hm).1
        have e1 : mvEdge s X black e = e := by simp [mvEdge, hm]
        rw [e1]
        refine ⟨x, y, hx, hy, ?_, ?_, hxy⟩
        · rw [h.bagIdx' hpt hx, if_neg (by rw [bx]; exact hn1), bx]
        · rw [h.bagIdx' hpt hy, if_neg (by rw [by']; exact hn2), by']
  · refine ⟨fun i => if i = s.bags.length then true else if i = X then false else dark s black i, c, List.mem_cons_self, ⟨?_, ?_⟩, ?_, ?_⟩
    · simp [hne X hX]
    · intro e1 he1 hcr
      rcases mem_splitEdges.1 he1 with ⟨e, he, rfl⟩ | rfl
      · exfalso
        apply hcr
        have hlt := hi.lt e he
        by_cases hm : ghMoves s.bags X black e = true
        · obtain ⟨h1, h2, h3⟩ := hi.otherEnd_spec he (moves_iff.1 hm).1
          have e1 : mvEdge s X black e = (s.bags.length, otherEnd X e, e.2.2) := by simp [mvEdge, hm]
          rw [e1]
          simp only [if_true, if_neg (hne _ h2), if_neg h1]
          exact ((moves_iff.1 hm).2).symm
        · have e1 : mvEdge s X black e = e := by simp [mvEdge, hm]
          rw [e1]
          simp only [if_neg (hne _ hlt.1), if_neg (hne _ hlt.2)]
          by_cases hinc : e.1 = X ∨ e.2.1 = X
          · obtain ⟨h1, h2, h3⟩ := hi.otherEnd_spec he hinc
            have hd : dark s black (otherEnd X e) = false := by
              cases hd : dark s black (otherEnd X e)
              · rfl
              · exact absurd (moves_iff.2 ⟨hinc, hd⟩) hm
            rcases h3 with ⟨e3, e4⟩ | ⟨e3, e4⟩
            · rw [if_pos e3, e4, if_neg h1, hd]
            · rw [e3, if_neg h1, hd, if_pos e4]
          · have hn1 : e.1 ≠ X := fun hh => hinc (Or.inl hh)
            have hn2 : e.2.1 ≠ X := fun hh => hinc (Or.inr hh)
            rw [if_neg hn1, if_neg hn2]
            exact h.dark_conn hlt.1 hlt.2 hn1 hn2 (EqvGen.rel _ _ (mem_forestArcs.2 ⟨e, he, rfl, rfl, hn1, hn2⟩))
      · rfl
    · intro v hv
      rw [← hc v hv, h.bagIdx' hpt hv]
      have hb := (bag_of_lt hi.perm hv).1
      by_cases hv2 : bagIdx s.bags v = X
      · rw [if_pos hv2]
        cases hcv : black v
        · simp [hne X hX]
        · simp
      · rw [if_neg hv2]
        simp only [if_neg (hne _ hb), if_neg hv2]
        exact (h.dark_eq hv hv2).symm
    · intro h0
      refine ⟨src, snk, s1, t1, bsrc, bsnk, ?_⟩
      intro W hW
      rw [hsz h0]
      cases hws : W src
      · have hwt : W snk = true := by cases hh : W snk with
          | false => rw [hws, hh] at hW; exact absurd rfl hW
          | true => rfl
        rw [← gcut_not N ws W]
        exact h.min h0 _ (by simp [hws]) (by simp [hwt])
      · have hwt : W snk = false := by cases hh : W snk with
          | false => rfl
          | true => rw [hws, hh] at hW; exact absurd rfl hW
        exact h.min h0 W hws hwt

theorem ghStep_span (hmf : mf.Correct) (hpt : pt.Correct) (hi : GHInv N ws s) {calls : List GHCall} (hsp : GHSpan N ws s calls)
    (hs : ghStep mf pt N ws s = some (s', c)) : GHSpan N ws s' (c :: calls) := by
  unfold ghStep at hs
  split at hs
  · simp at hs
  · rename_i X rest hst
    obtain ⟨hctx, hsize⟩ := ghStep_ctx hmf hi hst
    simp only at hs hctx hsize
    generalize hr : mf _ _ _ _ _ = r at hs hctx hsize
    simp only [Option.some.injEq, Prod.mk.injEq] at hs
    obtain ⟨rfl, rfl⟩ := hs
    have hmem : ∀ v, v ∈ s.storage ↔ v < N := fun v => by rw [hi.storage.mem_iff, List.mem_range]
    refine hctx.span hpt r.1 hsp ?_ hsize
    intro v hv
    simp only [hpt.mem_left, hmem, hv, true_and]
    cases r.2 (ghPos s X v) <;> simp

/-- membership as a number modulo two -/
def ind (b : Bool) : ZMod 2 := if b then 1 else 0

theorem ind_add_eq_zero {a b : Bool} : ind a + ind b = 0 ↔ a = b := by
  cases a <;> cases b <;> decide

theorem ind_ne {a b : Bool} (h : a ≠ b) : ind a + ind b = 1 := by
  cases a <;> cases b <;> first | exact absurd rfl h | decide

theorem zmod2_cases (z : ZMod 2) : z = 0 ∨ z = 1 := by
  revert z; decide

/-- at the end every node is alone in its bag -/
theorem GHInv.single (hi : GHInv N ws s) (hst : s.stack = []) {u v : Nat} (hu : u < N) (hv : v < N) (h : bagIdx s.bags u = bagIdx s.bags v) : u = v := by
  obtain ⟨b1, b2⟩ := bag_of_lt hi.perm hu
  obtain ⟨_, b4⟩ := bag_of_lt hi.perm hv
  have hle : (s.bags.getD (bagIdx s.bags u) []).length ≤ 1 := by
    by_contra hh
    have := (hi.stack (bagIdx s.bags u)).2 ⟨b1, by omega⟩
    rw [hst] at this
    simp at this
  rw [← h] at b4
  match hb : s.bags.getD (bagIdx s.bags u) [], b2, b4, hle with
  | [], b2, _, _ => simp at b2
  | [z], b2, b4, _ => rw [List.mem_singleton.1 b2, List.mem_singleton.1 b4]
  | _ :: _ :: _, _, _, hle => simp at hle

/-- every set of nodes is, up to the complement, a symmetric difference of reported cuts that are not bigger -/
theorem GHSpan.xor {calls : List GHCall} (hi : GHInv N ws s) (hsp : GHSpan N ws s calls) (hst : s.stack = []) (h0 : ∀ q ∈ ws, 0 ≤ q)
    (W : Nat → Bool) : ∃ (k : ZMod 2) (L : List GHCall), (∀ c ∈ L, c ∈ calls ∧ c.size ≤ gcut N ws W) ∧
      ∀ v < N, ind (W v) = k + (L.map fun c => ind (decide (v ∈ c.compU))).sum := by
  classical
  haveI : Inhabited GHCall := ⟨⟨0, 0, 0, [], []⟩⟩
  choose! D c hc hD hDc hmin using hsp
  let node : Nat → Nat := fun i => (s.bags.getD i []).headD 0
  have hnode : ∀ i < s.bags.length, node i < N ∧ bagIdx s.bags (node i) = i := fun i hl => bag_mem hi.perm (hi.head_mem hl)
  have hback : ∀ v < N, node (bagIdx s.bags v) = v := fun v hv => by
    have h1 := hnode _ (bag_of_lt hi.perm hv).1
    exact hi.single hst h1.1 hv h1.2
  let K : Finset (Nat × Nat × ℚ) := s.edges.toFinset.filter fun e => W (node e.1) ≠ W (node e.2.1)
  have hK : ∀ e, e ∈ K ↔ e ∈ s.edges ∧ W (node e.1) ≠ W (node e.2.1) := fun e => by simp [K]
  let Z : Nat → ZMod 2 := fun i => ∑ e ∈ K, ind (D e i)
  have hstep : ∀ e ∈ s.edges, ind (W (node e.1)) + Z e.1 = ind (W (node e.2.1)) + Z e.2.1 := by
    intro e he
    have h1 : Z e.1 + Z e.2.1 = ∑ e' ∈ K, if e' = e then 1 else 0 := by
      simp only [Z]
      rw [← Finset.sum_add_distrib]
      refine Finset.sum_congr rfl fun e' he' => ?_
      have hs' := hD e' ((hK e').1 he').1
      by_cases hee : e' = e
      · subst hee
        rw [if_pos rfl]
        exact ind_ne hs'.1
      · rw [if_neg hee, ind_add_eq_zero]
        by_contra hne
        exact hee (hs'.2 e he hne).symm
    rw [Finset.sum_ite_eq' K e fun _ => (1 : ZMod 2)] at h1
    have h2 : ind (W (node e.1)) + ind (W (node e.2.1)) = if e ∈ K then 1 else 0 := by
      by_cases hh : W (node e.1) = W (node e.2.1)
      · rw [if_neg fun hk => ((hK e).1 hk).2 hh]; exact ind_add_eq_zero.2 hh
      · rw [if_pos ((hK e).2 ⟨he, hh⟩)]; exact ind_ne hh
    have h3 : (ind (W (node e.1)) + Z e.1) + (ind (W (node e.2.1)) + Z e.2.1) = 0 := by
      calc _ = (ind (W (node e.1)) + ind (W (node e.2.1))) + (Z e.1 + Z e.2.1) := by ring
        _ = 0 := by rw [h1, h2]; exact CharTwo.add_self_eq_zero _
    exact CharTwo.add_eq_zero.1 h3
  have hconst : ∀ i j, ReflTransGen (SAdj s.edges) i j → ind (W (node i)) + Z i = ind (W (node j)) + Z j := by
    intro i j hij
    induction hij with
    | refl => rfl
    | tail _ hbc ih =>
      obtain ⟨e, he, ⟨rfl, rfl⟩ | ⟨rfl, rfl⟩⟩ := hbc
      · exact ih.trans (hstep e he)
      · exact ih.trans (hstep e he).symm
  refine ⟨ind (W (node 0)) + Z 0, K.toList.map c, ?_, ?_⟩
  · intro c' hc'
    obtain ⟨e, he, rfl⟩ := List.mem_map.1 hc'
    obtain ⟨he1, he2⟩ := (hK e).1 (Finset.mem_toList.1 he)
    refine ⟨hc e he1, ?_⟩
    obtain ⟨x, y, hx, hy, bx, by', hxy⟩ := hmin e he1 h0
    refine hxy W ?_
    rwa [← bx, ← by', hback x hx, hback y hy] at he2
  · intro v hv
    have hb := (bag_of_lt hi.perm hv).1
    have h1 := hconst _ _ (hi.conn 0 (by omega) _ hb)
    rw [hback v hv] at h1
    have h2 : ((K.toList.map c).map fun c => ind (decide (v ∈ c.compU))).sum = Z (bagIdx s.bags v) := by
      rw [List.map_map, Finset.sum_map_toList]
      refine Finset.sum_congr rfl fun e he => ?_
      simp only [Function.comp]
      rw [hDc e ((hK e).1 he).1 v hv]
    rw [h2, h1, add_assoc, CharTwo.add_self_eq_zero, add_zero]

theorem ghLoop_span (hmf : mf.Correct) (hpt : pt.Correct) (fuel : Nat) {calls : List GHCall}
    (hi : GHInv N ws s) (hc : GHCalls N ws s calls) (hsp : GHSpan N ws s calls) (hf : N ≤ s.bags.length + fuel) :
    ∃ s' calls', GHInv N ws s' ∧ GHSpan N ws s' calls' ∧ s'.stack = [] ∧ (ghLoop mf pt N ws (fun _ => false) fuel s calls).1 = calls'.reverse := by
  induction fuel generalizing s calls with
  | zero =>
    refine ⟨s, calls, hi, hsp, ?_, rfl⟩
    have h := (ghLoop_result (stop := fun _ => false) hmf hpt 0 hi hc hf (by simp)).ended
    simpa [ghLoop] using h
  | succ fuel ih =>
    unfold ghLoop
    cases hs : ghStep mf pt N ws s with
    | none => exact ⟨s, calls, hi, hsp, ghStep_none hs, rfl⟩
    | some sc =>
      obtain ⟨s', c⟩ := sc
      obtain ⟨hi', hc'⟩ := ghStep_inv hmf hpt hi hc hs
      have hlen := hc.len
      have hlen' := hc'.len
      simp only [List.length_cons] at hlen'
      simp only [Bool.false_eq_true, if_false]
      exact ih hi' hc' (ghStep_span hmf hpt hi hsp hs) (by omega)

/-- the cuts reported by the construction span all sets of nodes -/
theorem createGomoryHuTree_span (hmf : mf.Correct) (hpt : pt.Correct) {N : Nat} {ws : List ℚ} (h0 : ∀ q ∈ ws, 0 ≤ q) {fuel : Nat} (hf : N - 1 ≤ fuel)
    (W : Nat → Bool) : ∃ (k : ZMod 2) (L : List GHCall),
      (∀ c ∈ L, c ∈ (createGomoryHuTree mf pt N ws (fun _ => false) fuel).1 ∧ c.size ≤ cutWeight N (edgeWeight ws) W) ∧
      ∀ v < N, ind (W v) = k + (L.map fun c => ind (decide (v ∈ c.compU))).sum := by
  unfold createGomoryHuTree
  by_cases h : N ≤ 1
  · refine ⟨ind (W 0), [], by simp, ?_⟩
    intro v hv
    have : v = 0 := by omega
    simp [this]
  · rw [if_neg h]
    obtain ⟨h1, h2⟩ := ghInit_inv (ws := ws) (show 2 ≤ N by omega)
    obtain ⟨s', calls', a1, a2, a3, a4⟩ := ghLoop_span hmf hpt fuel h1 h2 (by intro e he; simp [ghInit] at he) (by simp [ghInit]; omega)
    rw [a4]
    obtain ⟨k, L, b1, b2⟩ := a2.xor a1 a3 h0 W
    refine ⟨k, L, ?_, b2⟩
    intro c hc
    rw [← gcut_eq]
    exact ⟨List.mem_reverse.2 (b1 c hc).1, (b1 c hc).2⟩

end Mtsp
