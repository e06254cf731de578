import Verif.Proof.LP

/-! Which variables the rows of the LP and the cuts mention: variables that exist, each of them once. -/

namespace Mtsp

/-- the value of the expression depends on the variables below `B` only -/
def LinComp.Local (B : Nat) (l : LinComp) : Prop := ∀ x x' : Nat → ℚ, (∀ i < B, x i = x' i) → l.eval x = l.eval x'

/-- whether the row holds depends on the variables below `B` only -/
def LinCon.Local (B : Nat) (c : LinCon) : Prop := ∀ x x' : Nat → ℚ, (∀ i < B, x i = x' i) → c.Sat x → c.Sat x'

/-- the variables of the expression are below `n` and distinct -/
def LinComp.Fits (n : Nat) (c : LinComp) : Prop := (c.coefs.map Prod.fst).Nodup ∧ ∀ p ∈ c.coefs, p.1 < n

/-- the variables of the constraint are below `n` and distinct -/
def LinCon.Fits (n : Nat) (c : LinCon) : Prop := (c.coefs.map Prod.fst).Nodup ∧ ∀ p ∈ c.coefs, p.1 < n

theorem lin_congr {x x' : Nat → ℚ} {m : List (Nat × ℚ)} (h : ∀ p ∈ m, x p.1 = x' p.1) : LinComp.lin x m = LinComp.lin x' m := by
  unfold LinComp.lin
  congr 1
  exact List.map_congr_left fun p hp => by rw [h p hp]

theorem LinComp.Fits.local {B : Nat} {l : LinComp} (h : l.Fits B) : l.Local B := by
  intro x x' hx
  rw [LinComp.eval_eq, LinComp.eval_eq, lin_congr fun p hp => hx p.1 (h.2 p hp)]

theorem LinCon.Fits.local {B : Nat} {c : LinCon} (h : c.Fits B) : c.Local B := by
  intro x x' hx hs
  unfold LinCon.Sat at hs ⊢
  rw [LinCon.value_eq] at hs ⊢
  rw [← lin_congr (x := x) fun p hp => hx p.1 (h.2 p hp)]; exact hs

theorem LinCon.Fits.mono {B B' : Nat} {c : LinCon} (h : c.Fits B) (hb : B ≤ B') : c.Fits B' :=
  ⟨h.1, fun p hp => lt_of_lt_of_le (h.2 p hp) hb⟩
theorem LinComp.Fits.mono {B B' : Nat} {c : LinComp} (h : c.Fits B) (hb : B ≤ B') : c.Fits B' :=
  ⟨h.1, fun p hp => lt_of_lt_of_le (h.2 p hp) hb⟩

namespace LinComp

theorem Fits.const (B : Nat) (c : ℚ) : (LinComp.ofConst c).Fits B := ⟨by simp [ofConst], by simp [ofConst]⟩
theorem Fits.zero (B : Nat) : LinComp.zero.Fits B := ⟨by simp [LinComp.zero], by simp [LinComp.zero]⟩
theorem Fits.var {B i : Nat} (h : i < B) : (LinComp.ofVar i).Fits B := ⟨by simp [ofVar], by simp [ofVar, h]⟩

theorem upsert_lt {B i : Nat} {c : ℚ} {m : List (Nat × ℚ)} (hi : i < B) (h : ∀ p ∈ m, p.1 < B) : ∀ p ∈ upsert i c m, p.1 < B := by
  intro p hp
  have hm : p.1 ∈ (upsert i c m).map Prod.fst := List.mem_map_of_mem hp
  rw [upsert_keys] at hm
  have h' : ∀ k ∈ m.map Prod.fst, k < B := by
    intro k hk; obtain ⟨q, hq, rfl⟩ := List.mem_map.1 hk; exact h q hq
  split at hm
  · exact h' _ hm
  · rcases List.mem_append.1 hm with hm | hm
    · exact h' _ hm
    · simp at hm; omega

theorem foldl_upsert_lt {B : Nat} (r : List (Nat × ℚ)) : ∀ m : List (Nat × ℚ), (∀ p ∈ r, p.1 < B) → (∀ p ∈ m, p.1 < B) →
    ∀ p ∈ r.foldl (fun m p => upsert p.1 p.2 m) m, p.1 < B := by
  induction r with
  | nil => intro m _ h; exact h
  | cons q r ih =>
    intro m hr h
    exact ih _ (fun p hp => hr p (List.mem_cons_of_mem _ hp)) (upsert_lt (hr q List.mem_cons_self) h)

theorem Fits.addAssign {B : Nat} {a b : LinComp} (ha : a.Fits B) (hb : b.Fits B) : (a.addAssign b).Fits B :=
  ⟨foldl_upsert_nodup _ _ ha.1, foldl_upsert_lt _ _ hb.2 ha.2⟩
theorem Fits.add {B : Nat} {a b : LinComp} (ha : a.Fits B) (hb : b.Fits B) : (a.add b).Fits B := by
  unfold LinComp.add; split
  · exact ha.addAssign hb
  · exact hb.addAssign ha
theorem Fits.smul {B : Nat} {a : LinComp} (f : ℚ) (ha : a.Fits B) : (LinComp.smul f a).Fits B := by
  constructor
  · have : (LinComp.smul f a).coefs.map Prod.fst = a.coefs.map Prod.fst := by simp [LinComp.smul, Function.comp_def]
    rw [this]; exact ha.1
  · intro p hp
    simp only [LinComp.smul, List.mem_map] at hp
    obtain ⟨q, hq, rfl⟩ := hp
    exact ha.2 q hq
theorem Fits.neg {B : Nat} {a : LinComp} (ha : a.Fits B) : a.neg.Fits B := ha.smul (-1)
theorem Fits.sub {B : Nat} {a b : LinComp} (ha : a.Fits B) (hb : b.Fits B) : (a.sub b).Fits B := ha.add hb.neg

theorem Fits.sumVars {B : Nat} {ids : List Nat} (h : ∀ i ∈ ids, i < B) : (Mtsp.sumVars ids).Fits B := by
  unfold Mtsp.sumVars
  suffices H : ∀ (l : List Nat) (c : LinComp), (∀ i ∈ l, i < B) → c.Fits B →
      (l.foldl (fun c i => c.addAssign (.ofVar i)) c).Fits B from H ids _ h (.zero _)
  intro l
  induction l with
  | nil => intro c _ h; exact h
  | cons i l ih =>
    intro c hl hc
    exact ih _ (fun j hj => hl j (List.mem_cons_of_mem _ hj)) (hc.addAssign (.var (hl i List.mem_cons_self)))

end LinComp

theorem LinCon.Fits.eq {B : Nat} {a b : LinComp} (ha : a.Fits B) (hb : b.Fits B) : (LinCon.eq a b).Fits B := ha.sub hb
theorem LinCon.Fits.le {B : Nat} {a b : LinComp} (ha : a.Fits B) (hb : b.Fits B) : (LinCon.le a b).Fits B := ha.sub hb
theorem LinCon.Fits.ge {B : Nat} {a b : LinComp} (ha : a.Fits B) (hb : b.Fits B) : (LinCon.ge a b).Fits B := ha.sub hb

theorem foldl_fits {α : Type} {B : Nat} {f : LinComp → α → LinComp} (l : List α) : ∀ c : LinComp,
    (∀ a ∈ l, ∀ c : LinComp, c.Fits B → (f c a).Fits B) → c.Fits B → (l.foldl f c).Fits B := by
  induction l with
  | nil => intro c _ h; exact h
  | cons a l ih =>
    intro c hf h
    exact ih _ (fun b hb => hf b (List.mem_cons_of_mem _ hb)) (hf a List.mem_cons_self c h)

end Mtsp
