import Verif.Model.Linear

/-! Helper lemmas on linear expressions. -/

namespace Mtsp

theorem foldl_add_init {α : Type} (f : α → ℚ) (l : List α) (r : ℚ) :
    l.foldl (fun r p => r + f p) r = r + (l.map f).sum := by
  induction l generalizing r with
  | nil => simp
  | cons a l ih => simp only [List.foldl_cons, List.map_cons, List.sum_cons, ih]; ring

namespace LinComp

/-- sum of `coef * x id` -/
def lin (x : Nat → ℚ) (m : List (Nat × ℚ)) : ℚ := (m.map fun p => p.2 * x p.1).sum

theorem eval_eq (x : Nat → ℚ) (l : LinComp) : l.eval x = l.const + lin x l.coefs := by
  unfold eval lin; rw [foldl_add_init (fun p : Nat × ℚ => p.2 * x p.1)]

theorem lin_upsert (x : Nat → ℚ) (i : Nat) (c : ℚ) (m : List (Nat × ℚ)) :
    lin x (upsert i c m) = lin x m + c * x i := by
  induction m with
  | nil => simp [upsert, lin]
  | cons p m ih =>
    obtain ⟨j, d⟩ := p
    unfold upsert
    split
    · next h => subst h; simp [lin]; ring
    · simp only [lin, List.map_cons, List.sum_cons] at *; rw [ih]; ring

theorem lin_foldl_upsert (x : Nat → ℚ) (r m : List (Nat × ℚ)) :
    lin x (r.foldl (fun m p => upsert p.1 p.2 m) m) = lin x m + lin x r := by
  induction r generalizing m with
  | nil => simp [lin]
  | cons p r ih => simp only [List.foldl_cons, ih, lin_upsert]; simp [lin]; ring

theorem lin_map_mul (x : Nat → ℚ) (f : ℚ) (m : List (Nat × ℚ)) :
    lin x (m.map fun p => (p.1, p.2 * f)) = f * lin x m := by
  induction m with
  | nil => simp [lin]
  | cons p m ih => simp only [lin, List.map_cons, List.sum_cons] at *; rw [ih]; ring

@[simp] theorem eval_zero (x) : zero.eval x = 0 := rfl
@[simp] theorem eval_ofConst (x) (c : ℚ) : (ofConst c).eval x = c := rfl
@[simp] theorem eval_ofVar (x) (i : Nat) : (ofVar i).eval x = x i := by simp [eval, ofVar]
@[simp] theorem eval_addAssign (x) (a b : LinComp) : (addAssign a b).eval x = a.eval x + b.eval x := by
  simp only [eval_eq, addAssign, lin_foldl_upsert]; ring
@[simp] theorem eval_add (x) (a b : LinComp) : (add a b).eval x = a.eval x + b.eval x := by
  unfold add; split <;> simp only [eval_addAssign]; ring
@[simp] theorem eval_addConst (x) (a : LinComp) (c : ℚ) : (addConst a c).eval x = a.eval x + c := by
  simp only [eval_eq, addConst]; ring
@[simp] theorem eval_smul (x) (f : ℚ) (a : LinComp) : (smul f a).eval x = f * a.eval x := by
  simp only [eval_eq, smul, lin_map_mul]; ring
@[simp] theorem eval_neg (x) (a : LinComp) : (neg a).eval x = - a.eval x := by
  simp only [eval_eq, neg, lin_map_mul]; ring
@[simp] theorem eval_sub (x) (a b : LinComp) : (sub a b).eval x = a.eval x - b.eval x := by
  simp only [sub, eval_add, eval_neg]; ring

/-- keys of the map -/
def keys (l : LinComp) : List Nat := l.coefs.map Prod.fst

theorem upsert_keys (i : Nat) (c : ℚ) (m : List (Nat × ℚ)) :
    (upsert i c m).map Prod.fst = if i ∈ m.map Prod.fst then m.map Prod.fst else m.map Prod.fst ++ [i] := by
  induction m with
  | nil => simp [upsert]
  | cons p m ih =>
    obtain ⟨j, d⟩ := p
    unfold upsert
    split
    · next h => subst h; simp
    · next h =>
      simp only [List.map_cons, ih, List.mem_cons]
      have h' : ¬ i = j := fun e => h e.symm
      simp only [h', false_or]
      split <;> simp

theorem upsert_nodup (i : Nat) (c : ℚ) (m : List (Nat × ℚ)) (h : (m.map Prod.fst).Nodup) :
    ((upsert i c m).map Prod.fst).Nodup := by
  rw [upsert_keys]; split
  · exact h
  · next hi => rw [List.nodup_append]; refine ⟨h, by simp, ?_⟩
               intro a ha b hb; simp at hb; subst hb; rintro rfl; exact hi ha

theorem foldl_upsert_nodup (r m : List (Nat × ℚ)) (h : (m.map Prod.fst).Nodup) :
    ((r.foldl (fun m p => upsert p.1 p.2 m) m).map Prod.fst).Nodup := by
  induction r generalizing m with
  | nil => exact h
  | cons p r ih => exact ih _ (upsert_nodup _ _ _ h)

end LinComp

namespace LinCon

theorem value_eq (x : Nat → ℚ) (c : LinCon) : c.value x = LinComp.lin x c.coefs := by
  unfold value LinComp.lin; rw [foldl_add_init (fun p : Nat × ℚ => p.2 * x p.1)]; simp

theorem value_le (x a b) : (le a b).value x = a.eval x - b.eval x - (LinComp.sub a b).const := by
  rw [value_eq, ← LinComp.eval_sub, LinComp.eval_eq]; simp [le]
theorem value_ge (x a b) : (ge a b).value x = a.eval x - b.eval x - (LinComp.sub a b).const := by
  rw [value_eq, ← LinComp.eval_sub, LinComp.eval_eq]; simp [ge]
theorem value_eqc (x a b) : (eq a b).value x = a.eval x - b.eval x - (LinComp.sub a b).const := by
  rw [value_eq, ← LinComp.eval_sub, LinComp.eval_eq]; simp [eq]

/-- `==` row: exact meaning -/
theorem sat_eq (x a b) : (eq a b).Sat x ↔ a.eval x = b.eval x := by
  unfold Sat; rw [value_eqc]; simp only [eq]
  constructor
  · rintro ⟨h1, h2⟩; linarith
  · intro h; constructor <;> linarith

/-- `>=` row: exact meaning of the lower side -/
theorem ge_lower (x a b) : (ge a b).lower ≤ (ge a b).value x ↔ b.eval x ≤ a.eval x := by
  rw [value_ge]; simp only [ge]; constructor <;> intro h <;> linarith

theorem le_upper (x a b) : (le a b).value x ≤ (le a b).upper ↔ a.eval x ≤ b.eval x := by
  rw [value_le]; simp only [le]; constructor <;> intro h <;> linarith

theorem sat_ge_iff (x a b) : (ge a b).Sat x ↔ b.eval x ≤ a.eval x ∧ (ge a b).value x ≤ dblMax := by
  unfold Sat; rw [ge_lower]; simp [ge]

theorem sat_le_iff (x a b) : (le a b).Sat x ↔ -dblMax ≤ (le a b).value x ∧ a.eval x ≤ b.eval x := by
  unfold Sat; rw [le_upper]; simp [le]

end LinCon
end Mtsp
