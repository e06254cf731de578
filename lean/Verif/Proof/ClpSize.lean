import Verif.Proof.ClpLP

/-! How many entries the rows of an instance have. -/

namespace Mtsp

theorem upsert_length (i : Nat) (c : ℚ) (m : List (Nat × ℚ)) : (LinComp.upsert i c m).length ≤ m.length + 1 := by
  induction m with
  | nil => simp [LinComp.upsert]
  | cons p m ih =>
    obtain ⟨j, d⟩ := p
    unfold LinComp.upsert
    split
    · simp
    · simp only [List.length_cons]; omega

theorem foldl_upsert_length (r : List (Nat × ℚ)) : ∀ m : List (Nat × ℚ),
    (r.foldl (fun m p => LinComp.upsert p.1 p.2 m) m).length ≤ m.length + r.length := by
  induction r with
  | nil => intro m; simp
  | cons p r ih =>
    intro m
    have h1 := ih (LinComp.upsert p.1 p.2 m)
    have h2 := upsert_length p.1 p.2 m
    simp only [List.foldl_cons, List.length_cons]; omega

theorem addAssign_length (a b : LinComp) : (a.addAssign b).coefs.length ≤ a.coefs.length + b.coefs.length :=
  foldl_upsert_length _ _
theorem sub_length (a b : LinComp) : (a.sub b).coefs.length ≤ a.coefs.length + b.coefs.length := by
  have hn : b.neg.coefs.length = b.coefs.length := by simp [LinComp.neg]
  unfold LinComp.sub LinComp.add
  split
  · have := addAssign_length a b.neg; omega
  · have := addAssign_length b.neg a; omega

theorem sumVars_length (ids : List Nat) : (sumVars ids).coefs.length ≤ ids.length := by
  unfold sumVars
  suffices H : ∀ (l : List Nat) (c : LinComp), (l.foldl (fun c i => c.addAssign (.ofVar i)) c).coefs.length ≤ c.coefs.length + l.length by
    have := H ids .zero; simpa [LinComp.zero] using this
  intro l
  induction l with
  | nil => intro c; simp
  | cons i l ih =>
    intro c
    have h1 := ih (c.addAssign (.ofVar i))
    have h2 := addAssign_length c (.ofVar i)
    simp only [LinComp.ofVar, List.length_cons, List.length_nil] at h2 h1
    simp only [List.foldl_cons, List.length_cons, LinComp.ofVar]; omega

theorem eq_length {a b : LinComp} {k l : Nat} (ha : a.coefs.length ≤ k) (hb : b.coefs.length ≤ l) :
    (LinCon.eq a b).coefs.length ≤ k + l := le_trans (sub_length a b) (by omega)
theorem le_length {a b : LinComp} {k l : Nat} (ha : a.coefs.length ≤ k) (hb : b.coefs.length ≤ l) :
    (LinCon.le a b).coefs.length ≤ k + l := le_trans (sub_length a b) (by omega)
theorem ge_length {a b : LinComp} {k l : Nat} (ha : a.coefs.length ≤ k) (hb : b.coefs.length ≤ l) :
    (LinCon.ge a b).coefs.length ≤ k + l := le_trans (sub_length a b) (by omega)

theorem nnz_flatMap {α : Type} (l : List α) (f : α → List LinCon) (k : Nat) (h : ∀ a ∈ l, nnz (f a) ≤ k) : nnz (l.flatMap f) ≤ l.length * k := by
  induction l with
  | nil => simp [nnz]
  | cons a l ih =>
    rw [List.flatMap_cons, nnz_append, List.length_cons, Nat.succ_mul]
    have := h a List.mem_cons_self
    have := ih fun b hb => h b (List.mem_cons_of_mem _ hb)
    omega

theorem nnz_map {α : Type} (l : List α) (f : α → LinCon) (k : Nat) (h : ∀ a ∈ l, (f a).coefs.length ≤ k) : nnz (l.map f) ≤ l.length * k := by
  induction l with
  | nil => simp [nnz]
  | cons a l ih =>
    rw [List.map_cons, nnz_cons, List.length_cons, Nat.succ_mul]
    have := h a List.mem_cons_self
    have := ih fun b hb => h b (List.mem_cons_of_mem _ hb)
    omega

theorem length_flatMap_le {α β : Type} (l : List α) (f : α → List β) (k : Nat) (h : ∀ a ∈ l, (f a).length ≤ k) : (l.flatMap f).length ≤ l.length * k := by
  induction l with
  | nil => simp
  | cons a l ih =>
    rw [List.flatMap_cons, List.length_append, List.length_cons, Nat.succ_mul]
    have := h a List.mem_cons_self
    have := ih fun b hb => h b (List.mem_cons_of_mem _ hb)
    omega

theorem idsIn_length (A N n : Nat) : (idsIn A N n).length = A * N := by simp [idsIn, List.length_flatMap]
theorem idsOut_length (A N n : Nat) : (idsOut A N n).length = A * N := by simp [idsOut, List.length_flatMap]

theorem sumMap_length {α : Type} (l : List α) (f : α → Nat) : (sumVars (l.map f)).coefs.length ≤ l.length := by
  simpa using sumVars_length (l.map f)

theorem const_length (c : ℚ) : (LinComp.ofConst c).coefs.length ≤ 0 := by simp [LinComp.ofConst]
theorem var_length (i : Nat) : (LinComp.ofVar i).coefs.length ≤ 1 := by simp [LinComp.ofVar]

theorem nnz_diag (A N : Nat) : nnz (conDiag A N) ≤ A * N := by
  have := nnz_flatMap (List.range A) (fun a => (List.range N).map fun n => LinCon.eq (.ofVar (varId N a n n)) (.ofConst 0)) N (by
    intro a _
    have := nnz_map (List.range N) (fun n => LinCon.eq (.ofVar (varId N a n n)) (.ofConst 0)) 1 (fun n _ => eq_length (var_length _) (const_length _))
    simpa using this)
  simpa [conDiag] using this

theorem nnz_degree (A N : Nat) (starts : List Nat) : nnz (conDegree A N starts) ≤ N * (A * N + (A * N + A * (N + N))) := by
  have := nnz_flatMap (List.range N) (fun n =>
    LinCon.eq (sumVars (idsIn A N n)) (.ofConst 1) :: LinCon.eq (sumVars (idsOut A N n)) (.ofConst 1) ::
    (if n ∈ starts then []
     else (List.range A).map fun a =>
      LinCon.eq (sumVars ((List.range N).map fun m => varId N a m n)) (sumVars ((List.range N).map fun m => varId N a n m))))
    (A * N + (A * N + A * (N + N))) (by
    intro n _
    rw [nnz_cons, nnz_cons]
    have h1 := eq_length (l := 0) (sumVars_length (idsIn A N n)) (const_length 1)
    have h2 := eq_length (l := 0) (sumVars_length (idsOut A N n)) (const_length 1)
    rw [idsIn_length] at h1
    rw [idsOut_length] at h2
    have h3 : nnz (if n ∈ starts then [] else (List.range A).map fun a =>
        LinCon.eq (sumVars ((List.range N).map fun m => varId N a m n)) (sumVars ((List.range N).map fun m => varId N a n m))) ≤ A * (N + N) := by
      split
      · simp [nnz]
      · have := nnz_map (List.range A) (fun a => LinCon.eq (sumVars ((List.range N).map fun m => varId N a m n)) (sumVars ((List.range N).map fun m => varId N a n m)))
          (N + N) (fun a _ => eq_length (by simpa using sumMap_length (List.range N) _) (by simpa using sumMap_length (List.range N) _))
        simpa using this
    omega)
  simpa [conDegree] using this

theorem nnz_startEnd (A N : Nat) (starts ends : List Nat) : nnz (conStartEnd A N starts ends) ≤ A * (N + (N + 1)) := by
  have := nnz_flatMap (List.range A) (fun a =>
    [LinCon.eq (sumVars ((List.range N).map fun v => varId N a (starts.getD a 0) v)) (.ofConst 1),
     LinCon.eq (sumVars ((List.range N).map fun u => varId N a u (ends.getD a 0))) (.ofConst 1),
     LinCon.eq (.ofVar (varId N a (ends.getD a 0) (starts.getD ((a + 1) % A) 0))) (.ofConst 1)]) (N + (N + 1)) (by
    intro a _
    rw [nnz_cons, nnz_cons, nnz_cons, nnz_nil]
    have h1 := eq_length (l := 0) (sumMap_length (List.range N) fun v => varId N a (starts.getD a 0) v) (const_length 1)
    have h2 := eq_length (l := 0) (sumMap_length (List.range N) fun u => varId N a u (ends.getD a 0)) (const_length 1)
    have h3 := eq_length (l := 0) (var_length (varId N a (ends.getD a 0) (starts.getD ((a + 1) % A) 0))) (const_length 1)
    rw [List.length_range] at h1 h2
    omega)
  simpa [conStartEnd] using this

theorem nnz_dep (A N : Nat) (starts ends : List Nat) (u v : Nat) : nnz (conDep A N starts ends u v) ≤
    A + A * (N + N) + starts.length * A + ends.length * A := by
  unfold conDep
  rw [nnz_append, nnz_append, nnz_append]
  have c0 : ∀ u' v', (LinCon.eq (sumVars ((List.range A).map fun a => varId N a u' v')) (.ofConst 0)).coefs.length ≤ A := by
    intro u' v'
    have := eq_length (l := 0) (sumMap_length (List.range A) fun a => varId N a u' v') (const_length 0)
    simpa using this
  have h1 : nnz (if A > 1 ∨ u ≠ starts.getD 0 0 ∨ v ≠ ends.getD 0 0 then
      [LinCon.eq (sumVars ((List.range A).map fun a => varId N a v u)) (.ofConst 0)] else []) ≤ A := by
    split
    · rw [nnz_cons, nnz_nil]; exact c0 v u
    · simp [nnz]
  have h2 : nnz (if A > 1 then (List.range A).map fun a =>
      LinCon.eq (sumVars ((List.range N).map fun n => varId N a u n)) (sumVars ((List.range N).map fun n => varId N a n v)) else []) ≤ A * (N + N) := by
    split
    · have := nnz_map (List.range A) (fun a => LinCon.eq (sumVars ((List.range N).map fun n => varId N a u n)) (sumVars ((List.range N).map fun n => varId N a n v)))
        (N + N) (fun a _ => eq_length (by simpa using sumMap_length (List.range N) _) (by simpa using sumMap_length (List.range N) _))
      simpa using this
    · simp [nnz]
  have h3 := nnz_map (starts.filter fun s => decide (s ≠ u)) (fun s => LinCon.eq (sumVars ((List.range A).map fun a => varId N a s v)) (.ofConst 0)) A (fun s _ => c0 s v)
  have h4 := nnz_map (ends.filter fun e => decide (e ≠ v)) (fun e => LinCon.eq (sumVars ((List.range A).map fun a => varId N a u e)) (.ofConst 0)) A (fun e _ => c0 u e)
  have h5 := Nat.mul_le_mul_right A (List.length_filter_le (fun s => decide (s ≠ u)) starts)
  have h6 := Nat.mul_le_mul_right A (List.length_filter_le (fun s => decide (s ≠ v)) ends)
  omega

theorem nnz_twoCycles (A N : Nat) : nnz (conTwoCycles A N) ≤ N * (N * (A * 2)) := by
  have := nnz_flatMap (List.range N) (fun u => (List.range' (u + 1) (N - (u + 1))).map fun v =>
    LinCon.le (sumVars ((List.range A).flatMap fun a => [varId N a u v, varId N a v u])) (.ofConst 1)) (N * (A * 2)) (by
    intro u _
    have := nnz_map (List.range' (u + 1) (N - (u + 1))) (fun v =>
      LinCon.le (sumVars ((List.range A).flatMap fun a => [varId N a u v, varId N a v u])) (.ofConst 1)) (A * 2) (by
      intro v _
      have := le_length (l := 0) (sumVars_length ((List.range A).flatMap fun a => [varId N a u v, varId N a v u])) (const_length 1)
      simpa [List.length_flatMap] using this)
    refine le_trans this ?_
    rw [List.length_range']
    exact Nat.mul_le_mul_right _ (by omega))
  simpa [conTwoCycles] using this

/-- an upper bound on the number of entries of all rows of an instance with `A` agents, `N` nodes and `D` dependencies -/
def entriesBound (A N D : Nat) : Nat := 6 * (A * N * N) + 3 * (A * N) + A + D * (A * (1 + 2 * N + 2 * A))

theorem nnz_build (N : Nat) (starts ends : List Nat) (arcs : List (Nat × Nat)) (hl : starts.length = ends.length) :
    nnz (buildConstraints N starts ends arcs) ≤ entriesBound starts.length N arcs.length := by
  unfold buildConstraints entriesBound
  rw [nnz_append, nnz_append, nnz_append, nnz_append]
  have h1 := nnz_diag starts.length N
  have h2 := nnz_degree starts.length N starts
  have h3 := nnz_startEnd starts.length N starts ends
  have h4 := nnz_flatMap arcs (fun uv => conDep starts.length N starts ends uv.1 uv.2) _ (fun uv _ => nnz_dep starts.length N starts ends uv.1 uv.2)
  have h5 := nnz_twoCycles starts.length N
  rw [← hl] at h4
  have e2 : N * (starts.length * N + (starts.length * N + starts.length * (N + N))) = 4 * (starts.length * N * N) := by ring
  have e3 : starts.length * (N + (N + 1)) = 2 * (starts.length * N) + starts.length := by ring
  have e4 : starts.length + starts.length * (N + N) + starts.length * starts.length + starts.length * starts.length =
    starts.length * (1 + 2 * N + 2 * starts.length) := by ring
  have e5 : N * (N * (starts.length * 2)) = 2 * (starts.length * N * N) := by ring
  rw [e2] at h2; rw [e3] at h3; rw [e4] at h4; rw [e5] at h5
  omega

/-- every row has an entry or there is a cheap bound on their number -/
theorem length_build (N : Nat) (starts ends : List Nat) (arcs : List (Nat × Nat)) (hl : starts.length = ends.length)
    (hA : 1 ≤ starts.length) (hN : 2 ≤ N) : (buildConstraints N starts ends arcs).length ≤ entriesBound starts.length N arcs.length := by
  unfold buildConstraints entriesBound
  simp only [List.length_append]
  have h1 : (conDiag starts.length N).length = starts.length * N := by simp [conDiag, List.length_flatMap]
  have h2 : (conDegree starts.length N starts).length ≤ N * (2 + starts.length) := by
    have := length_flatMap_le (List.range N) (fun n =>
      LinCon.eq (sumVars (idsIn starts.length N n)) (.ofConst 1) :: LinCon.eq (sumVars (idsOut starts.length N n)) (.ofConst 1) ::
      (if n ∈ starts then []
       else (List.range starts.length).map fun a =>
        LinCon.eq (sumVars ((List.range N).map fun m => varId N a m n)) (sumVars ((List.range N).map fun m => varId N a n m)))) (2 + starts.length) (by
      intro n _
      simp only [List.length_cons]
      split <;> simp <;> omega)
    simpa [conDegree] using this
  have h3 : (conStartEnd starts.length N starts ends).length = starts.length * 3 := by simp [conStartEnd, List.length_flatMap]
  have h4 := length_flatMap_le arcs (fun uv => conDep starts.length N starts ends uv.1 uv.2) (1 + starts.length + starts.length + starts.length) (by
    intro uv _
    unfold conDep
    simp only [List.length_append, List.length_map]
    have f1 := List.length_filter_le (fun s => decide (s ≠ uv.1)) starts
    have f2 := List.length_filter_le (fun s => decide (s ≠ uv.2)) ends
    have g1 : (if starts.length > 1 ∨ uv.1 ≠ starts.getD 0 0 ∨ uv.2 ≠ ends.getD 0 0 then
      [LinCon.eq (sumVars ((List.range starts.length).map fun a => varId N a uv.2 uv.1)) (.ofConst 0)] else []).length ≤ 1 := by split <;> simp
    have g2 : (if starts.length > 1 then (List.range starts.length).map fun a =>
      LinCon.eq (sumVars ((List.range N).map fun n => varId N a uv.1 n)) (sumVars ((List.range N).map fun n => varId N a n uv.2)) else []).length ≤ starts.length := by
      split <;> simp
    omega)
  have h5 : (conTwoCycles starts.length N).length ≤ N * N := by
    have := length_flatMap_le (List.range N) (fun u => (List.range' (u + 1) (N - (u + 1))).map fun v =>
      LinCon.le (sumVars ((List.range starts.length).flatMap fun a => [varId N a u v, varId N a v u])) (.ofConst 1)) N (by intro u _; simp)
    simpa [conTwoCycles] using this
  obtain ⟨A, hAe⟩ : ∃ A, A = starts.length := ⟨_, rfl⟩
  rw [← hAe] at h1 h2 h3 h4 h5 hA ⊢
  have k1 : N * N ≤ A * N * N := by nlinarith
  have k2 : N * (2 + A) = 2 * N + A * N := by ring
  have k3 : 2 * N ≤ A * N * N := by nlinarith
  have k4 : A * 3 ≤ A * N + A := by nlinarith
  have k5 : 1 + A + A + A ≤ A * (1 + 2 * N + 2 * A) := by nlinarith
  have k6 := Nat.mul_le_mul_left arcs.length k5
  rw [k2] at h2
  omega

/-! ### the objective and its rows -/

theorem addAgentCost_fits {B N : Nat} {w : Weights} {a : Nat} {c : LinComp} (h : ∀ u < N, ∀ v < N, varId N a u v < B) (hc : c.Fits B) :
    (addAgentCost N w a c).Fits B := by
  unfold addAgentCost
  refine foldl_fits _ _ (fun u hu c hc => ?_) hc
  refine foldl_fits _ _ (fun v hv c hc => ?_) hc
  exact hc.addAssign ((LinComp.Fits.var (h u (List.mem_range.1 hu) v (List.mem_range.1 hv))).smul _)

theorem foldl_length {α : Type} {f : LinComp → α → LinComp} (k : Nat) (l : List α) (hf : ∀ c a, (f c a).coefs.length ≤ c.coefs.length + k) :
    ∀ c : LinComp, (l.foldl f c).coefs.length ≤ c.coefs.length + l.length * k := by
  induction l with
  | nil => intro c; simp
  | cons a l ih =>
    intro c
    have h1 := ih (f c a)
    have h2 := hf c a
    rw [List.foldl_cons, List.length_cons, Nat.succ_mul]
    omega

theorem addAgentCost_length (N : Nat) (w : Weights) (a : Nat) (c : LinComp) : (addAgentCost N w a c).coefs.length ≤ c.coefs.length + N * N := by
  unfold addAgentCost
  have := foldl_length (f := fun c u => (List.range N).foldl (fun c v => LinComp.addAssign c (.smul (w u v) (.ofVar (varId N a u v)))) c) N (List.range N) (by
    intro c u
    have := foldl_length (f := fun c v => LinComp.addAssign c (.smul (w u v) (.ofVar (varId N a u v)))) 1 (List.range N) (by
      intro c v
      have := addAssign_length c (.smul (w u v) (.ofVar (varId N a u v)))
      simpa [LinComp.smul, LinComp.ofVar] using this) c
    simpa using this) c
  simpa using this

theorem objective_fits (mode : Mode) (A N : Nat) (w : Weights) :
    (createObjective mode A N w).1.Fits (A * N * N + if mode = .max then 1 else 0) := by
  cases mode with
  | sum =>
    refine foldl_fits _ _ (fun a ha c hc => ?_) (.zero _)
    exact addAgentCost_fits (fun u hu v hv => by simpa using varId_lt (List.mem_range.1 ha) hu hv) hc
  | max => exact .var (by simp)

theorem objective_rows_fits (mode : Mode) (A N : Nat) (w : Weights) :
    ∀ c ∈ (createObjective mode A N w).2, c.Fits (A * N * N + if mode = .max then 1 else 0) := by
  cases mode with
  | sum => intro c hc; simp [createObjective] at hc
  | max =>
    intro c hc
    simp only [createObjective, createMaxObjective, List.mem_map, List.mem_range] at hc
    obtain ⟨a, ha, rfl⟩ := hc
    refine .ge (.var (by simp)) (addAgentCost_fits (fun u hu v hv => ?_) (.zero _))
    have := varId_lt ha hu hv
    simp; omega

theorem objective_rows_nnz (mode : Mode) (A N : Nat) (w : Weights) :
    nnz (createObjective mode A N w).2 ≤ A * (1 + N * N) ∧ (createObjective mode A N w).2.length ≤ A := by
  cases mode with
  | sum => simp [createObjective, nnz]
  | max =>
    refine ⟨?_, by simp [createObjective, createMaxObjective]⟩
    have := nnz_map (List.range A) (fun a => LinCon.ge (.ofVar (A * N * N)) (addAgentCost N w a .zero)) (1 + N * N)
      (fun a _ => ge_length (var_length _) (by simpa [LinComp.zero] using addAgentCost_length N w a .zero))
    simpa [createObjective, createMaxObjective] using this

end Mtsp
