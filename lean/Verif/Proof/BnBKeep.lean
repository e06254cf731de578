import Verif.Proof.BnBCov

/-! Every step keeps the coverage invariant. -/

namespace Mtsp

section
variable {e : BEnv} {rows : Nat} {w : Weights} {starts ends : List Nat} {P : Paths} {c : ℚ} {L : Prop}

/-- the LP of a subtree with the solution admits it -/
theorem Loaded.admits (g : e.Good rows w starts ends) (hP : e.Feasible P) (h3 : 3 ≤ e.m.n) (hc : IsObjective e.mode e.m.w P c)
    {wk : Worker} (hl : Loaded e wk) (hf : FixInv e.cols wk.fix) (hcuts : ∀ k ∈ wk.cuts, CutOk e k)
    (ho : Obeys e P c wk.fix.fixed0 wk.fix.fixed1) : (e.prob wk).Admits (solPoint e P c) := by
  refine ⟨solPoint_sat g hP h3 hc hcuts, ?_⟩
  intro i hi l u hlu
  refine solPoint_inBox g hP h3 hc hf.bin0 hf.bin1 ho.1 ho.2 i ?_ l u ?_
  · rw [← hl.nVars]; exact hi
  · rw [← hl.box i]; exact hlu

/-- only worker `t` changes, and it does not carry the solution or hands it on -/
theorem JInv.updW {s : BState} (h : JInv e L P c s) {t : Nat} (ht : t < e.threads) {r' : ResState} {d' : CDeque LinCon} {w' : Worker}
    (hlow : r'.lower ≤ c) (hup : ∃ z : ℤ, r'.upper = z) (hmono : r'.upper ≤ s.res.upper) (hne : (s.wk t).pc ≠ .left)
    (hcar : ∀ o, s.q.workedOn[t]? = some o → Carry e P c o (s.wk t) → r'.upper ≤ c ∨ Carry e P c o w')
    (hfl : ∀ l, w'.pc.flight = some l → l ≤ c ∨ r'.upper ≤ c)
    (hclp : w'.pc = .clear → r'.upper ≤ c ∨ L) (hmild : PcMild e w'.pc) :
    JInv e L P c ⟨s.q, r', d', fun u => if u = t then w' else s.wk u⟩ := by
  refine h.upd ht hlow hup hmono rfl hne (fun hcov => ?_) hfl hclp hmild
  refine cov_upd hcov ht (fun d hd _ _ => Or.inl hd) (fun _ _ => rfl) ?_
  intro o ho hc
  rcases hcar o ho hc with h | h
  · exact Or.inl h
  · exact Or.inr (Or.inl ⟨o, ho, h⟩)

theorem step_jinv (g : e.Good rows w starts ends) (hst : e.Started) (hP : e.Feasible P) (h3 : 3 ≤ e.m.n) (hc : IsObjective e.mode e.m.w P c)
    {bad : Prop} {s : BState} {all : List LinCon} (h : GInv e bad s all) (j : JInv e L P c s)
    {t : Nat} (ht : t < e.threads) {i : Inp} (hi : i.Ok e s t) (hcalm : i.Calm e L) : JInv e L P c (s.step e t i) := by
  obtain ⟨hfix, o, ho, hpc⟩ := h.wk t ht
  have hsub := h.sub ht
  have hcuts : ∀ c ∈ (s.wk t).cuts, CutOk e c := fun c hc => h.cuts c (hsub c hc)
  obtain ⟨lbq, hlbq, _⟩ := calcLB_spec s.q h.q
  have hread : lbq ≤ c ∨ s.res.upper ≤ c := by
    rcases j.cov with hh | hh
    · exact Or.inr hh
    · exact Or.inl (cov_calcLB g hP h3 hc h hh hlbq)
  have nocar : ∀ {r' : ResState} {w' : Worker}, (∀ o, ¬ Carry e P c o (s.wk t)) →
      ∀ o, s.q.workedOn[t]? = some o → Carry e P c o (s.wk t) → r'.upper ≤ c ∨ Carry e P c o w' :=
    fun hn o _ hh => absurd hh (hn o)
  cases hp : (s.wk t).pc with
  | head =>
    simp only [BState.step, hp, hlbq]
    refine j.updW ht j.lower j.upper (le_refl _) (by simp [hp]) (nocar (by simp [Carry, hp])) ?_ (by simp) trivial
    intro l hl
    simp only [Pc.flight, Option.some.injEq] at hl
    subst hl; exact hread
  | headUpd l =>
    simp only [BState.step, hp]
    have hfl := j.flight t ht l (by simp [hp, Pc.flight])
    obtain ⟨h1, h2, h5⟩ := updLower_le j.lower hfl
    have nc : ∀ o, ¬ Carry e P c o (s.wk t) := by simp [Carry, hp]
    rw [h5]
    dsimp only
    split
    next hge =>
      refine j.updW ht h1 (by rw [h2]; exact j.upper) h2.le (by simp [hp]) (nocar nc) (by simp [Pc.flight]) ?_ trivial
      intro _
      rw [h2]
      exact Or.inl (le_trans hge h1)
    next hge =>
      split
      next hlate =>
        refine j.updW ht h1 (by rw [h2]; exact j.upper) h2.le (by simp [hp]) (nocar nc) (by simp [Pc.flight]) ?_ trivial
        intro _
        rcases hcalm.2.1 with h4 | h4
        · rw [h4] at hlate; simp at hlate
        · exact Or.inr h4
      next hlate =>
        exact j.updW ht h1 (by rw [h2]; exact j.upper) h2.le (by simp [hp]) (nocar nc) (by simp [Pc.flight]) (by simp) trivial
  | clear =>
    simp only [BState.step, hp]
    have hcl := j.clear (Or.inr ⟨t, ht, hp⟩)
    refine ⟨j.one, j.lower, j.upper, ?_, ?_, ?_, ?_, ?_⟩
    · rcases j.cov with hh | hh
      · exact Or.inl hh
      · refine cov_upd (q' := s.q.clearAll) hh ht (fun d hd _ _ => Or.inl hd) (fun _ _ => rfl) ?_
        intro o _ hcar
        simp [Carry, hp] at hcar
    · intro u hu l hl
      simp only [BState.goto, BState.setWk] at hl
      by_cases hut : u = t
      · simp [if_pos hut, Pc.flight] at hl
      · rw [if_neg hut] at hl; exact j.flight u hu l hl
    · intro _; exact hcl
    · intro _ h1
      have h1 := j.one h1
      have : t = 0 := by omega
      subst this
      simp [BState.goto, BState.setWk]
    · intro u hu
      simp only [BState.goto, BState.setWk]
      by_cases hut : u = t
      · simp [if_pos hut, PcMild]
      · rw [if_neg hut]; exact j.mild u hu
  | pop =>
    simp only [PcOk, hp] at hpc
    subst hpc
    simp only [BState.step, hp]
    have nc : ∀ o, ¬ Carry e P c o (s.wk t) := by simp [Carry, hp]
    rcases pop_cases e.H s.q t h.q (by rw [h.len]; exact ht) with ⟨_, _, _, ep⟩ | ⟨_, ep⟩ | ⟨_, d, r, l, hh, hpm, hheap, _, ep⟩
    · rw [ep]; exact j
    · rw [ep]
      exact j.updW ht j.lower j.upper (le_refl _) (by simp [hp]) (nocar nc) (by simp [Pc.flight]) (by simp) trivial
    · rw [ep]
      dsimp only
      have hset : (s.q.workedOn.set t (some d.lb))[t]? = some (some d.lb) := by
        rw [List.getElem?_set_self (by rw [h.len]; exact ht)]
      rcases Bool.eq_false_or_eq_true d.isResult with hres | hres
      · rw [if_pos hres]
        obtain ⟨M1, M2, e1, e2, w2, b2, n2, s2⟩ := unfix_both (fun i hi => g.bin i (by rw [g.nBin] at hi; exact hi)) hfix
        have hskip : (s.wk t).fix.skip = .ok ⟨M2, (s.wk t).fix.fixed0, (s.wk t).fix.fixed1⟩ := by
          simp [FixState.skip, e1, e2, bind, Except.bind, pure, Except.pure]
        rw [hskip]
        refine j.upd ht j.lower j.upper (le_refl _) rfl (by simp [hp]) (fun hcov => ?_) (by simp [Pc.flight]) (by simp) trivial
        refine cov_upd hcov ht ?_ (fun u hu => List.getElem?_set_ne (fun hc => hu hc.symm)) (fun o _ hcar => absurd hcar (nc o))
        intro d' hd' hr' _
        left
        rw [hh] at hd'
        rcases List.mem_cons.1 hd' with rfl | hd'
        · rw [hres] at hr'; simp at hr'
        · exact hpm.mem_iff.2 hd'
      · rw [if_neg (by rw [hres]; simp)]
        have hnode := h.heap d (by rw [hh]; exact List.mem_cons_self) hres
        obtain ⟨f, hf, hfi, hfb⟩ := load_spec (fun i hi => g.bin i (by rw [g.nBin] at hi; exact hi)) hfix hnode.bin0 hnode.bin1
        obtain ⟨hf0, hf1⟩ := load_fixed hf
        rw [hf]
        refine j.upd ht j.lower j.upper (le_refl _) rfl (by simp [hp]) (fun hcov => ?_) (by simp [Pc.flight]) (by simp) trivial
        refine cov_upd hcov ht ?_ (fun u hu => List.getElem?_set_ne (fun hc => hu hc.symm)) (fun o _ hcar => absurd hcar (nc o))
        intro d' hd' hr' ho'
        rw [hh] at hd'
        rcases List.mem_cons.1 hd' with rfl | hd'
        · right
          refine ⟨_, hset, ?_⟩
          simp only [Carry]
          rw [hf0, hf1]; exact ho'
        · left; exact hpm.mem_iff.2 hd'
  | resRead lb =>
    simp only [BState.step, hp, hlbq]
    refine j.updW ht j.lower j.upper (le_refl _) (by simp [hp]) (nocar (by simp [Carry, hp])) ?_ (by simp) trivial
    intro l hl
    simp only [Pc.flight, Option.some.injEq] at hl
    subst hl; exact hread
  | resUpd lb l =>
    simp only [BState.step, hp]
    have hfl := j.flight t ht l (by simp [hp, Pc.flight])
    obtain ⟨h1, h2, _⟩ := updLower_le j.lower hfl
    have nc : ∀ o, ¬ Carry e P c o (s.wk t) := by simp [Carry, hp]
    split
    · exact j.updW ht h1 (by rw [h2]; exact j.upper) h2.le (by simp [hp]) (nocar nc) (by simp [Pc.flight]) (by simp) trivial
    · exact j.updW ht h1 (by rw [h2]; exact j.upper) h2.le (by simp [hp]) (nocar nc) (by simp [Pc.flight]) (by simp) trivial
  | read lb =>
    simp only [PcOk, hp] at hpc
    simp only [BState.step, hp]
    have hcar : ∀ (o : Option ℚ) (w' : Worker), w'.fix = (s.wk t).fix → (w'.pc = .compact lb ∨ w'.pc = .solve lb) →
        Carry e P c o (s.wk t) → Carry e P c o w' := by
      intro o w' hfx hw hcar
      simp only [Carry, hp] at hcar
      rcases hw with hw | hw <;> simp only [Carry, hw, hfx] <;> exact hcar
    have hcd := h.deq
    cases hd : s.deque.step (.read t) with
    | mk x d' =>
      cases x with
      | error er =>
        exfalso
        obtain ⟨seen, hcd, _⟩ := hcd
        obtain ⟨⟨cs, hcs, _⟩, _⟩ := hcd.step (by omega) (.read t) (by rintro _ ⟨⟩; exact ht)
        rw [hd] at hcs; simp at hcs
      | ok cs =>
        dsimp only
        refine j.updW ht j.lower j.upper (le_refl _) (by simp [hp]) (fun o _ hc => Or.inr (hcar o _ rfl ?_ hc)) ?_ ?_ ?_
        · by_cases h0 : t = 0
          · left; simp [h0]
          · right; simp [h0]
        · intro l hl; dsimp only at hl; split at hl <;> simp [Pc.flight] at hl
        · intro hcl; dsimp only at hcl; split at hcl <;> simp at hcl
        · dsimp only; split <;> trivial
  | compact lb =>
    simp only [BState.step, hp]
    cases hd : s.deque.step .compact with
    | mk x d' =>
      cases x with
      | error er =>
        exfalso
        obtain ⟨seen, hcd, _⟩ := h.deq
        obtain ⟨⟨cs, hcs, _⟩, _⟩ := hcd.step (by omega) .compact (by simp)
        rw [hd] at hcs; simp at hcs
      | ok cs =>
        refine j.updW ht j.lower j.upper (le_refl _) (by simp [hp]) (fun o _ hc => Or.inr ?_) (by simp [Pc.flight]) (by simp) trivial
        simp only [Carry, hp] at hc ⊢
        exact hc
  | solve lb =>
    simp only [PcOk, hp] at hpc
    obtain ⟨ho', hload, hnode⟩ := hpc
    simp only [Inp.Ok, hp] at hi
    simp only [BState.step, hp]
    cases hans : i.ans with
    | unbounded => rw [hans] at hi; exact absurd hi (not_unbounded g hload)
    | error =>
      dsimp only
      refine j.updW ht j.lower j.upper (le_refl _) (by simp [hp]) (fun o' ho2 hcr => Or.inr ?_) (by simp [Pc.flight]) (by simp) trivial
      have := carry_le (e := e) (bad := bad) g hP h3 hc h.cuts hsub hfix (wk := s.wk t) (o := o) (by simp only [PcOk, hp]; exact ⟨ho', hload, hnode⟩) (by
        rw [ho] at ho2; cases ho2; exact hcr)
      rw [ho] at ho2; cases ho2
      exact this
    | timeout => exact absurd hans hcalm.1
    | infeasible =>
      rw [hans] at hi
      refine j.updW ht j.lower j.upper (le_refl _) (by simp [hp]) (fun o' ho2 hcr => ?_) (by simp [Pc.flight]) (by simp) trivial
      simp only [Carry, hp] at hcr
      exact absurd (hload.admits g hP h3 hc hfix hcuts hcr) (hi _)
    | optimal y rc =>
      refine j.updW ht j.lower j.upper (le_refl _) (by simp [hp]) (fun o' ho2 hcr => Or.inr ?_) (by simp [Pc.flight]) (by simp)
        (hcalm.2.2 y rc hans)
      simp only [Carry, hp] at hcr ⊢
      exact hcr
  | raise lb y rc =>
    simp only [PcOk, hp] at hpc
    obtain ⟨hs, hlb, v, ho', hv⟩ := hpc
    subst ho'
    have hq : s.q.updateCurrentLowerBound t lb = (.ok .unit, { s.q with workedOn := s.q.workedOn.set t (some lb) }) := by
      unfold QState.updateCurrentLowerBound
      rw [ho]; dsimp only; rw [if_neg (not_lt.2 hv)]
    simp only [BState.step, hp, hq]
    have hm := j.mild t ht
    simp only [hp, PcMild] at hm
    refine j.upd ht j.lower j.upper (le_refl _) rfl (by simp [hp]) (fun hcov => ?_) (by simp [Pc.flight]) (by simp) hm
    refine cov_upd hcov ht (fun d hd _ _ => Or.inl hd) (fun u hu => List.getElem?_set_ne (fun hc => hu hc.symm)) ?_
    intro o _ hcr
    refine Or.inr (Or.inl ⟨_, List.getElem?_set_self (by rw [h.len]; exact ht), ?_⟩)
    simp only [Carry, hp] at hcr ⊢
    exact hcr
  | getLB lb y rc =>
    simp only [BState.step, hp, hlbq]
    have hm := j.mild t ht
    simp only [hp, PcMild] at hm
    refine j.updW ht j.lower j.upper (le_refl _) (by simp [hp]) (fun o' ho2 hcr => Or.inr ?_) ?_ (by simp) hm
    · simp only [Carry, hp] at hcr ⊢
      exact hcr
    · intro l hl
      simp only [Pc.flight, Option.some.injEq] at hl
      subst hl; exact hread
  | updLB lb l y rc =>
    simp only [PcOk, hp] at hpc
    obtain ⟨hs, hlb, ho'⟩ := hpc
    simp only [BState.step, hp]
    have hm := j.mild t ht
    simp only [hp, PcMild] at hm
    have hfl := j.flight t ht l (by simp [hp, Pc.flight])
    obtain ⟨h1, h2, h5⟩ := updLower_le j.lower hfl
    rw [h5]
    dsimp only
    split
    · refine j.updW ht h1 (by rw [h2]; exact j.upper) h2.le (by simp [hp]) (fun o' ho2 hcr => Or.inr ?_) (by simp [Pc.flight]) (by simp) hm
      simp only [Carry, hp] at hcr ⊢
      exact hcr
    · obtain ⟨f1, f2, f3⟩ := flight_evaluate (e := e) (s.wk t) lb s.res.upper y rc
      refine j.updW ht h1 (by rw [h2]; exact j.upper) h2.le (by simp [hp]) (fun o' ho2 hcr => ?_) ?_ (fun hc => absurd hc f2) f3
      · simp only [Carry, hp] at hcr
        rw [h2]
        exact evaluate_carry g hP h3 hc hs hlb hfix hcuts hm j.upper hcr o'
      · intro l hl; rw [f1] at hl; simp at hl
  | exploit lb y rc =>
    simp only [PcOk, hp] at hpc
    obtain ⟨hs, hlb, ho'⟩ := hpc
    obtain ⟨r, hr⟩ := exploit_ok g hst (fun i hi => hs.inBox.bin g hi) i.ticks
    simp only [BState.step, hp, hr]
    have hm := j.mild t ht
    simp only [hp, PcMild] at hm
    rcases r with ⟨_ | ⟨v, p⟩, tk⟩
    · obtain ⟨f1, f2, f3⟩ := flight_evaluate (e := e) (s.wk t) lb s.res.getBounds.Upper y rc
      refine j.updW ht j.lower j.upper (le_refl _) (by simp [hp]) (fun o' ho2 hcr => ?_) ?_ (fun hc => absurd hc f2) f3
      · simp only [Carry, hp] at hcr
        exact evaluate_carry g hP h3 hc hs hlb hfix hcuts hm j.upper hcr o'
      · intro l hl; rw [f1] at hl; simp at hl
    · obtain ⟨Q, hQ, _, hQo, _⟩ := g.heuristic_backed (fun i hi => hs.inBox.bin g hi) hr
      obtain ⟨k1, k2, k3, _, k5⟩ := updUpper_le (p := p) j.lower j.upper (objective_int g hQ.lt hQo)
      obtain ⟨f1, f2, f3⟩ := flight_evaluate (e := e) (s.wk t) lb (s.res.updateUpperBound v p).2.Upper y rc
      refine j.updW ht k1 k2 k3 (by simp [hp]) (fun o' ho2 hcr => ?_) ?_ (fun hc => absurd hc f2) f3
      · simp only [Carry, hp] at hcr
        rw [k5] at *
        exact evaluate_carry g hP h3 hc hs hlb hfix hcuts hm k2 hcr o'
      · intro l hl; rw [f1] at hl; simp at hl
  | pushCuts cs op =>
    simp only [BState.step, hp]
    cases hd : s.deque.step (.push cs) with
    | mk x d' =>
      cases x with
      | error er =>
        exfalso
        obtain ⟨seen, hcd, _⟩ := h.deq
        obtain ⟨⟨x, hx, _⟩, _⟩ := hcd.step (by omega) (.push cs) (by simp)
        rw [hd] at hx; simp at hx
      | ok _ =>
        refine j.updW ht j.lower j.upper (le_refl _) (by simp [hp]) (fun o _ hc => Or.inr ?_) (by simp [Pc.flight]) (by simp) trivial
        simp only [Carry, hp] at hc ⊢
        exact hc
  | push op =>
    simp only [PcOk, hp] at hpc
    obtain ⟨nodes, q', hq, hqi, hwo, hcle, _, hlbs, hnodes, hok, hheap⟩ := op_step (H := e.H) h.q ho hpc
    simp only [BState.step, hp, hq]
    refine j.upd ht j.lower j.upper (le_refl _) hcle (by simp [hp]) (fun hcov => ?_) (by simp [Pc.flight]) (by simp) trivial
    rcases hheap with ⟨hcl, hh⟩ | ⟨_, hh⟩
    · left
      rcases j.clear (Or.inl hcl) with hu | h1
      · exact hu
      · have := j.left hcl h1
        have h1 := j.one h1
        have h0 : t = 0 := by omega
        subst h0
        rw [hp] at this; simp at this
    · refine cov_upd hcov ht (fun d hd _ _ => Or.inl (hh.mem_iff.2 (List.mem_append_left _ hd))) (fun u _ => by rw [hwo]) ?_
      intro o' _ hcr
      simp only [Carry, hp] at hcr
      obtain ⟨d, hd, hr, hob⟩ := hcr
      exact Or.inr (Or.inr ⟨d, hh.mem_iff.2 (List.mem_append_right _ (by rw [hnodes]; exact hd)), hr, hob⟩)
  | getUpper lb y =>
    simp only [BState.step, hp]
    split
    · refine j.updW ht j.lower j.upper (le_refl _) (by simp [hp]) (fun o _ hc => Or.inr ?_) (by simp [Pc.flight]) (by simp) trivial
      simp only [Carry, hp] at hc ⊢
      exact hc
    next hge =>
      refine j.updW ht j.lower j.upper (le_refl _) (by simp [hp]) (fun o _ hc => Or.inl ?_) (by simp [Pc.flight]) (by simp) trivial
      simp only [Carry, hp] at hc
      exact le_trans (not_lt.1 hge) hc
  | setUpper lb y =>
    simp only [PcOk, hp] at hpc
    simp only [BState.step, hp]
    rw [(C21_paths_mapped_back g.make _ hpc.2.feasible.1.lt).1]
    obtain ⟨k1, k2, k3, k4, _⟩ := updUpper_le (p := (readPaths e.m.n e.m.starts e.m.ends y).map (·.map e.m.orig)) j.lower j.upper
      (objective_int g hpc.2.feasible.1.lt hpc.2.cost)
    refine j.updW ht k1 k2 k3 (by simp [hp]) (fun o _ hcr => Or.inl ?_) (by simp [Pc.flight]) (by simp) trivial
    simp only [Carry, hp] at hcr
    exact k4.trans hcr
  | done =>
    simp only [PcOk, hp] at hpc
    obtain ⟨v, rfl⟩ := hpc
    have hq : s.q.notifyDone t = (.ok .unit, { s.q with workedOn := s.q.workedOn.set t none, count := s.q.count - 1 }) := by
      unfold QState.notifyDone
      rw [ho]
    simp only [BState.step, hp, hq]
    refine j.upd ht j.lower j.upper (le_refl _) rfl (by simp [hp]) (fun hcov => ?_) (by simp [Pc.flight]) (by simp) trivial
    refine cov_upd hcov ht (fun d hd _ _ => Or.inl hd) (fun u hu => List.getElem?_set_ne (fun hc => hu hc.symm)) ?_
    intro o _ hcr
    simp [Carry, hp] at hcr
  | left => simp only [BState.step, hp]; exact j
  | crashed er => simp only [BState.step, hp]; exact j

end
end Mtsp
