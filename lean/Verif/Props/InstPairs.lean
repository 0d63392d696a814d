import Verif.Lemmas.InstPairs

/-!
C79: the values of the variables in a step of a printed proof.
-/

namespace Golem
variable {T : Theory}

/-- The solver finds a model of every satisfiable formula. -/
def FindsModels (solve : Fla T → Option (Valuation T)) : Prop := ∀ f : Fla T, (∃ ρ, f.holds ρ) → ∃ M, solve f = some M ∧ f.holds M

/-- The rule `facts → fact` is the instance of the clause under `ρ`. -/
def InstanceOf (c : Clause T) (ρ : Valuation T) (facts : List (Fact T)) (fact : Fact T) : Prop :=
  c.constraint.holds ρ ∧ facts = c.body.map (PAtom.ground ρ) ∧ fact = PAtom.ground ρ c.head

/-- What the loops and the solver find. -/
theorem instPairs_core {solve : Fla T → Option (Valuation T)} (hs : FindsModels solve) {R : PRepr} {k : Nat} {c : Clause T}
    (har : c.ArityOk R) {label : Fla T} (hv : ∀ x ∈ label.vars, x ∈ (normClauseWith R k c).constraint.vars) {ρ : Valuation T}
    (hρ : label.holds ρ) {facts : List (Fact T)} {fact : Fact T}
    (hf : facts = (instances (c.body.map Prod.fst)).map fun q => (q.1, (R.srcVars q.1 q.2).map ρ))
    (hh : fact = (c.head.1, (R.tgtVars c.head.1).map ρ)) :
    ∃ σ M, getInstPairs solve R (normalizingEqs R k c) label facts fact = some σ ∧ label.holds M ∧
      (∀ v ∈ predicateVars R c, M v = ρ v) ∧
      (∀ p ∈ σ, (∃ nv, (nv, .var p.1) ∈ clauseEqs R c ∧ p.2 = ρ nv) ∨
        ∃ i, (locals R c)[i]? = some p.1 ∧ Var.ver (.aux (k + i)) 0 ∈ label.vars ∧ p.2 = M (.ver (.aux (k + i)) 0)) ∧
      (∀ nv x, (nv, .var x) ∈ clauseEqs R c → ∃ u, (x, u) ∈ σ) ∧
      ∀ (i : Nat) (x : Var), (locals R c)[i]? = some x → Var.ver (.aux (k + i)) 0 ∈ label.vars → ∃ u, (x, u) ∈ σ := by
  have hfp : instances (facts.map Prod.fst) = instances (c.body.map Prod.fst) := by
    have : facts.map Prod.fst = c.body.map Prod.fst := by
      rw [hf, List.map_map]
      exact instances_fst _
    rw [this]
  have r0 : Recorded ρ (fun _ => False) (⟨[], []⟩ : IPairs T) := ⟨by simp, by simp, by simp, by simp⟩
  obtain ⟨st1, e1, r1⟩ := recorded_premises R (normalizingEqs R k c) (instances (c.body.map Prod.fst)) r0
  obtain ⟨st2, e2, r2⟩ := recorded_args (normalizingEqs R k c) (R.tgtVars c.head.1) r1
  have r : Recorded ρ (fun e => e ∈ clauseEqs R c) st2 := r2.congr fun e => by
    rw [← normalizingEqs_pred har (k := k)]
    simp only [predicateVars, List.mem_append, false_or]
    constructor
    · rintro (⟨h1, h2⟩ | ⟨h1, h2⟩)
      · exact ⟨h1, .inr h2⟩
      · exact ⟨h1, .inl h2⟩
    · rintro ⟨h1, h2 | h2⟩
      · exact .inr ⟨h1, h2⟩
      · exact .inl ⟨h1, h2⟩
  have hpv : ∀ v ∈ predicateVars R c, (st2.after.lookup v).isSome = true := by
    intro v hvp
    rw [← clauseEqs_fst har] at hvp
    obtain ⟨e, he, rfl⟩ := List.mem_map.1 hvp
    exact lookup_isSome_mem.2 (r.all e.1 e.2 he)
  have hap : ∀ v, (st2.after.lookup v).isSome = true → v ∈ predicateVars R c ∧ st2.after.lookup v = some (ρ v) := by
    intro v hv
    obtain ⟨w, hw⟩ := Option.isSome_iff_exists.1 hv
    obtain ⟨h1, t, ht⟩ := r.val _ (lookup_some_mem hw)
    refine ⟨?_, by rw [hw]; exact congrArg some h1⟩
    rw [← clauseEqs_fst har]
    exact List.mem_map_of_mem (f := Prod.fst) ht
  rw [← hf] at e1
  unfold getInstPairs
  rw [hfp, e1]
  simp only
  rw [hh, e2]
  simp only
  split
  · rename_i hnil
    refine ⟨st2.before, ρ, rfl, hρ, fun _ _ => rfl, fun p hp => .inl (r.orig p hp), r.origAll, fun i x hi hm => ?_⟩
    have : Var.ver (.aux (k + i)) 0 ∈ dedup (label.vars.filter fun x => !(st2.after.lookup x).isSome) := by
      rw [mem_dedup, List.mem_filter]
      refine ⟨hm, ?_⟩
      cases hx : (st2.after.lookup (Var.ver (.aux (k + i)) 0)).isSome with
      | false => rfl
      | true => rcases predicateVars_kind (hap _ hx).1 with ⟨n, h'⟩ | ⟨n, j, h'⟩ <;> cases h'
    rw [hnil] at this
    cases this
  · have hfn : ∀ (M : Valuation T) (x : Var), (SubstMap.fn (st2.after.map fun p => (p.1, Tm.const p.2)) x).eval M =
        if (st2.after.lookup x).isSome then ρ x else M x := by
      intro M x
      have hl : ∀ l : List (Var × T.Val), List.lookup x (l.map fun p => (p.1, (Tm.const p.2 : Tm T))) = (l.lookup x).map Tm.const := by
        intro l
        induction l with
        | nil => rfl
        | cons p l ih =>
          simp only [List.map_cons, List.lookup]
          split <;> simp_all
      rw [SubstMap.fn, SubstMap.find, hl]
      cases hx : st2.after.lookup x with
      | none => rfl
      | some w =>
        have := (hap x (by rw [hx]; rfl)).2
        rw [hx] at this
        cases this
        rfl
    obtain ⟨M, hM, hMh⟩ := hs (varSubstitute label (st2.after.map fun p => (p.1, .const p.2))) ⟨ρ, by
      rw [varSubstitute_holds]
      refine (Fla.holds_congr fun x _ => ?_).2 hρ
      rw [hfn]; split <;> rfl⟩
    rw [hM]
    simp only
    rw [varSubstitute_holds] at hMh
    obtain ⟨M0, hM0⟩ : ∃ M0 : Valuation T, ∀ x, M0 x = if (st2.after.lookup x).isSome then ρ x else M x := ⟨_, fun _ => rfl⟩
    have hM0h : label.holds M0 := (Fla.holds_congr fun x _ => by rw [hM0, hfn]).2 hMh
    have hnone : ∀ i, (st2.after.lookup (Var.ver (.aux (k + i)) 0)).isSome = false := by
      intro i
      cases hx : (st2.after.lookup (Var.ver (.aux (k + i)) 0)).isSome with
      | false => rfl
      | true => rcases predicateVars_kind (hap _ hx).1 with ⟨n, h'⟩ | ⟨n, j, h'⟩ <;> cases h'
    have haux : ∀ v ∈ dedup (label.vars.filter fun x => !(st2.after.lookup x).isSome), v ∈ label.vars ∧
        ∃ (i : Nat) (x : Var), (locals R c)[i]? = some x ∧ v = .ver (.aux (k + i)) 0 := by
      intro v hv'
      rw [mem_dedup, List.mem_filter] at hv'
      refine ⟨hv'.1, ?_⟩
      rcases norm_vars (hv v hv'.1) with h | h
      · have := hpv v h
        rw [this] at hv'
        simp at hv'
      · exact h
    obtain ⟨st3, e3, b1, b2, b3⟩ := auxs_ok (eqs := normalizingEqs R k c) (M := M) _ st2 fun v hv' => by
      obtain ⟨-, i, x, hi, rfl⟩ := haux v hv'
      exact ⟨_, normalizingEqs_find har hi⟩
    refine ⟨st3.before, M0, by rw [e3]; rfl, hM0h, fun v hvp => by rw [hM0, hpv v hvp]; rfl, fun p hp => ?_, fun nv x hm => ?_, fun i x hi hm => ?_⟩
    · rcases b1 p hp with h | ⟨v, hv', h1, h2⟩
      · exact .inl (r.orig p h)
      · obtain ⟨hvl, i, x, hi, rfl⟩ := haux v hv'
        rw [normalizingEqs_find har hi] at h1
        cases h1
        refine .inr ⟨i, hi, hvl, ?_⟩
        rw [h2, hM0, hnone]; rfl
    · obtain ⟨u, hu⟩ := r.origAll nv x hm
      exact ⟨u, b2 _ hu⟩
    · refine b3 (.ver (.aux (k + i)) 0) ?_ x (normalizingEqs_find har hi)
      rw [mem_dedup, List.mem_filter]
      exact ⟨hm, by rw [hnone]; rfl⟩

/-- C79: if a step of a derivation is an instance of a clause, values are found for its variables, and they make the step an instance of the
clause, whatever the values of variables without one are. `label` is the constraint of the normalized clause, or an equivalent
formula without further variables. -/
theorem C79_instantiation (solve : Fla T → Option (Valuation T)) (hs : FindsModels solve) (R : PRepr) (hR : R.WF) (k : Nat) (c : Clause T)
    (hu : c.User) (har : c.ArityOk R) (label : Fla T) (he : ∀ ρ, label.holds ρ ↔ (normClauseWith R k c).constraint.holds ρ)
    (hv : ∀ x ∈ label.vars, x ∈ (normClauseWith R k c).constraint.vars) (facts : List (Fact T)) (fact : Fact T)
    (h : ∃ ρ, InstanceOf c ρ facts fact) :
    ∃ σ, getInstPairs solve R (normalizingEqs R k c) label facts fact = some σ ∧
      ∀ ρ : Valuation T, (∀ p ∈ σ, ρ p.1 = p.2) → InstanceOf c ρ facts fact := by
  obtain ⟨ρ0, h1, h2, h3⟩ := h
  obtain ⟨ρ, hρ, hr⟩ := (normClause_rules hR k hu har ⟨facts, fact⟩).1 ⟨ρ0, h1, by rw [h2, h3]⟩
  simp only [normClauseWith, GRule.mk.injEq, PAtom.ground, List.map_map] at hr
  have hf : facts = (instances (c.body.map Prod.fst)).map fun q => (q.1, (R.srcVars q.1 q.2).map ρ) := by
    rw [hr.1]; simp [Function.comp_def, Tm.eval, PAtom.ground]
  have hh : fact = (c.head.1, (R.tgtVars c.head.1).map ρ) := by
    rw [hr.2]; simp [Function.comp_def, Tm.eval]
  obtain ⟨σ, M, e, m1, m2, m3, m4, m5⟩ := instPairs_core hs har hv ((he ρ).2 hρ) hf hh
  refine ⟨σ, e, fun ρ' hρ' => ?_⟩
  classical
  -- a valuation of the normalized clause that goes with `ρ'`
  let M' : Valuation T := fun v => if v ∈ label.vars then M v else
    match v with
    | .ver (.aux j) 0 => match (locals R c)[j - k]? with
      | some x => ρ' x
      | none => M v
    | _ => M v
  have hM'p : ∀ v ∈ predicateVars R c, M' v = ρ v := by
    intro v hvp
    rw [← m2 v hvp]
    rcases predicateVars_kind hvp with ⟨n, rfl⟩ | ⟨n, i, rfl⟩
    · show (if _ then _ else _) = _
      split <;> rfl
    · show (if _ then _ else _) = _
      split <;> rfl
  have hM'h : label.holds M' := (Fla.holds_congr fun x hx => by
    show (if _ then _ else _) = _
    rw [if_pos hx]).2 m1
  obtain ⟨τ, t1, t2, t3⟩ := norm_back hu har ((he M').1 hM'h)
  have hnv : ∀ nv arg, (nv, arg) ∈ clauseEqs R c → nv ∈ predicateVars R c := by
    intro nv arg h
    rw [← clauseEqs_fst har]; exact List.mem_map_of_mem (f := Prod.fst) h
  have hσ : ∀ p ∈ σ, τ p.1 = p.2 := by
    intro p hp
    rcases m3 p hp with ⟨nv, hm, hval⟩ | ⟨i, hi, hl, hval⟩
    · have := t2 nv _ hm
      rw [hM'p nv (hnv _ _ hm)] at this
      rw [hval, this]; rfl
    · rw [t3 i p.1 hi, hval]
      show (if _ then _ else _) = _
      rw [if_pos hl]
  have hag : ∀ x ∈ c.vars, ρ' x = τ x := by
    intro x hx
    rcases var_covered hu har hx with ⟨nv, hm⟩ | hL
    · obtain ⟨u, hu'⟩ := m4 nv x hm
      rw [hρ' _ hu', hσ _ hu']
    · obtain ⟨i, hi⟩ := List.getElem?_of_mem hL
      by_cases hl : Var.ver (.aux (k + i)) 0 ∈ label.vars
      · obtain ⟨u, hu'⟩ := m5 i x hi hl
        rw [hρ' _ hu', hσ _ hu']
      · rw [t3 i x hi]
        show _ = (if _ then _ else _)
        rw [if_neg hl]
        have : k + i - k = i := by omega
        simp only [this, hi]
  have hb := body_of_zip (R := R) (μ := M') (ρ := τ) (qs := instances (c.body.map Prod.fst)) (body := c.body)
    (instances_fst _) har.2 (fun p hp => t2 p.1 p.2 (by rw [clauseEqs_eq]; simp [hp]))
  have hhd := map_of_zip (μ := M') (ρ := τ) (xs := R.tgtVars c.head.1) (ts := c.head.2)
    (by simp [PRepr.tgtVars, har.1]) (fun p hp => t2 p.1 p.2 (by rw [clauseEqs_eq]; simp [hp]))
  refine ⟨(Fla.holds_congr fun x hx => hag x (by simp [Clause.vars, hx])).2 t1, ?_, ?_⟩
  · rw [hf]
    refine Eq.trans (List.map_congr_left fun q hq => ?_) (hb.trans (List.map_congr_left fun b hb' => ?_))
    · refine congrArg (Prod.mk q.1) (List.map_congr_left fun v hv' => (hM'p v ?_).symm)
      simp only [predicateVars, List.mem_append, PRepr.keys, List.mem_flatMap]
      exact .inr ⟨q, hq, hv'⟩
    · simp only [PAtom.ground]
      refine congrArg (Prod.mk b.1) (List.map_congr_left fun t ht => Tm.eval_congr fun x hx => (hag x ?_).symm)
      simp only [Clause.vars, List.mem_append, List.mem_flatMap]
      exact .inr (.inr ⟨b, hb', t, ht, hx⟩)
  · rw [hh]
    simp only [PAtom.ground]
    refine congrArg (Prod.mk c.head.1) ?_
    refine Eq.trans (List.map_congr_left fun v hv' => (hM'p v ?_).symm) (hhd.trans (List.map_congr_left fun t ht => Tm.eval_congr fun x hx => (hag x ?_).symm))
    · simp only [predicateVars, List.mem_append]
      exact .inl hv'
    · simp only [Clause.vars, List.mem_append, List.mem_flatMap]
      exact .inr (.inl ⟨t, ht, hx⟩)

/-- C79: if the constraint is that of the normalized clause, every variable of the clause gets a value. -/
theorem C79_complete (solve : Fla T → Option (Valuation T)) (hs : FindsModels solve) (R : PRepr) (hR : R.WF) (k : Nat) (c : Clause T)
    (hu : c.User) (har : c.ArityOk R) (facts : List (Fact T)) (fact : Fact T) (h : ∃ ρ, InstanceOf c ρ facts fact) :
    ∃ σ, getInstPairs solve R (normalizingEqs R k c) (normClauseWith R k c).constraint facts fact = some σ ∧
      ∀ x ∈ c.vars, (σ.lookup x).isSome = true := by
  obtain ⟨ρ0, h1, h2, h3⟩ := h
  obtain ⟨ρ, hρ, hr⟩ := (normClause_rules hR k hu har ⟨facts, fact⟩).1 ⟨ρ0, h1, by rw [h2, h3]⟩
  simp only [normClauseWith, GRule.mk.injEq, PAtom.ground, List.map_map] at hr
  have hf : facts = (instances (c.body.map Prod.fst)).map fun q => (q.1, (R.srcVars q.1 q.2).map ρ) := by
    rw [hr.1]; simp [Function.comp_def, Tm.eval, PAtom.ground]
  have hh : fact = (c.head.1, (R.tgtVars c.head.1).map ρ) := by
    rw [hr.2]; simp [Function.comp_def, Tm.eval]
  obtain ⟨σ, M, e, -, -, -, m4, m5⟩ := instPairs_core hs har (fun _ h => h) hρ hf hh
  refine ⟨σ, e, fun x hx => lookup_isSome_mem.2 ?_⟩
  rcases var_covered hu har hx with ⟨nv, hm⟩ | hL
  · exact m4 nv x hm
  · obtain ⟨i, hi⟩ := List.getElem?_of_mem hL
    refine m5 i x hi ?_
    simp only [normClauseWith, varSubstitute, Fla.mem_vars_subst]
    refine ⟨x, ?_, ?_⟩
    · rw [locals, localVars, mem_dedup, List.mem_filter] at hL
      exact hL.1
    · rw [auxSubst_find (xs := localVars R c (normalizedBody R c)) (dedup_nodup _) hi]
      simp [Tm.vars]

end Golem
