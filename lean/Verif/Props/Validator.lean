import Verif.Lemmas.Validator

/-! Properties C01, C02, C05. -/

namespace Golem
variable {T : Theory}

/-- C05. A system of ground rules has a model iff `false` is not derivable. -/
theorem C05_sat_iff_not_derivable (R : Rules T) : Satisfiable R ↔ ¬ Derivable R falseFact := satisfiable_iff R

/-- C05, witnesses: a model and a refutation never exist together. -/
theorem C05_witnesses_exclusive (R : Rules T) (M : Fact T → Prop) (ds : List (SpecStep T))
    (hM : IsModel R M) (hd : IsRefutation R ds) : False :=
  hM.2 ((refutation_derives hd).sound hM.1)

/-- C05, exhaustive for every finite clause list (stated on the clauses themselves). -/
theorem C05_clauses (cs : List (Clause T)) :
    (Satisfiable (clauseRules cs) ∧ ¬ Derivable (clauseRules cs) falseFact) ∨
    (¬ Satisfiable (clauseRules cs) ∧ Derivable (clauseRules cs) falseFact) := by
  rcases Classical.em (Derivable (clauseRules cs) falseFact) with h | h
  · right; exact ⟨fun hs => (satisfiable_iff _).1 hs h, h⟩
  · left; exact ⟨(satisfiable_iff _).2 h, h⟩

/-- C01. If the validator accepts a SAFE answer whose witness interprets `true` as true and `false` as false, the
witness is a model of all edges; hence `false` is not derivable. -/
theorem C01_validated_safe_is_model (S : Smt T) (hS : S.Sound) (R : PRepr) (hR : R.WF) (G : Graph T) (D : Defs T)
    (htrue : D.get .tru = some .tt) (hfalse : D.get .fls = some .ff)
    (h : validate S R G ⟨.safe, .validity D⟩ = .validated) :
    IsModel (graphRules R G) (D.interp R) ∧ ¬ Derivable (graphRules R G) falseFact := by
  have hm : IsModel (graphRules R G) (D.interp R) := by
    simp only [validate, validateValidityWitness] at h
    split at h
    · rename_i hc
      refine ⟨⟨?_, validateEdges_sound hS (fun p d hd => defsClosed_vars hc hd) h⟩, ?_⟩
      · exact ⟨.tt, htrue, fun _ => T.vT, by simp [trueFact, PRepr.baseVars, hR.tru], trivial⟩
      · rintro ⟨d, hd, ρ, _, hh⟩
        simp only [falseFact] at hd
        rw [hfalse] at hd; cases hd
        exact hh
    · simp at h
  exact ⟨hm, fun hd => hm.2 (hd.sound hm.1)⟩

/-- C05. The validator accepts nothing but a SAFE answer with a validity witness or an UNSAFE answer with an invalidity
witness: an UNKNOWN answer, a missing witness or a witness of the wrong kind is never VALIDATED. -/
theorem C05_validated_has_verdict (S : Smt T) (R : PRepr) (G : Graph T) (r : VerificationResult T)
    (h : validate S R G r = .validated) :
    (∃ D, r = ⟨.safe, .validity D⟩) ∨ (∃ ds, r = ⟨.unsafeAns, .invalidity ds⟩) := by
  obtain ⟨a, w⟩ := r
  cases w <;> cases a <;> simp [validate] at h ⊢

/-- What the assertions of `validateStep` and the producers of derivations guarantee for a step: the facts belong to the
predicates of the edge, with the right arity (`src/Validator.cc:97,108`, `src/TermUtils.h:130-134`). -/
def StepFits (R : PRepr) (G : Graph T) (ds : List (DStep T)) (d : DStep T) : Prop :=
  ∀ e, d.clauseId.bind G.find = some e → d.fact.1 = e.tgt ∧ d.fact.2.length = (R.args e.tgt).length ∧
    PremisesMatch R ds (instances e.src) d.premises

/-- C02. If the validator accepts an UNSAFE answer and every step refers to earlier steps (and its facts fit the edge it
names), then the derivation is a refutation in the sense of the specification, and `false` is derivable, i.e. the
clauses have no model. -/
theorem C02_validated_unsafe_is_refutation (S : Smt T) (hS : S.Sound) (R : PRepr) (hR : R.WF) (G : Graph T)
    (ds : List (DStep T))
    (hearlier : ∀ (i : Nat) (d : DStep T), 0 < i → ds[i]? = some d → ∀ j ∈ d.premises, j < i)
    (hfits : ∀ (i : Nat) (d : DStep T), 0 < i → ds[i]? = some d → StepFits R G ds d)
    (h : validate S R G ⟨.unsafeAns, .invalidity ds⟩ = .validated) :
    IsRefutation (graphRules R G) (ds.map fun d => ⟨d.premises, d.fact⟩) ∧
    Derivable (graphRules R G) falseFact ∧ ¬ Satisfiable (graphRules R G) := by
  have href : IsRefutation (graphRules R G) (ds.map fun d => ⟨d.premises, d.fact⟩) := by
    simp only [validate, validateInvalidityWitness] at h
    split at h
    · rename_i d0 dl h0 hl
      split at h
      · simp at h
      · rename_i hf0
        split at h
        · simp at h
        · rename_i hfl
          refine ⟨⟨⟨d0.premises, d0.fact⟩, by simp [h0], by simpa using hf0⟩,
            ⟨⟨dl.premises, dl.fact⟩, by simp [hl], by simpa using hfl⟩, ?_⟩
          intro i sd hi hsd
          rw [List.getElem?_map] at hsd
          cases hdi : ds[i]? with
          | none => simp [hdi] at hsd
          | some d =>
            simp [hdi] at hsd
            subst hsd
            refine ⟨hearlier i d hi hdi, ?_⟩
            have hlt : i < ds.length := by
              rcases Nat.lt_or_ge i ds.length with h | h
              · exact h
              · rw [List.getElem?_eq_none h] at hdi; simp at hdi
            have hv := validateStepsFrom_all h i hi (by omega)
            have := validateStep_sound hS hR hdi (hfits i d hi hdi) hv
            have he : (d.premises.filterMap fun j => ((ds.map fun d => (⟨d.premises, d.fact⟩ : SpecStep T))[j]?).map
                SpecStep.fact) = d.premises.filterMap fun j => (ds[j]?).map DStep.fact := by
              congr 1; funext j; rw [List.getElem?_map]; cases ds[j]? <;> rfl
            rw [he]
            exact this
    · simp at h
  have hd := refutation_derives href
  exact ⟨href, hd, fun hs => (satisfiable_iff _).1 hs hd⟩

/-! ### Non-vacuity and the limits of the validator -/

namespace ValidatorEx

/-- One unary predicate `p0` over the Booleans. -/
def R : PRepr := ⟨fun q => match q with | .p n => [.pr n] | _ => []⟩

theorem R_wf : R.WF where
  tru := rfl
  fls := rfl
  nodup p := by cases p <;> simp [R]
  disjoint p q h n hn := by
    cases p <;> cases q <;> simp_all [R]

abbrev P := propTheory
def a (x : Var) : Fla P := .atom (.var x)
def xs : Var := .src (.pr 0) 0
def xt : Var := .tgt (.pr 0)

/-- true → p0(x): x;  p0(x) → p0(x'): x ∧ x';  p0(x) → false: ¬x. -/
def safeG : Graph P :=
  [⟨[.tru], .p 0, a xt, 0⟩, ⟨[.p 0], .p 0, .and (a xs) (a xt), 1⟩, ⟨[.p 0], .fls, .not (a xs), 2⟩]

def safeD : Defs P := [(.tru, .tt), (.fls, .ff), (.p 0, a (.base (.pr 0)))]

/-- The hypotheses of C01 are met by a concrete system and witness. -/
example : propSmt.Sound ∧ R.WF ∧ safeD.get .tru = some .tt ∧ safeD.get .fls = some .ff ∧
    validate propSmt R safeG ⟨.safe, .validity safeD⟩ = .validated :=
  ⟨propSmt_sound, R_wf, by decide +kernel, by decide +kernel, by decide +kernel⟩

/-- true → p0(x): ¬x;  p0(x), p0(y) → p0(z): z ;  p0(x) → false: x. -/
def unsafeG : Graph P :=
  [⟨[.tru], .p 0, .not (a xt), 0⟩,
   ⟨[.p 0, .p 0], .p 0, .and (.not (a (.src (.pr 0) 1))) (.and (.not (a xs)) (a xt)), 1⟩,
   ⟨[.p 0], .fls, a xs, 2⟩]

def unsafeDs : List (DStep P) :=
  [⟨[], trueFact, none⟩, ⟨[0], (.p 0, [false]), some 0⟩, ⟨[1, 1], (.p 0, [true]), some 1⟩, ⟨[2], falseFact, some 2⟩]

theorem unsafeDs_earlier : ∀ (i : Nat) (d : DStep P), 0 < i → unsafeDs[i]? = some d → ∀ j ∈ d.premises, j < i := by
  intro i d hi hd
  match i, hi with
  | 1, _ => simp [unsafeDs] at hd; subst hd; simp
  | 2, _ => simp [unsafeDs] at hd; subst hd; simp
  | 3, _ => simp [unsafeDs] at hd; subst hd; simp
  | n + 4, _ => simp [unsafeDs] at hd

theorem unsafeDs_fits : ∀ (i : Nat) (d : DStep P), 0 < i → unsafeDs[i]? = some d → StepFits R unsafeG unsafeDs d := by
  intro i d hi hd e he
  match i, hi with
  | 1, _ =>
    simp [unsafeDs] at hd; subst hd
    simp [Graph.find, unsafeG] at he; subst he
    simp [PremisesMatch, instances, instancesAux, unsafeDs, R, trueFact]; rfl
  | 2, _ =>
    simp [unsafeDs] at hd; subst hd
    simp [Graph.find, unsafeG] at he; subst he
    simp [PremisesMatch, instances, instancesAux, unsafeDs, R]; exact ⟨rfl, rfl⟩
  | 3, _ =>
    simp [unsafeDs] at hd; subst hd
    simp [Graph.find, unsafeG] at he; subst he
    simp [PremisesMatch, instances, instancesAux, unsafeDs, R, falseFact]; rfl
  | n + 4, _ => simp [unsafeDs] at hd

/-- The hypotheses of C02 are met by a concrete (nonlinear) system and derivation. -/
example : propSmt.Sound ∧ R.WF ∧
    (∀ (i : Nat) (d : DStep P), 0 < i → unsafeDs[i]? = some d → ∀ j ∈ d.premises, j < i) ∧
    (∀ (i : Nat) (d : DStep P), 0 < i → unsafeDs[i]? = some d → StepFits R unsafeG unsafeDs d) ∧
    validate propSmt R unsafeG ⟨.unsafeAns, .invalidity unsafeDs⟩ = .validated := by
  exact ⟨propSmt_sound, R_wf, unsafeDs_earlier, unsafeDs_fits, by decide +kernel⟩

/-- p0(x) → p0(x'): true;  p0(x) → false: true. No clause without body: `p0` is never derivable. -/
def circG : Graph P := [⟨[.p 0], .p 0, .tt, 0⟩, ⟨[.p 0], .fls, .tt, 1⟩]

/-- Step 1 uses itself as premise. -/
def circDs : List (DStep P) := [⟨[], trueFact, none⟩, ⟨[1], (.p 0, [true]), some 0⟩, ⟨[1], falseFact, some 1⟩]

end ValidatorEx

open ValidatorEx in
/-- C02, limit 1: without the ordering hypothesis the claim is false of the code. The validator accepts a circular
derivation for a satisfiable system. -/
theorem C02_validator_accepts_circular_derivation :
    validate propSmt ValidatorEx.R circG ⟨.unsafeAns, .invalidity circDs⟩ = .validated ∧
    (∀ (i : Nat) (d : DStep propTheory), 0 < i → circDs[i]? = some d → StepFits ValidatorEx.R circG circDs d) ∧
    Satisfiable (graphRules ValidatorEx.R circG) := by
  refine ⟨by decide +kernel, ?_, ?_⟩
  · intro i d hi hd e he
    match i, hi with
    | 1, _ =>
      simp [circDs] at hd; subst hd
      simp [Graph.find, circG] at he; subst he
      simp [PremisesMatch, instances, instancesAux, circDs, ValidatorEx.R]; rfl
    | 2, _ =>
      simp [circDs] at hd; subst hd
      simp [Graph.find, circG] at he; subst he
      simp [PremisesMatch, instances, instancesAux, circDs, ValidatorEx.R, falseFact]; rfl
    | n + 3, _ => simp [circDs] at hd
  · refine ⟨fun f => f = trueFact, ⟨rfl, ?_⟩, by simp [trueFact, falseFact]⟩
    rintro r ⟨e, he, ρ, -, rfl⟩ hb
    simp [circG] at he
    rcases he with rfl | rfl <;> simp [Edge.rule, Edge.srcFacts, instances, instancesAux, trueFact] at hb

open ValidatorEx in
/-- C02, limit 2: with the assertions compiled out the symbol of a premise fact is not compared with the source vertex.
The derivation passes `true` off as a fact of the nullary-like use of `p1`, for a satisfiable system. -/
theorem C02_validator_ignores_premise_symbol :
    let R0 : PRepr := ⟨fun _ => []⟩
    let G : Graph propTheory := [⟨[.p 1], .fls, .tt, 0⟩]
    let ds : List (DStep propTheory) := [⟨[], trueFact, none⟩, ⟨[0], falseFact, some 0⟩]
    validate propSmt R0 G ⟨.unsafeAns, .invalidity ds⟩ = .validated ∧
    (∀ (i : Nat) (d : DStep propTheory), 0 < i → ds[i]? = some d → ∀ j ∈ d.premises, j < i) ∧
    Satisfiable (graphRules R0 G) := by
  refine ⟨by decide +kernel, ?_, ?_⟩
  · intro i d hi hd
    match i, hi with
    | 1, _ => simp at hd; subst hd; simp
    | n + 2, _ => simp at hd
  · refine ⟨fun f => f = trueFact, ⟨rfl, ?_⟩, by simp [trueFact, falseFact]⟩
    rintro r ⟨e, he, ρ, -, rfl⟩ hb
    simp at he
    subst he
    simp [Edge.rule, Edge.srcFacts, instances, instancesAux, trueFact] at hb

open ValidatorEx in
/-- C01, limit: the validator only asserts that `true`/`false` have definitions, not which. A witness defining `false` as
true is accepted for an unsatisfiable system. -/
theorem C01_validator_ignores_exit_definition :
    let D : Defs propTheory := [(.tru, .tt), (.fls, .tt), (.p 0, .tt)]
    validate propSmt ValidatorEx.R unsafeG ⟨.safe, .validity D⟩ = .validated ∧
    Derivable (graphRules ValidatorEx.R unsafeG) falseFact := by
  refine ⟨by decide +kernel, ?_⟩
  have h := C02_validated_unsafe_is_refutation propSmt propSmt_sound ValidatorEx.R R_wf unsafeG unsafeDs
  exact (h unsafeDs_earlier unsafeDs_fits (by decide +kernel)).2.1

end Golem
