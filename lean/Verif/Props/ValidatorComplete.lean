import Verif.Props.Validator
import Verif.Lemmas.Witness
import Verif.Lemmas.Transformers.Unreachable

/-!
C43: the validator accepts every genuine witness (converse of C01 and C02).
-/

namespace Golem
variable {T : Theory}

theorem mapFromPredicate_map (xs : List Var) (ρ : Valuation T) :
    ∃ m, mapFromPredicate xs (xs.map ρ) = some m ∧ ∀ p ∈ m, p.2 = .const (ρ p.1) := by
  induction xs with
  | nil => exact ⟨[], rfl, by simp⟩
  | cons x xs ih =>
    obtain ⟨m, hm, h⟩ := ih
    refine ⟨(x, .const (ρ x)) :: m, by simp [mapFromPredicate, hm], ?_⟩
    intro p hp
    rcases List.mem_cons.1 hp with rfl | hp
    · rfl
    · exact h p hp

theorem fillSources_complete {R : PRepr} {ds : List (DStep T)} {ρ : Valuation T} {qs : List (Pred × Nat)} {js : List Nat}
    (hj : ∀ j ∈ js, j < ds.length)
    (h : premFacts ds js = qs.map fun q => (q.1, (R.srcVars q.1 q.2).map ρ)) :
    ∃ m, fillSources R ds qs js = some m ∧ ∀ p ∈ m, p.2 = .const (ρ p.1) := by
  induction qs generalizing js with
  | nil => exact ⟨[], by simp [fillSources], by simp⟩
  | cons q qs ih =>
    cases js with
    | nil => simp [premFacts] at h
    | cons j js =>
      obtain ⟨p, i⟩ := q
      have hlt := hj j (by simp)
      simp only [premFacts, List.filterMap_cons, List.getElem?_eq_getElem hlt, Option.map_some, List.map_cons,
        List.cons.injEq] at h
      obtain ⟨m, hm, hm'⟩ := ih (fun k hk => hj k (by simp [hk])) h.2
      obtain ⟨m1, h1, h1'⟩ := mapFromPredicate_map (R.srcVars p i) ρ
      refine ⟨m1 ++ m, ?_, ?_⟩
      · simp only [fillSources, List.getElem?_eq_getElem hlt, Option.bind_eq_bind, Option.bind_some, h.1, h1, hm]; rfl
      · intro x hx
        rcases List.mem_append.1 hx with hx | hx
        · exact h1' x hx
        · exact hm' x hx

theorem substFn_self {m : SubstMap T} {ρ : Valuation T} (h : ∀ p ∈ m, p.2 = .const (ρ p.1)) (x : Var) :
    (m.fn x).eval ρ = ρ x := by
  unfold SubstMap.fn
  cases hf : m.find x with
  | none => rfl
  | some t =>
    have := h _ (SubstMap.find_some_mem hf)
    simp only at this
    simp [this, Tm.eval]

theorem validateStep_complete {S : Smt T} (hS : S.Sound) (hC : S.Complete) {R : PRepr} {G : Graph T} (hG : G.IdsNodup)
    {ds : List (DStep T)} {i : Nat} {d : DStep T} (hd : ds[i]? = some d) (h : StepOK R G ds i d) :
    validateStep S R G ds i = .validated := by
  obtain ⟨hlt, e, he, hid, ρ, hl, hb, hh⟩ := h
  have hi := List.getElem?_lt hd
  have hfind : d.clauseId.bind G.find = some e := by rw [hid]; exact Graph.find_of_mem hG he
  obtain ⟨m, hm, hm'⟩ := fillSources_complete (R := R) (ρ := ρ) (qs := instances e.src)
    (fun j hj => Nat.lt_trans (hlt j hj) hi) hb
  obtain ⟨m1, h1, h1'⟩ := mapFromPredicate_map (R.tgtVars e.tgt) ρ
  have hfact : d.fact.2 = (R.tgtVars e.tgt).map ρ := by rw [hh]; rfl
  have hold : (varSubstitute e.fla (m ++ m1)).holds ρ := by
    rw [varSubstitute_holds]
    have : (fun x => (SubstMap.fn (m ++ m1) x).eval ρ) = ρ := by
      funext x
      exact substFn_self (fun p hp => (List.mem_append.1 hp).elim (hm' p) (h1' p)) x
    rw [this]; exact hl
  simp only [validateStep, hd, hfind, hm, hfact, h1]
  split
  · rfl
  · split
    · rename_i h0; rw [h0] at hold; exact absurd hold (by simp [Fla.holds])
    · rcases hC [varSubstitute e.fla (m ++ m1)] with h2 | h2
      · simp [h2]
      · exact absurd ⟨ρ, by intro f hf; simp at hf; subst hf; exact hold⟩ (hS.unsat _ h2)

theorem validateStepsFrom_of_all {S : Smt T} {R : PRepr} {G : Graph T} {ds : List (DStep T)} {i k : Nat}
    (h : ∀ j, i ≤ j → j < i + k → validateStep S R G ds j = .validated) :
    validateStepsFrom S R G ds i k = .validated := by
  induction k generalizing i with
  | zero => rfl
  | succ k ih =>
    simp only [validateStepsFrom, h i (by omega) (by omega)]
    exact ih fun j h1 h2 => h j (by omega) (by omega)

theorem bodyInterps_some {D : Defs T} {qs : List (Pred × Nat)} (h : ∀ q ∈ qs, (D.get q.1).isSome) :
    ∃ fs, bodyInterps D qs = some fs := by
  induction qs with
  | nil => exact ⟨[], rfl⟩
  | cons q qs ih =>
    obtain ⟨p, i⟩ := q
    obtain ⟨fs, hfs⟩ := ih fun q hq => h q (by simp [hq])
    obtain ⟨d, hd⟩ := Option.isSome_iff_exists.1 (h (p, i) (by simp))
    exact ⟨_, by simp only [bodyInterps, hd, hfs, Option.bind_eq_bind, Option.bind_some]; rfl⟩

/-- C43, SAFE: a witness that is a model and defines every vertex over its arguments is accepted (the witness is a map:
one definition per predicate). -/
theorem C43_genuine_safe_accepted (S : Smt T) (hS : S.Sound) (hC : S.Complete) (R : PRepr) (G : Graph T) (D : Defs T)
    (hmap : (D.map Prod.fst).Nodup) (h : SafeWitness R G D) :
    validate S R G ⟨.safe, .validity D⟩ = .validated := by
  have hcl : defsClosed R D = true := by
    unfold defsClosed
    rw [List.all_eq_true]
    rintro ⟨p, d⟩ hp
    rw [List.all_eq_true]
    intro x hx
    have : D.get p = some d := by
      clear h
      induction D with
      | nil => simp at hp
      | cons a D ih =>
        obtain ⟨q, d'⟩ := a
        simp only [List.map_cons, List.nodup_cons] at hmap
        rw [Defs.get_cons]
        rcases List.mem_cons.1 hp with h1 | h1
        · cases h1; simp
        · have : p ≠ q := fun hpq => hmap.1 (hpq ▸ List.mem_map_of_mem (f := Prod.fst) h1)
          rw [if_neg this]; exact ih hmap.2 h1
    simpa using h.closed p d this x hx
  simp only [validate, validateValidityWitness, hcl, if_true]
  have key : ∀ G' : Graph T, (∀ e ∈ G', e ∈ G) → validateEdges S D G' = .validated := by
    intro G'
    induction G' with
    | nil => intro _; rfl
    | cons e es ih =>
      intro hsub
      have heG := hsub e (by simp)
      have hsrc : ∀ q ∈ instances e.src, (D.get q.1).isSome := fun q hq =>
        h.complete _ ⟨e, heG, Or.inr (mem_of_mem_instances hq)⟩
      obtain ⟨fs, hfs⟩ := bodyInterps_some hsrc
      obtain ⟨d, hd⟩ := Option.isSome_iff_exists.1 (h.complete _ ⟨e, heG, Or.inl rfl⟩)
      have hq : edgeQuery D e = some (.and (Fla.conj (e.fla :: fs)) (.not (d.rename toTgt))) := by
        simp only [edgeQuery, hfs, hd, Option.bind_eq_bind, Option.bind_some]; rfl
      have hns : ¬ SatList [Fla.and (Fla.conj (e.fla :: fs)) (.not (d.rename toTgt))] := by
        rintro ⟨ρ, hρ⟩
        have hρ := hρ _ (List.mem_singleton.2 rfl)
        simp only [Fla.holds, holds_conj_iff, allHold_cons] at hρ
        obtain ⟨⟨h1, h2⟩, h3⟩ := hρ
        have hb := (bodyInterps_holds h.closed ρ hfs).1 h2
        apply h3
        rw [← Defs.interp_tgt hd (h.closed _ _ hd)]
        refine h.model.1.2 (e.rule R ρ) ⟨e, heG, ρ, h1, rfl⟩ ?_
        intro b hb'
        obtain ⟨q, hq, rfl⟩ := List.mem_map.1 hb'
        exact hb q hq
      simp only [validateEdges, hq]
      rcases hC [Fla.and (Fla.conj (e.fla :: fs)) (.not (d.rename toTgt))] with h2 | h2
      · exact absurd ⟨_, hS.sat _ h2⟩ hns
      · rw [if_pos h2]; exact ih fun e he => hsub e (by simp [he])
  exact key G fun _ h => h

/-- C43, UNSAFE: a derivation of `false` whose steps are justified by the edges they name is accepted. -/
theorem C43_genuine_unsafe_accepted (S : Smt T) (hS : S.Sound) (hC : S.Complete) (R : PRepr) (G : Graph T)
    (hG : G.IdsNodup) (ds : List (DStep T)) (h : UnsafeWitness R G ds) :
    validate S R G ⟨.unsafeAns, .invalidity ds⟩ = .validated := by
  obtain ⟨d0, h0, h0f, _⟩ := h.first
  obtain ⟨dl, hl, hlf⟩ := h.last
  simp only [validate, validateInvalidityWitness, h0, hl, h0f, hlf, ne_eq, not_true_eq_false, if_false]
  apply validateStepsFrom_of_all
  intro j h1 h2
  have hj : j < ds.length := by omega
  exact validateStep_complete hS hC hG (List.getElem?_eq_getElem hj) (h.steps j _ (by omega) (List.getElem?_eq_getElem hj))

/-- Non-vacuity: the concrete nonlinear derivation and the concrete model of the validator examples are genuine
witnesses (their acceptance is computed there by evaluation). -/
example : (ValidatorEx.safeD.map Prod.fst).Nodup ∧ ValidatorEx.unsafeG.IdsNodup ∧ (propSmt).Complete :=
  ⟨by decide, by unfold Graph.IdsNodup; decide, propSmt_complete⟩

theorem C43_safe_example : SafeWitness ValidatorEx.R ValidatorEx.safeG ValidatorEx.safeD := by
  have hv : validate propSmt ValidatorEx.R ValidatorEx.safeG ⟨.safe, .validity ValidatorEx.safeD⟩ = .validated := by
    decide +kernel
  have hm := (C01_validated_safe_is_model propSmt propSmt_sound _ ValidatorEx.R_wf _ _ (by decide) (by decide) hv).1
  have hc : defsClosed ValidatorEx.R ValidatorEx.safeD = true := by decide
  refine ⟨⟨fun p d hd => defsClosed_vars hc hd, by decide, by decide, hm⟩, ?_, ?_⟩
  · rintro p ⟨e, he, hp⟩
    simp only [ValidatorEx.safeG, List.mem_cons, List.not_mem_nil, or_false] at he
    rcases he with rfl | rfl | rfl <;> simp at hp <;> (try rcases hp with rfl | rfl) <;> (try subst hp) <;> decide
  · intro p hp
    simp only [ValidatorEx.safeD, Defs.get_cons, Defs.get_nil] at hp
    by_cases h1 : p = .tru
    · exact .inr (.inl h1)
    · by_cases h2 : p = .fls
      · exact .inr (.inr h2)
      · simp only [h1, h2, if_false] at hp
        by_cases h3 : p = .p 0
        · exact .inl ⟨_, List.mem_cons_self, Or.inl h3⟩
        · simp [h3] at hp

theorem C43_unsafe_example : UnsafeWitness ValidatorEx.R ValidatorEx.unsafeG ValidatorEx.unsafeDs := by
  refine ⟨⟨_, rfl, rfl, rfl⟩, ⟨_, rfl, rfl⟩, ?_⟩
  intro i d hi hd
  match i, hi with
  | 1, _ =>
    simp [ValidatorEx.unsafeDs] at hd; subst hd
    exact ⟨by simp, _, .head _, rfl, fun _ => false, by simp [Fla.holds, ValidatorEx.a, Tm.eval]; rfl, by decide, by decide⟩
  | 2, _ =>
    simp [ValidatorEx.unsafeDs] at hd; subst hd
    exact ⟨by simp, _, .tail _ (.head _), rfl, fun x => decide (x = ValidatorEx.xt), by
      simp [Fla.holds, ValidatorEx.a, Tm.eval, ValidatorEx.xs, ValidatorEx.xt]; exact ⟨rfl, rfl⟩, by decide, by decide⟩
  | 3, _ =>
    simp [ValidatorEx.unsafeDs] at hd; subst hd
    exact ⟨by simp, _, .tail _ (.tail _ (.head _)), rfl, fun _ => true, by simp [Fla.holds, ValidatorEx.a, Tm.eval]; rfl, by decide, by decide⟩
  | n + 4, _ => simp [ValidatorEx.unsafeDs] at hd

end Golem
