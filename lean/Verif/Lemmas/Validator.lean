import Verif.Model.Validator
import Verif.Lemmas.Graph
import Verif.Lemmas.Smt

namespace Golem
variable {T : Theory}

theorem lookup_mem {α β : Type} [BEq α] [LawfulBEq α] {l : List (α × β)} {a : α} {b : β}
    (h : List.lookup a l = some b) : (a, b) ∈ l := by
  induction l with
  | nil => simp at h
  | cons p l ih =>
    obtain ⟨k, v⟩ := p
    simp only [List.lookup] at h
    split at h
    · rename_i hb; simp at hb h; subst hb; subst h; simp
    · exact List.mem_cons_of_mem _ (ih h)

theorem Defs.get_mem {D : Defs T} {p : Pred} {d : Fla T} (h : D.get p = some d) : (p, d) ∈ D := lookup_mem h

theorem defsClosed_vars {R : PRepr} {D : Defs T} (h : defsClosed R D = true) {p : Pred} {d : Fla T}
    (hd : D.get p = some d) : ∀ x ∈ d.vars, x ∈ R.baseVars p := by
  have := List.all_eq_true.1 h _ (Defs.get_mem hd)
  intro x hx
  have := List.all_eq_true.1 this x hx
  simpa using this

/-- Definitions over the argument variables: evaluating the definition on an instance. -/
theorem Defs.interp_src {R : PRepr} {D : Defs T} {p : Pred} {i : Nat} {d : Fla T} (hd : D.get p = some d)
    (hv : ∀ x ∈ d.vars, x ∈ R.baseVars p) (ρ : Valuation T) :
    D.interp R (p, (R.srcVars p i).map ρ) ↔ (d.rename (toSrc i)).holds ρ := by
  rw [Fla.holds_rename]
  constructor
  · rintro ⟨d', hd', ρ', h1, h2⟩
    rw [hd] at hd'; cases hd'
    refine (Fla.holds_congr ?_).2 h2
    intro x hx
    obtain ⟨n, hn, rfl⟩ := R.mem_baseVars.1 (hv x hx)
    have : ∀ l : List Name, n ∈ l → (l.map Var.base).map ρ' = (l.map (Var.src · i)).map ρ → ρ (.src n i) = ρ' (.base n) := by
      intro l
      induction l with
      | nil => simp
      | cons a l ih =>
        intro hn h
        simp only [List.map_cons, List.cons.injEq] at h
        rcases List.mem_cons.1 hn with e | e
        · subst e; exact h.1.symm
        · exact ih e h.2
    exact this _ hn h1
  · intro h
    refine ⟨d, hd, _, ?_, h⟩
    simp [PRepr.baseVars, PRepr.srcVars, toSrc, Function.comp_def]

theorem Defs.interp_tgt {R : PRepr} {D : Defs T} {p : Pred} {d : Fla T} (hd : D.get p = some d)
    (hv : ∀ x ∈ d.vars, x ∈ R.baseVars p) (ρ : Valuation T) :
    D.interp R (p, (R.tgtVars p).map ρ) ↔ (d.rename toTgt).holds ρ := by
  rw [Fla.holds_rename]
  constructor
  · rintro ⟨d', hd', ρ', h1, h2⟩
    rw [hd] at hd'; cases hd'
    refine (Fla.holds_congr ?_).2 h2
    intro x hx
    obtain ⟨n, hn, rfl⟩ := R.mem_baseVars.1 (hv x hx)
    have : ∀ l : List Name, n ∈ l → (l.map Var.base).map ρ' = (l.map Var.tgt).map ρ → ρ (.tgt n) = ρ' (.base n) := by
      intro l
      induction l with
      | nil => simp
      | cons a l ih =>
        intro hn h
        simp only [List.map_cons, List.cons.injEq] at h
        rcases List.mem_cons.1 hn with e | e
        · subst e; exact h.1.symm
        · exact ih e h.2
    exact this _ hn h1
  · intro h
    refine ⟨d, hd, _, ?_, h⟩
    simp [PRepr.baseVars, PRepr.tgtVars, toTgt, Function.comp_def]

theorem bodyInterps_holds {R : PRepr} {D : Defs T} (hc : ∀ p d, D.get p = some d → ∀ x ∈ d.vars, x ∈ R.baseVars p)
    (ρ : Valuation T) {qs : List (Pred × Nat)} {fs : List (Fla T)} (h : bodyInterps D qs = some fs) :
    AllHold ρ fs ↔ ∀ q ∈ qs, D.interp R (q.1, (R.srcVars q.1 q.2).map ρ) := by
  induction qs generalizing fs with
  | nil => simp [bodyInterps] at h; subst h; simp [AllHold]
  | cons q qs ih =>
    obtain ⟨p, i⟩ := q
    simp only [bodyInterps, Option.bind_eq_bind, Option.bind_eq_some_iff] at h
    obtain ⟨d, hd, rest, hr, h⟩ := h
    simp at h
    subst h
    rw [allHold_cons, ih hr, ← Defs.interp_src hd (hc p d hd) ρ]
    simp

theorem validateEdges_sound {S : Smt T} (hS : S.Sound) {R : PRepr} {D : Defs T}
    (hc : ∀ p d, D.get p = some d → ∀ x ∈ d.vars, x ∈ R.baseVars p) {G : Graph T}
    (h : validateEdges S D G = .validated) :
    ∀ r, graphRules R G r → (∀ b ∈ r.body, D.interp R b) → D.interp R r.head := by
  rintro r ⟨e, he, ρ, hf, rfl⟩ hb
  induction G with
  | nil => simp at he
  | cons e' G ih =>
    simp only [validateEdges] at h
    split at h
    · simp at h
    · rename_i q hq
      split at h
      · rename_i hu
        rcases List.mem_cons.1 he with he' | he'
        · subst he'
          simp only [edgeQuery, Option.bind_eq_bind, Option.bind_eq_some_iff] at hq
          obtain ⟨fs, hfs, d, hd, hq⟩ := hq
          simp at hq
          have hu' := hS.unsat _ hu
          apply Classical.byContradiction
          intro hn
          apply hu'
          refine ⟨ρ, ?_⟩
          intro f hf'
          simp at hf'
          subst hf'
          rw [← hq]
          refine ⟨?_, ?_⟩
          · rw [holds_conj_iff, allHold_cons, bodyInterps_holds hc ρ hfs]
            refine ⟨hf, ?_⟩
            intro q' hq'
            apply hb
            simp only [Edge.rule, Edge.srcFacts, List.mem_map]
            exact ⟨q', hq', rfl⟩
          · rw [Fla.holds_not, ← Defs.interp_tgt hd (hc _ _ hd) ρ]
            exact hn
        · exact ih h he'
      · simp at h

theorem mapFromPredicate_spec {xs : List Var} {vs : List T.Val} {m : SubstMap T}
    (h : mapFromPredicate xs vs = some m) (hl : xs.length = vs.length) :
    m.map Prod.fst = xs ∧ m = List.zipWith (fun x v => (x, Tm.const v)) xs vs := by
  induction xs generalizing vs m with
  | nil => simp [mapFromPredicate] at h; subst h; simp
  | cons x xs ih =>
    cases vs with
    | nil => simp at hl
    | cons v vs =>
      simp only [mapFromPredicate, Option.bind_eq_bind, Option.bind_eq_some_iff] at h
      obtain ⟨m', hm', h⟩ := h
      simp at h; subst h
      have := ih hm' (by simpa using hl)
      simp [this.1, ← this.2]

/-- Reading values back through a substitution that contains the pairs. -/
theorem map_eval_of_zip {m : SubstMap T} {xs : List Var} {vs : List T.Val} {ρ : Valuation T}
    (hl : xs.length = vs.length) (h : ∀ p ∈ List.zipWith (fun x v => (x, (Tm.const v : Tm T))) xs vs, m.fn p.1 = p.2) :
    xs.map (fun x => (m.fn x).eval ρ) = vs := by
  induction xs generalizing vs with
  | nil => cases vs <;> simp_all
  | cons x xs ih =>
    cases vs with
    | nil => simp at hl
    | cons v vs =>
      simp only [List.zipWith_cons_cons, List.mem_cons] at h
      have h1 := h (x, .const v) (Or.inl rfl)
      have h2 := ih (by simpa using hl) (fun p hp => h p (Or.inr hp))
      simp only [List.map_cons, h2]
      simp only at h1
      rw [h1]; rfl

/-- The premises of a step refer to existing steps that derive facts of the source predicates, with the right arity. -/
def PremisesMatch (R : PRepr) (ds : List (DStep T)) : List (Pred × Nat) → List Nat → Prop
  | [], [] => True
  | (p, _) :: qs, j :: js => (∃ d, ds[j]? = some d ∧ d.fact.1 = p ∧ d.fact.2.length = (R.args p).length) ∧
      PremisesMatch R ds qs js
  | _, _ => False

theorem fillSources_spec {R : PRepr} {ds : List (DStep T)} {qs : List (Pred × Nat)} {js : List Nat} {m : SubstMap T}
    (hm : PremisesMatch R ds qs js) (h : fillSources R ds qs js = some m) :
    m.map Prod.fst = R.keys qs ∧
    ∀ (M : SubstMap T) (ρ : Valuation T), (∀ p ∈ m, M.fn p.1 = p.2) →
      qs.map (fun q => (q.1, (R.srcVars q.1 q.2).map (fun x => (M.fn x).eval ρ))) =
      js.filterMap (fun j => (ds[j]?).map DStep.fact) := by
  induction qs generalizing js m with
  | nil =>
    simp [fillSources] at h; subst h
    cases js with
    | nil => simp [PRepr.keys]
    | cons _ _ => simp [PremisesMatch] at hm
  | cons q qs ih =>
    obtain ⟨p, i⟩ := q
    cases js with
    | nil => simp [PremisesMatch] at hm
    | cons j js =>
      obtain ⟨⟨d, hd, hp, hl⟩, hm⟩ := hm
      simp only [fillSources, Option.bind_eq_bind, Option.bind_eq_some_iff] at h
      obtain ⟨d', hd', m1, hm1, m2, hm2, h⟩ := h
      simp at h; subst h
      rw [hd] at hd'; cases hd'
      have hlen : (R.srcVars p i).length = d.fact.2.length := by simp [PRepr.srcVars, hl]
      obtain ⟨hk, hz⟩ := mapFromPredicate_spec hm1 hlen
      obtain ⟨hk2, hv2⟩ := ih hm hm2
      refine ⟨?_, ?_⟩
      · simp [hk, hk2, PRepr.keys]
      · intro M ρ hM
        have h1 : (R.srcVars p i).map (fun x => (M.fn x).eval ρ) = d.fact.2 :=
          map_eval_of_zip hlen (fun q hq => hM q (by rw [List.mem_append]; left; rw [hz]; exact hq))
        have h2 := hv2 M ρ (fun q hq => hM q (by rw [List.mem_append]; right; exact hq))
        simp only [List.map_cons, List.filterMap_cons, hd, Option.map_some, h2, h1]
        congr 1
        rw [← hp]

theorem validateStep_sound {S : Smt T} (hS : S.Sound) {R : PRepr} (hR : R.WF) {G : Graph T} {ds : List (DStep T)}
    {i : Nat} {d : DStep T} (hd : ds[i]? = some d)
    (hwf : ∀ e, d.clauseId.bind G.find = some e → d.fact.1 = e.tgt ∧ d.fact.2.length = (R.args e.tgt).length ∧
      PremisesMatch R ds (instances e.src) d.premises)
    (h : validateStep S R G ds i = .validated) :
    graphRules R G ⟨d.premises.filterMap (fun j => (ds[j]?).map DStep.fact), d.fact⟩ := by
  simp only [validateStep, hd] at h
  split at h
  · simp at h
  · rename_i e he
    obtain ⟨h1, h2, h3⟩ := hwf e he
    split at h
    · simp at h
    · rename_i m hm
      split at h
      · simp at h
      · rename_i m' hm'
        obtain ⟨hk, hv⟩ := fillSources_spec h3 hm
        have hlen : (R.tgtVars e.tgt).length = d.fact.2.length := by simp [PRepr.tgtVars, h2]
        obtain ⟨hk', hz'⟩ := mapFromPredicate_spec hm' hlen
        have hnd : ((m ++ m').map Prod.fst).Nodup := by
          rw [List.map_append, hk, hk', List.nodup_append]
          refine ⟨R.keys_nodup hR (instances_nodup _), R.tgtVars_nodup hR _, ?_⟩
          intro a ha b hb hab
          subst hab
          obtain ⟨n, _, rfl⟩ := R.mem_tgtVars.1 hb
          simp only [PRepr.keys, List.mem_flatMap] at ha
          obtain ⟨q, _, ha⟩ := ha
          obtain ⟨_, _, e⟩ := R.mem_srcVars.1 ha
          cases e
        have hM : ∀ p ∈ m ++ m', SubstMap.fn (m ++ m') p.1 = p.2 := fun p hp => SubstMap.fn_of_mem hnd hp
        -- the instance found by the solver
        have hex : ∃ ρ : Valuation T, (varSubstitute e.fla (m ++ m')).holds ρ := by
          split at h
          · rename_i ht
            exact ⟨fun _ => T.vT, by rw [ht]; trivial⟩
          · split at h
            · simp at h
            · split at h
              · rename_i hs
                have := hS.sat _ hs
                exact ⟨_, this _ (by simp)⟩
              · simp at h
        obtain ⟨ρ, hρ⟩ := hex
        rw [varSubstitute_holds] at hρ
        refine ⟨e, (Graph.find_mem (Option.bind_eq_some_iff.1 he).choose_spec.2).1, _, hρ, ?_⟩
        have hs := hv (m ++ m') ρ (fun p hp => hM p (List.mem_append_left _ hp))
        have ht : (R.tgtVars e.tgt).map (fun x => (SubstMap.fn (m ++ m') x).eval ρ) = d.fact.2 :=
          map_eval_of_zip hlen (fun q hq => hM q (by rw [List.mem_append]; right; rw [hz']; exact hq))
        simp only [Edge.rule, Edge.srcFacts, Edge.tgtFact]
        rw [← hs, ht, ← h1]

theorem validateStepsFrom_all {S : Smt T} {R : PRepr} {G : Graph T} {ds : List (DStep T)} {i k : Nat}
    (h : validateStepsFrom S R G ds i k = .validated) :
    ∀ j, i ≤ j → j < i + k → validateStep S R G ds j = .validated := by
  induction k generalizing i with
  | zero => intro j h1 h2; omega
  | succ k ih =>
    simp only [validateStepsFrom] at h
    split at h
    · rename_i hs
      intro j h1 h2
      by_cases hj : j = i
      · subst hj; exact hs
      · exact ih h j (by omega) (by omega)
    · rename_i hne; exact absurd h hne

end Golem
