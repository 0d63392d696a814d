import Verif.Spec.Its
import Verif.Lemmas.ItsFile
import Verif.Props.TermRun

/-! Property C76: integer transition systems, from the text to the answer. -/

namespace Golem
namespace Its
open Spec SExpr

variable {linear : List (Tm ctrTheory) → Bool}

theorem eval_args (ρ : Valuation ctrTheory) (xs : List Spec.Str) : (xs.map intVar).map (Tm.eval ρ) = xs.map (envOf ρ) := by
  rw [List.map_map]; rfl

theorem vars_args {xs : List Spec.Str} {t : Tm ctrTheory} (h : t ∈ xs.map intVar) : ∀ x ∈ t.vars, x.Untagged := by
  obtain ⟨s, _, rfl⟩ := List.mem_map.1 h
  intro x hx
  rw [List.mem_singleton.1 hx]; trivial

/-- The valuation with given values of the variables of the input. -/
def valOf (σ : Spec.Str → Int) : Valuation ctrTheory := fun
  | .base (.user s) => σ s.toList
  | _ => (0 : Int)

theorem envOf_valOf (σ : Spec.Str → Int) : envOf (valOf σ) = σ := by
  funext s
  show σ (String.ofList s).toList = σ s
  rw [String.toList_ofList]

/-- The clause `c` of the rule `r`. -/
structure RuleClause (m : List (Spec.Str × Decl)) (r : SRule) (c : Clause ctrTheory) : Prop where
  shape : ∃ k l f, c = ⟨(.p k, r.tgtArgs.map intVar), f, [(.p l, r.srcArgs.map intVar)]⟩ ∧ nameOf m (.p k) = r.tgt ∧
    nameOf m (.p l) = r.src ∧ predOf m r.tgt = some (.p k, r.tgtArgs.length) ∧ predOf m r.src = some (.p l, r.srcArgs.length) ∧
    arOf m (.p k) = r.tgtArgs.length ∧ arOf m (.p l) = r.srcArgs.length ∧ (∀ x ∈ f.vars, x.Untagged) ∧
    ∀ ρ : Valuation ctrTheory, f.holds ρ ↔ ∀ g, r.guard = some g → osat (envOf ρ) g

theorem ruleClause_ok {items : List Item} (hn : (declared items).Nodup) {r : SRule} (h : r.Ok items) :
    ruleClause linear (table items) (ruleOf r) = .nonlinear ∨
    ∃ c, ruleClause linear (table items) (ruleOf r) = .ok c ∧ RuleClause (table items) r c := by
  obtain ⟨k, hk, hk1, hk2⟩ := predOf_declared hn h.tgt
  obtain ⟨l, hl, hl1, hl2⟩ := predOf_declared hn h.src
  have e1 : mkAtom (table items) r.tgt (r.tgtArgs.map intVar) = .ok (.p k, r.tgtArgs.map intVar) := by
    simp [mkAtom, hk]
  have e2 : mkAtom (table items) r.src (r.srcArgs.map intVar) = .ok (.p l, r.srcArgs.map intVar) := by
    simp [mkAtom, hl]
  have key : ∀ f, guardFla linear (r.guard.map Gx.expr) = .ok f → ruleClause linear (table items) (ruleOf r) =
      .ok ⟨(.p k, r.tgtArgs.map intVar), f, [(.p l, r.srcArgs.map intVar)]⟩ := by
    intro f hf
    simp only [ruleClause, ruleOf, e1, e2, Res.bind, hf]
  cases hg : r.guard with
  | none =>
    refine .inr ⟨_, key .tt (by rw [hg]; rfl), ⟨k, l, .tt, rfl, hk1, hl1, hk, hl, hk2, hl2, fun x hx => (by cases hx), fun ρ => ?_⟩⟩
    rw [hg]
    exact ⟨fun _ g h => (by cases h), fun _ => trivial⟩
  | some g =>
    obtain ⟨g1, g2, g3⟩ := h.guard g hg
    rcases tr_gx (linear := linear) g g1 with e | ⟨f, e, h1, h2⟩
    · refine .inl ?_
      simp only [ruleClause, ruleOf, e1, e2, Res.bind, hg, Option.map_some, guardFla, e]
    · refine .inr ⟨_, key f (by rw [hg]; simp only [Option.map_some, guardFla, e, Res.bind]), ⟨k, l, f, rfl, hk1, hl1, hk, hl, hk2,
        hl2, h2, fun ρ => ?_⟩⟩
      rw [h1, hg]
      exact ⟨fun h g' e => by cases e; exact h, fun h => h g rfl⟩

/-- The clauses of a list of rules. -/
theorem ruleClauses_ok {items : List Item} (hn : (declared items).Nodup) : ∀ rs : List SRule, (∀ r ∈ rs, r.Ok items) →
    ruleClauses linear (table items) (rs.map ruleOf) = .nonlinear ∨
    ∃ cs, ruleClauses linear (table items) (rs.map ruleOf) = .ok cs ∧ (∀ r ∈ rs, ∃ c ∈ cs, RuleClause (table items) r c) ∧
      ∀ c ∈ cs, ∃ r ∈ rs, RuleClause (table items) r c
  | [], _ => .inr ⟨[], rfl, by simp, by simp⟩
  | r :: rs, h => by
    simp only [List.map_cons, ruleClauses]
    rcases ruleClause_ok (linear := linear) hn (h r (by simp)) with e | ⟨c, e, hc⟩
    · rw [e]; exact .inl rfl
    · rcases ruleClauses_ok hn rs fun r hr => h r (List.mem_cons_of_mem _ hr) with e' | ⟨cs, e', h1, h2⟩
      · rw [e, e']; exact .inl rfl
      · rw [e, e']
        refine .inr ⟨c :: cs, rfl, ?_, ?_⟩
        · intro r' hr
          rcases List.mem_cons.1 hr with rfl | hr
          · exact ⟨c, by simp, hc⟩
          · obtain ⟨d, hd, hh⟩ := h1 r' hr
            exact ⟨d, List.mem_cons_of_mem _ hd, hh⟩
        · intro d hd
          rcases List.mem_cons.1 hd with rfl | hd
          · exact ⟨r, by simp, hc⟩
          · obtain ⟨r', hr, hh⟩ := h2 d hd
            exact ⟨r', List.mem_cons_of_mem _ hr, hh⟩

theorem entryArgs_nodup (n : Nat) : (entryArgs n).Nodup := by
  unfold entryArgs
  refine List.Pairwise.map _ ?_ List.nodup_range
  intro i j hij h
  exact hij (Names.showNat_inj (List.cons.inj h).2)

/-- The entry point may start with any values. -/
theorem entry_values {n : Nat} {vs : List Int} (h : vs.length = n) : ∃ σ : Spec.Str → Int, (entryArgs n).map σ = vs := by
  have hl : (entryArgs n).length = vs.length := by simp [entryArgs, h]
  refine ⟨fun x => (List.lookup x ((entryArgs n).zip vs)).getD 0, ?_⟩
  have : ∀ (xs : List Spec.Str) (vs : List Int), xs.Nodup → xs.length = vs.length →
      (xs.map fun x => (List.lookup x (xs.zip vs)).getD 0) = vs := by
    intro xs
    induction xs with
    | nil => intro vs _ h; cases vs with | nil => rfl | cons v vs => cases h
    | cons x xs ih =>
      intro vs hn h
      cases vs with
      | nil => cases h
      | cons v vs =>
        have hx := (List.nodup_cons.1 hn).1
        have := ih vs (List.nodup_cons.1 hn).2 (by simpa using h)
        simp only [List.map_cons, List.zip_cons_cons, List.lookup_cons, beq_self_eq_true, Option.getD_some, List.cons.injEq, true_and]
        refine Eq.trans (List.map_congr_left fun y hy => ?_) this
        have hne : (y == x) = false := by
          rw [beq_eq_false_iff_ne]; rintro rfl; exact hx hy
        simp only [hne]
  exact this _ _ (entryArgs_nodup n) hl

def ruleItems (items : List Item) : List SRule := items.filterMap fun
  | .rule r => some r
  | _ => none

theorem mem_ruleItems {items : List Item} {r : SRule} : r ∈ ruleItems items ↔ .rule r ∈ items := by
  unfold ruleItems
  rw [List.mem_filterMap]
  constructor
  · rintro ⟨i, hi, e⟩
    cases i with
    | rule r' => cases e; exact hi
    | _ => cases e
  · exact fun h => ⟨_, h, rfl⟩

theorem filterMap_ruleItem (items : List Item) : items.filterMap ruleItem = (ruleItems items).map ruleOf := by
  unfold ruleItems
  rw [List.map_filterMap]
  congr 1
  funext i; cases i <;> rfl

theorem mem_entries {items : List Item} {f : Spec.Str} : f ∈ entries items ↔ .entry f ∈ items := by
  unfold entries
  rw [List.mem_filterMap]
  constructor
  · rintro ⟨i, hi, e⟩
    cases i with
    | entry r' => cases e; exact hi
    | _ => cases e
  · exact fun h => ⟨_, h, rfl⟩

/-- **C76 (clauses)** A well-formed file is read; its translation only fails on a product that is not linear; and the clauses have an
infinite run exactly if the program of the file has one. They are linear, without goal, and legal input of the front end. -/
theorem C76_its_clauses {items : List Item} (h : WellFormed items) : ∃ its, resolveAll .empty (items.map Item.toS) = some its ∧
    (asChcs linear its = .nonlinear ∨ ∃ cs, asChcs linear its = .ok cs ∧ (ClausesDiverge cs ↔ NonTerminating items) ∧
      (∃ ar, LegalInput ar cs) ∧ LinearInput cs ∧ NoGoals cs) := by
  obtain ⟨e, n, he, hen⟩ := h.entry
  have hnames : ∀ i ∈ items, NamesOk i := by
    intro i hi
    cases i with
    | rule r => exact fun g hg => ((h.rules r hi).guard g hg).2.1
    | _ => trivial
  refine ⟨items.foldl applyItem .empty, resolveAll_items items _ hnames, ?_⟩
  have hloc : (items.foldl applyItem .empty).locations = table items := by
    rw [fold_locations items .empty (by simpa [Itss.empty] using h.once)]; rfl
  have hrul : (items.foldl applyItem .empty).rules = (ruleItems items).map ruleOf := by
    rw [fold_rules, filterMap_ruleItem]; rfl
  have hent : (items.foldl applyItem .empty).entrypoint = e := by
    rw [fold_entry, ← entries_eq, he]; rfl
  obtain ⟨k, hk, hk1, hk2⟩ := predOf_declared h.once hen
  unfold asChcs
  rw [hloc, hrul, hent]
  rcases ruleClauses_ok (linear := linear) h.once (ruleItems items) fun r hr => h.rules r (mem_ruleItems.1 hr) with
    e' | ⟨cs, e', h1, h2⟩
  · rw [e']; exact .inl rfl
  rw [e']
  simp only [Res.bind, hk]
  refine .inr ⟨_, rfl, ?_, ⟨arOf (table items), ⟨⟨rfl, rfl, ?_⟩, ?_, ?_⟩⟩, ?_, ?_⟩
  · constructor
    · rintro ⟨f, h0, hf⟩
      refine ⟨fun i => (nameOf (table items) (f i).1, (f i).2), ?_, fun i => ?_⟩
      · obtain ⟨c, hc, ρ, _, hr⟩ := h0
        rcases List.mem_append.1 hc with hc | hc
        · obtain ⟨r, _, ⟨k', l', fl, rfl, -⟩⟩ := h2 c hc
          cases hr
        · rw [List.mem_singleton.1 hc] at hr
          simp only [GRule.mk.injEq] at hr
          refine ⟨n, ?_, ?_, ?_⟩
          · show Item.entry (nameOf (table items) (f 0).1) ∈ items
            rw [hr.2]
            show Item.entry (nameOf (table items) (.p k)) ∈ items
            rw [hk1, ← mem_entries, he]; simp
          · show Item.fn (nameOf (table items) (f 0).1) n ∈ items
            rw [hr.2]
            show Item.fn (nameOf (table items) (.p k)) n ∈ items
            rw [hk1]; exact hen
          · show (f 0).2.length = n
            rw [hr.2]
            simp [PAtom.ground, entryArgs]
      · obtain ⟨c, hc, ρ, hh, hr⟩ := hf i
        rcases List.mem_append.1 hc with hc | hc
        · obtain ⟨r, hr', ⟨k', l', fl, rfl, n1, n2, -, -, -, -, -, hfl⟩⟩ := h2 c hc
          simp only [GRule.mk.injEq, List.map_cons, List.map_nil, List.cons.injEq, and_true] at hr
          refine ⟨r, mem_ruleItems.1 hr', envOf ρ, ?_, ?_, fun g hg => ?_⟩
          · show (nameOf (table items) (f i).1, (f i).2) = _
            rw [hr.1]
            simp only [PAtom.ground, n2]
            rw [eval_args]
          · show (nameOf (table items) (f (i + 1)).1, (f (i + 1)).2) = _
            rw [hr.2]
            simp only [PAtom.ground, n1]
            rw [eval_args]
          · rw [sat_open g _ ((h.rules r (mem_ruleItems.1 hr')).guard g hg).1]
            exact ⟨envOf ρ, fun _ _ => rfl, (hfl ρ).1 hh g hg⟩
        · rw [List.mem_singleton.1 hc] at hr
          cases hr
    · rintro ⟨c, h0, hc⟩
      refine ⟨fun i => (((predOf (table items) (c i).1).map Prod.fst).getD .tru, (c i).2), ?_, fun i => ?_⟩
      · obtain ⟨n', he', hn', hlen⟩ := h0
        have hce : (c 0).1 = e := by
          have := mem_entries.2 he'
          rw [he] at this
          exact List.mem_singleton.1 this
        have hnn : n' = n := by
          rw [hce] at hn'
          obtain ⟨k', hk', -⟩ := predOf_declared h.once hn'
          rw [hk] at hk'
          cases hk'; rfl
        subst hnn
        obtain ⟨σ, hσ⟩ := entry_values hlen
        refine ⟨_, List.mem_append_right _ (List.mem_singleton.2 rfl), valOf σ, trivial, ?_⟩
        simp only [GRule.mk.injEq, List.map_nil, true_and, PAtom.ground]
        rw [eval_args, envOf_valOf, hσ, hce, hk]
        rfl
      · obtain ⟨r, hr, σ, e1, e2, hg⟩ := hc i
        obtain ⟨cl, hcl, ⟨k', l', fl, rfl, n1, n2, n3, n4, -, -, -, hfl⟩⟩ := h1 r (mem_ruleItems.2 hr)
        have hσ : ∃ σ' : Spec.Str → Int, (∀ x ∈ r.srcArgs ++ r.tgtArgs, σ' x = σ x) ∧ ∀ g, r.guard = some g → osat σ' g := by
          cases hgd : r.guard with
          | none => exact ⟨σ, fun _ _ => rfl, fun g h => by cases h⟩
          | some g =>
            obtain ⟨g1, _, g3⟩ := (h.rules r hr).guard g hgd
            obtain ⟨σ', a1, a2⟩ := (sat_open g σ g1).1 (hg g hgd)
            refine ⟨σ', fun x hx => a1 x fun hb => g3 x hb hx, fun g' hg' => by cases hg'; exact a2⟩
        obtain ⟨σ', a1, a2⟩ := hσ
        refine ⟨_, List.mem_append_left _ hcl, valOf σ', (hfl _).2 (by rw [envOf_valOf]; exact a2), ?_⟩
        simp only [GRule.mk.injEq, List.map_cons, List.map_nil, List.cons.injEq, and_true, PAtom.ground]
        rw [eval_args, eval_args, envOf_valOf, e1, e2]
        simp only [n3, n4, Option.map_some, Option.getD_some, Prod.mk.injEq, true_and]
        constructor
        · exact (List.map_congr_left fun x hx => a1 x (List.mem_append_left _ hx)).symm
        · exact (List.map_congr_left fun x hx => a1 x (List.mem_append_right _ hx)).symm
  · intro c hc
    rcases List.mem_append.1 hc with hc | hc
    · obtain ⟨r, _, ⟨k', l', fl, rfl, -, -, -, -, n1, n2, -⟩⟩ := h2 c hc
      simp [n1, n2]
    · rw [List.mem_singleton.1 hc]
      simp [hk2, entryArgs]
  · intro c hc
    rcases List.mem_append.1 hc with hc | hc
    · obtain ⟨r, _, ⟨k', l', fl, rfl, -, -, -, -, -, -, n3, -⟩⟩ := h2 c hc
      intro x hx
      simp only [Clause.vars, List.flatMap_cons, List.flatMap_nil, List.append_nil, List.mem_append, List.mem_flatMap] at hx
      rcases hx with hx | ⟨t, ht, hx⟩ | ⟨t, ht, hx⟩
      · exact n3 x hx
      · exact vars_args ht x hx
      · exact vars_args ht x hx
    · rw [List.mem_singleton.1 hc]
      intro x hx
      simp only [Clause.vars, List.flatMap_nil, List.append_nil, List.mem_append, List.mem_flatMap] at hx
      rcases hx with hx | ⟨t, ht, hx⟩
      · cases hx
      · exact vars_args ht x hx
  · intro c hc
    rcases List.mem_append.1 hc with hc | hc
    · obtain ⟨r, _, ⟨k', l', fl, rfl, -⟩⟩ := h2 c hc
      exact ⟨by simp, by simp⟩
    · rw [List.mem_singleton.1 hc]
      exact ⟨by simp, by simp⟩
  · intro c hc
    rcases List.mem_append.1 hc with hc | hc
    · obtain ⟨r, _, ⟨k', l', fl, rfl, -⟩⟩ := h2 c hc
      simp
    · rw [List.mem_singleton.1 hc]
      simp
  · intro c hc
    rcases List.mem_append.1 hc with hc | hc
    · obtain ⟨r, _, ⟨k', l', fl, rfl, -⟩⟩ := h2 c hc
      simp
    · rw [List.mem_singleton.1 hc]
      simp

mutual
theorem translate_linear (hl : ∀ ts, linear ts = true) : ∀ e : Expr, translate linear e ≠ .nonlinear
  | .const s => by
    cases h : numeral s <;> simp [translate, h, Res.ofOption, Res.bind]
  | .var s => by simp [translate]
  | .app k cs => by
    have := translates_linear hl cs
    simp only [translate]
    cases h : translates linear cs with
    | nonlinear => exact absurd h this
    | thrown => simp [Res.bind]
    | ok as =>
      simp only [Res.bind]
      unfold mkApp rel
      intro hc
      repeat' split at hc
      all_goals first
        | (rename_i hx; exact hx (hl _))
        | cases hc
theorem translates_linear (hl : ∀ ts, linear ts = true) : ∀ es : List Expr, translates linear es ≠ .nonlinear
  | [] => by simp [translates]
  | e :: es => by
    have h1 := translate_linear hl e
    have h2 := translates_linear hl es
    simp only [translates]
    cases h : translate linear e with
    | nonlinear => exact absurd h h1
    | thrown => simp [Res.bind]
    | ok a =>
      cases h' : translates linear es with
      | nonlinear => exact absurd h' h2
      | thrown => simp [Res.bind]
      | ok as => simp [Res.bind]
end

theorem mkAtom_linear (m : List (Str × Decl)) (f : Str) (as : List (Tm ctrTheory)) : mkAtom m f as ≠ .nonlinear := by
  unfold mkAtom
  repeat' split
  all_goals simp

theorem ruleClauses_linear (hl : ∀ ts, linear ts = true) (m : List (Str × Decl)) : ∀ rs, ruleClauses linear m rs ≠ .nonlinear
  | [] => by simp [ruleClauses]
  | r :: rs => by
    have h1 : ruleClause linear m r ≠ .nonlinear := by
      unfold ruleClause
      cases h : mkAtom m r.rhs.name (r.rhs.args.map intVar) with
      | nonlinear => exact absurd h (mkAtom_linear _ _ _)
      | thrown => simp [Res.bind]
      | ok a =>
        cases h' : mkAtom m r.lhs.name (r.lhs.args.map intVar) with
        | nonlinear => exact absurd h' (mkAtom_linear _ _ _)
        | thrown => simp [Res.bind]
        | ok b =>
          cases hg : r.guard with
          | none => simp [Res.bind, guardFla]
          | some e =>
            cases ht : translate linear e with
            | nonlinear => exact absurd ht (translate_linear hl e)
            | thrown => simp [Res.bind, guardFla, ht]
            | ok t => cases t <;> simp [Res.bind, guardFla, ht]
    have h2 := ruleClauses_linear hl m rs
    simp only [ruleClauses]
    cases h : ruleClause linear m r with
    | nonlinear => exact absurd h h1
    | thrown => simp [Res.bind]
    | ok a =>
      cases h' : ruleClauses linear m rs with
      | nonlinear => exact absurd h' h2
      | thrown => simp [Res.bind]
      | ok as => simp [Res.bind]

/-- **C76 (linear files)** If the logic refuses no product, then nothing is refused. -/
theorem C76_its_linear {items : List Item} (h : WellFormed items) (hl : ∀ ts, linear ts = true) :
    ∃ its cs, resolveAll .empty (items.map Item.toS) = some its ∧ asChcs linear its = .ok cs := by
  obtain ⟨its, h1, h2 | ⟨cs, h2, -⟩⟩ := C76_its_clauses (linear := linear) h
  · exfalso
    unfold asChcs at h2
    cases h' : ruleClauses linear its.locations its.rules with
    | nonlinear => exact ruleClauses_linear hl _ _ h'
    | thrown => rw [h'] at h2; cases h2
    | ok cs =>
      rw [h'] at h2
      simp only [Res.bind] at h2
      split at h2 <;> cases h2
  · exact ⟨its, cs, h1, h2⟩

theorem parseExprs_none {e : SExp} (he : parseExpr e = none) : ∀ {l : List SExp}, e ∈ l → parseExprs l = none
  | x :: l, h => by
    rcases List.mem_cons.1 h with rfl | h
    · simp only [parseExprs, he]
    · simp only [parseExprs]
      cases parseExpr x with
      | none => rfl
      | some y => simp only [parseExprs_none he h, Option.map_none]

/-- An operator outside the format is not read over. -/
theorem parseExpr_foreign {op : Spec.Str} (ho : op ∉ operators.map String.toList) {e : SExp} (h : Uses op e) : parseExpr e = none := by
  have hk : op ≠ "exists".toList ∧ kindOf op = none := by
    simp only [operators, List.map_cons, List.map_nil, List.mem_cons, List.not_mem_nil, or_false, not_or] at ho
    obtain ⟨h1, h2, h3, h4, h5, h6, h7, h8, h9, h10, h11⟩ := ho
    refine ⟨h11, ?_⟩
    unfold kindOf
    rw [if_neg h1, if_neg h2, if_neg h3, if_neg h8, if_neg h9, if_neg h10, if_neg h4, if_neg h5, if_neg h6, if_neg h7]
  induction h with
  | here args => rw [parseExpr.eq_def]; simp only; rw [if_neg hk.1, hk.2]
  | under o args e he hm _ ih =>
    rw [parseExpr.eq_def]; simp only; rw [if_neg he]
    cases kindOf o with
    | none => rfl
    | some k => simp only [parseExprs_none ih hm, Option.map_none]
  | body xs e rest _ ih => rw [a, parseExpr, if_pos rfl]; exact ih

theorem resolveAll_none {e : SExp} (he : ∀ its, resolve its e = none) : ∀ {l : List SExp} (its : Itss), e ∈ l → resolveAll its l = none
  | x :: l, its, h => by
    rcases List.mem_cons.1 h with rfl | h
    · simp only [resolveAll, he]
    · simp only [resolveAll]
      cases resolve its x with
      | none => rfl
      | some y => exact resolveAll_none he y h

/-- **C76** A file in which a guard uses an operator outside the format gets no answer. -/
theorem C76_its_foreign {S : Smt ctrTheory} {rw : Fla ctrTheory → Fla ctrTheory} {E : Elim ctrTheory} {order : Graph ctrTheory → List Pred}
    {fuel : Nat} {N : LGraph ctrTheory → Pred} {B : TBackend} {option : Option (List Char)} {file : List SExp} {out : List TLine}
    {op : Spec.Str} (ho : op ∉ operators.map String.toList) {l r g : SExp} (hg : Uses op g)
    (hm : SExp.list [a "rule", l, r, a ":guard", g] ∈ file)
    (h : ItsPrint linear S rw E order fuel N B option file out) : out = [] := by
  have he : ∀ its, resolve its (.list [a "rule", l, r, a ":guard", g]) = none := by
    intro its
    have hp : ∀ kw, parseRule [kw, l, r, a ":guard", g] = none := by
      intro kw
      rw [parseRule.eq_def]
      simp only [parseExpr_foreign ho hg, Option.map_none, ite_self]
      cases parseLoc l <;> cases parseLoc r <;> rfl
    simp only [resolve, a, asAtom]
    rw [if_neg (by decide +kernel), if_neg (by decide +kernel), if_neg (by decide +kernel), if_neg (by decide +kernel), if_pos trivial]
    have := hp (.atom "rule".toList)
    simp only [a] at this
    rw [this]
    rfl
  unfold ItsPrint at h
  rw [resolveAll_none he .empty hm] at h
  exact h

section
variable {S : Smt ctrTheory} {rw : Fla ctrTheory → Fla ctrTheory} {E : Elim ctrTheory} {order : Graph ctrTheory → List Pred}
  {fuel : Nat} {N : LGraph ctrTheory → Pred}

/-- **C76** The answers for a well-formed file: at most one line is printed; `YES` only for a program without infinite run, `NO` only
for a program with one, or when the transition system made from it has no initial state. -/
theorem C76_its_answer {items : List Item} (hw : WellFormed items) (hS : S.Sound) (hrw : RewriteExact rw) (hE : E.Exact)
    (ho : IsOrder order) (hN : IsNewVertex N) {B : TBackend}
    (hcs : ∀ its cs, resolveAll .empty (items.map Item.toS) = some its → asChcs linear its = .ok cs → RewritesApart rw cs ∧
      NoStrayLoop S rw E order fuel cs ∧
      ∀ ts, prepare S rw E order fuel N cs = .done (some ts) → NoLeftovers ts ∧ CounterFresh ts ∧ B.Right ts)
    {option : Option (List Char)} {out : List TLine}
    (h : ItsPrint linear S rw E order fuel N B option (items.map Item.toS) out) :
    out.length ≤ 1 ∧ (.yes ∈ out → ¬ NonTerminating items) ∧
    (.no ∈ out → NonTerminating items ∨ ∃ its cs ts, resolveAll .empty (items.map Item.toS) = some its ∧ asChcs linear its = .ok cs ∧
      prepare S rw E order fuel N cs = .done (some ts) ∧ ¬ ∃ s, ts.sem.Init s) := by
  obtain ⟨its, h1, h2 | ⟨cs, h2, hd, ⟨ar, hin⟩, hl, hg⟩⟩ := C76_its_clauses (linear := linear) hw
  · unfold ItsPrint at h
    rw [h1] at h
    simp only at h
    rw [h2] at h
    simp only at h
    rcases h with rfl | rfl <;> simp
  · obtain ⟨c1, c2, c3⟩ := hcs its cs h1 h2
    unfold ItsPrint at h
    rw [h1] at h
    simp only at h
    rw [h2] at h
    simp only at h
    obtain ⟨a1, a2, a3⟩ := C75_termination hS hrw hE ho hN hin hl hg c1 c2 c3 h
    refine ⟨a1, fun hy => ?_, fun hn => ?_⟩
    · rw [← hd]; exact a2 hy
    · rcases a3 hn with h | ⟨ts, h, h'⟩
      · exact .inl (hd.1 h)
      · exact .inr ⟨its, cs, ts, h1, h2, h, h'⟩

end

end Its
end Golem
