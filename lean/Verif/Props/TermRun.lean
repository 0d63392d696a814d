import Verif.Spec.Chains
import Verif.Model.Termination.Solve
import Verif.Lemmas.TermSys
import Verif.Props.CheckSat
import Verif.Props.TSCheck
import Verif.Props.Lasso
import Verif.Props.StepCounter
import Verif.Props.Nonterm
import Verif.Props.Portfolio

/-! Property C75: the termination front end, from the clauses of a program to the printed answer. -/

namespace Golem
variable {T : Theory}

section
variable {ar : Pred → Nat} {cs : List (Clause T)}

/-- The graph of the clauses has the infinite runs of the clauses. -/
theorem initial_diverges (hin : LegalInput ar cs) :
    (initialGraph cs).edges.Diverges (normalize cs).1.repr ↔ ClausesDiverge cs := by
  have hs := hin.shape
  obtain ⟨hR, hv, -⟩ := C03_normal_form ar cs hin.arity hin.user
  have hru := (C03_normalize_same_instances ar cs hin.arity hin.user).1
  have hn : ∀ c ∈ (normalize cs).2, c.Normal (normalize cs).1.repr := fun c hc => (hv c hc).1
  have hstep : ∀ f g : Fact T, (initialGraph cs).edges.Step (normalize cs).1.repr f g ↔
      clauseRules cs ⟨[f], g⟩ ∨ (f = trueFact ∧ clauseRules cs ⟨[], g⟩) := by
    intro f g
    rw [step_rules, hru, hru]
    constructor
    · rintro ⟨e, he, ρ, hf, hr⟩
      obtain ⟨c, hc, j, rfl⟩ := mem_buildFrom he
      obtain ⟨h1, h2⟩ := clauseEdge_rule hR (hn c hc) j ρ
      rw [← hr] at h1 h2
      simp only at h1 h2
      by_cases hb : c.body = []
      · right
        rw [hb] at h2
        simp only [List.isEmpty_nil, if_true, List.cons.injEq, and_true] at h2
        exact ⟨h2, c, hc, ρ, hf, by rw [hb, h1]; rfl⟩
      · left
        rw [if_neg (by simpa using hb)] at h2
        exact ⟨c, hc, ρ, hf, by rw [h1, h2]⟩
    · have back : ∀ c ∈ (normalize cs).2, ∀ ρ : Valuation T, c.constraint.holds ρ →
          graphRules (normalize cs).1.repr (initialGraph cs).edges
            ⟨if c.body.isEmpty then [trueFact] else c.body.map (PAtom.ground ρ), PAtom.ground ρ c.head⟩ := by
        intro c hc ρ hf
        obtain ⟨i, hi⟩ := List.getElem?_of_mem hc
        obtain ⟨e, he, _, e2, e3, e4⟩ := (C04_buildGraph_exact _ hR _ hn).2.2 i c hi
        have hee : e = clauseEdge e.id c := by
          cases e with
          | mk src tgt fla id =>
            simp only at e2 e3 e4
            subst e2 e3 e4
            simp only [clauseEdge, Edge.mk.injEq, and_true]
            by_cases hb : c.body = [] <;> simp [hb]
        obtain ⟨h1, h2⟩ := clauseEdge_rule hR (hn c hc) e.id ρ
        refine ⟨e, List.mem_of_getElem? he, ρ, by rw [e3]; exact hf, ?_⟩
        rw [← h1, ← h2, ← hee]
      rintro (⟨c, hc, ρ, hf, hr⟩ | ⟨rfl, c, hc, ρ, hf, hr⟩)
      · have := back c hc ρ hf
        simp only [GRule.mk.injEq] at hr
        have hb : c.body ≠ [] := by intro h; rw [h] at hr; cases hr.1
        rw [if_neg (by simpa using hb), ← hr.1, ← hr.2] at this
        exact this
      · have := back c hc ρ hf
        simp only [GRule.mk.injEq] at hr
        have hb : c.body = [] := by simpa using hr.1.symm
        rw [hb] at this
        simp only [List.isEmpty_nil, if_true] at this
        rw [hr.2]; exact this
  have hnt : ∀ f g : Fact T, clauseRules cs ⟨[f], g⟩ → f.1 ≠ .tru := by
    rintro f g ⟨c, hc, ρ, _, hr⟩ h
    simp only [GRule.mk.injEq] at hr
    cases hb : c.body with
    | nil => rw [hb] at hr; cases hr.1
    | cons a l =>
      rw [hb] at hr
      simp only [List.map_cons, List.cons.injEq] at hr
      have := (hs c hc).body a (by rw [hb]; simp)
      rw [hr.1.1] at h
      exact this.1 h
  have hht : ∀ (b : List (Fact T)) g, clauseRules cs ⟨b, g⟩ → g.1 ≠ .tru := by
    rintro b g ⟨c, hc, ρ, _, hr⟩ h
    simp only [GRule.mk.injEq] at hr
    rw [hr.2] at h
    exact (hs c hc).head h
  constructor
  · rintro ⟨f, h0, hf⟩
    have hne : ∀ i, (f (i + 1)).1 ≠ .tru := by
      intro i
      rcases (hstep _ _).1 (hf i) with h | h
      · exact hht _ _ h
      · exact hht _ _ h.2
    refine ⟨fun i => f (i + 1), ?_, fun i => ?_⟩
    · rcases (hstep _ _).1 (hf 0) with h | h
      · rw [h0] at h; exact absurd rfl (hnt _ _ h)
      · exact h.2
    · rcases (hstep _ _).1 (hf (i + 1)) with h | h
      · exact h
      · exact absurd (by rw [h.1]; rfl) (hne i)
  · rintro ⟨f, h0, hf⟩
    refine ⟨fun i => match i with | 0 => trueFact | i + 1 => f i, rfl, fun i => ?_⟩
    cases i with
    | zero => exact (hstep _ _).2 (.inr ⟨rfl, h0⟩)
    | succ i => exact (hstep _ _).2 (.inl (hf i))

theorem initial_termInv (hin : LegalInput ar cs) (hl : LinearInput cs) (hg : NoGoals cs) :
    TermInv (normalize cs).1.repr (initialGraph cs) := by
  obtain ⟨_, _, hi⟩ := C04_initial_graph ar cs hin.arity hin.user hin.shape
  refine ⟨hi, (initialGraph_tame hin hl).2, ?_⟩
  rintro ⟨e, he, h⟩
  have hspec := normalizeFrom_spec (NState.init_inv hin.arity.1 hin.arity.2.1) cs hin.user hin.arity.2.2
  have hpr := (hspec.2.2 _ (NState.Ext.refl _)).preds
  obtain ⟨c', hc', j, rfl⟩ := mem_buildFrom he
  obtain ⟨c, hc, h1, h2⟩ := hpr c' hc'
  rcases h with h | h
  · exact hg c hc (h1.symm.trans h.symm)
  · exact (hi.ends _ he).2 h

end

/-- The symbol of the vertex that the single-loop transformation makes is a new one. -/
def IsNewVertex (N : LGraph T → Pred) : Prop := ∀ G, (N G ≠ .tru ∧ N G ≠ .fls) ∧ ∀ e ∈ G, e.src ≠ N G ∧ e.tgt ≠ N G

/-- If the preprocessed graph is taken for a transition system, then all its edges can be reached. -/
def NoStrayLoop (S : Smt T) (rw : Fla T → Fla T) (E : Elim T) (order : Graph T → List Pred) (fuel : Nat) (cs : List (Clause T)) :
    Prop := ∀ st b, pipeline (terminationStages S (normalize cs).1.repr rw E order fuel) (initialGraph cs) = .done (st, b) →
  isTSWithoutQuery (toNormalGraph (normalize cs).1.repr st.edges) = true → (toNormalGraph (normalize cs).1.repr st.edges).NoStray

/-- No auxiliary variable of the system is a source variable of a predicate that was summarized away. -/
def NoLeftovers (ts : TS T) : Prop := ∀ x ∈ ts.auxVars, ∀ n i, x ≠ .src n i

section
variable {S : Smt T} {rw : Fla T → Fla T} {E : Elim T} {order : Graph T → List Pred} {fuel : Nat} {N : LGraph T → Pred}
  {ar : Pred → Nat} {cs : List (Clause T)}

/-- **C75 (preprocessing)** A program for which the front end answers without a back end has no infinite run; and the transition
system it makes otherwise is well formed and has an infinite run exactly if the program has one. -/
theorem C75_prepare (hS : S.Sound) (hrw : RewriteExact rw) (hE : E.Exact) (ho : IsOrder order) (hN : IsNewVertex N)
    (hin : LegalInput ar cs) (hl : LinearInput cs) (hg : NoGoals cs) (ha : RewritesApart rw cs)
    (hst : NoStrayLoop S rw E order fuel cs) :
    (prepare S rw E order fuel N cs = .done none → ¬ ClausesDiverge cs) ∧
    ∀ ts, prepare S rw E order fuel N cs = .done (some ts) → ts.WF ∧ ts.AuxSep ∧ (∀ x ∈ ts.stateVars, ∃ n, x = .ver n 0) ∧
      (ClausesDiverge cs ↔ ts.sem.InfiniteRun) := by
  obtain ⟨hR, hF, _⟩ := C04_initial_graph ar cs hin.arity hin.user hin.shape
  have hA := (initialGraph_tame hin hl).1
  have hi := initial_termInv hin hl hg
  cases hp : pipeline (terminationStages S (normalize cs).1.repr rw E order fuel) (initialGraph cs) with
  | thrown => simp [prepare, hp]
  | outOfFuel => simp [prepare, hp]
  | done r =>
    obtain ⟨st, b⟩ := r
    obtain ⟨i', d⟩ := terminationStages_div hR hA hS hF hrw hE ho hi (hin.noClash ha) hp
    obtain ⟨hn, hr⟩ := ready_of_inv hR hA i' (hN _).1 (hN (toNormalGraph (normalize cs).1.repr st.edges)).2
    have key : ClausesDiverge cs ↔ (toNormalGraph (normalize cs).1.repr st.edges).Diverges (normalize cs).1.repr := by
      rw [← initial_diverges hin, d, normal_diverges hR hn fun e he => i'.inv.ok.labelOk he]
    simp only [prepare, hp]
    split
    · rename_i ht
      refine ⟨fun _ => ?_, fun ts h => by cases h⟩
      rw [key]; exact trivial_terminates hr ht
    · split
      · exact ⟨fun h => (by cases h), fun ts h => (by cases h)⟩
      · rename_i ts hx
        obtain ⟨w1, w2, w3, w4⟩ := extract_ok hr hE.except (hst st b hp) hx
        split
        · rename_i hff
          refine ⟨fun _ => ?_, fun ts h => by cases h⟩
          rw [key, w3]
          rintro ⟨r, _, hr⟩
          obtain ⟨ρ, hh, _⟩ := hr 0
          rw [hff] at hh
          exact hh
        · refine ⟨fun h => (by cases h), fun ts' h => ?_⟩
          cases h
          exact ⟨w1, w2, w4, key.trans w3⟩

end

/-- The services of the back ends are right on the system. -/
structure TBackend.Right (B : TBackend) (ts : TS ctrTheory) : Prop where
  lasso : B.engine.RightOn (lassoClauses B.sym B.dflt ts)
  counter : ∀ m ∈ multipliers, B.engine.RightOn (counterClauses B.sym B.isInt m ts)
  correct : B.smt.Correct
  complete : B.smt.Complete
  keep : B.keep.Exact
  nonterm : B.engine.GoodSystems B.sym ts.stateVars

section
variable {B : TBackend} {ts : TS ctrTheory}

theorem withAnswer_done {α : Type} {f : α → TAnswer} {x : Outcome α} {a : TAnswer} (h : withAnswer f x = .done a) :
    ∃ y, x = .done y ∧ f y = a := by
  cases x with
  | done y => exact ⟨y, rfl, by simpa [withAnswer] using h⟩
  | thrown => cases h
  | outOfFuel => cases h

/-- One method: its definite answers are right. -/
theorem solveMethod_right (hB : B.Right ts) (hw : ts.WF) (hs : ts.AuxSep) (hv : ts.Versioned) (hf : CounterFresh ts) (m : TMethod) :
    (solveMethod B ts m = .done .terminating → ¬ ts.sem.InfiniteRun) ∧
    (solveMethod B ts m = .done .nonterminating → ts.sem.InfiniteRun ∨ ¬ ∃ s, ts.sem.Init s) := by
  cases m with
  | lassoFinder =>
    have h := (C52_lasso (T := ctrTheory) (k := B.sym) (dflt := B.dflt) hw hv hB.lasso).1
    constructor
    · intro h1
      obtain ⟨y, _, e⟩ := withAnswer_done h1
      cases y <;> cases e
    · intro h1
      obtain ⟨y, hy, e⟩ := withAnswer_done h1
      cases y with
      | lasso => exact .inl (h hy).2
      | noLasso => cases e
      | unknown => cases e
      | error => cases e
  | stepCounter =>
    have h := (C53_step_counter (k := B.sym) (isInt := B.isInt) hw hv hf hB.counter).1
    constructor
    · intro h1
      obtain ⟨y, hy, e⟩ := withAnswer_done h1
      cases y with
      | yes => exact (h hy).1
      | no => cases e
      | unknown => cases e
      | error => cases e
    · intro h1
      obtain ⟨y, _, e⟩ := withAnswer_done h1
      cases y <;> cases e
  | nontermViaSafety =>
    have h := C54_nonterm (T := ctrTheory) (k := B.sym) (fuel := B.fuel) hB.correct hB.complete hB.keep hw hv hs hB.nonterm
    constructor
    · intro h1
      obtain ⟨y, hy, e⟩ := withAnswer_done h1
      cases y with
      | yes => exact h.1 hy
      | no => cases e
      | unknown => cases e
      | error => cases e
    · intro h1
      obtain ⟨y, hy, e⟩ := withAnswer_done h1
      cases y with
      | no =>
        by_cases hi : ∃ s, ts.sem.Init s
        · exact .inl (h.2 hy hi)
        · exact .inr hi
      | yes => cases e
      | unknown => cases e
      | error => cases e

/-- **C75 (back ends)** Whatever the choice of the back end and the interleaving of the processes, at most one line is printed; it
is right, except that `NO` may also be printed for a system without initial state. -/
theorem C75_solve (hB : B.Right ts) (hw : ts.WF) (hs : ts.AuxSep) (hv : ts.Versioned) (hf : CounterFresh ts)
    {option : Option (List Char)} {out : List TLine} (h : SolvePrints B option ts out) :
    out.length ≤ 1 ∧ (.yes ∈ out → ¬ ts.sem.InfiniteRun) ∧ (.no ∈ out → ts.sem.InfiniteRun ∨ ¬ ∃ s, ts.sem.Init s) := by
  have hm := solveMethod_right hB hw hs hv hf
  unfold SolvePrints at h
  split at h
  · obtain ⟨faults, s, hr, rfl⟩ := h
    obtain ⟨p1, p2, _⟩ := Portfolio.C55_portfolio hr
    have hdef : ∀ a, (multiConfig B ts faults).Definite a → (a = .yes ∧ ¬ ts.sem.InfiniteRun) ∨
        (a = .no ∧ (ts.sem.InfiniteRun ∨ ¬ ∃ s, ts.sem.Init s)) := by
      rintro a ⟨i, _, hi⟩
      simp only [multiConfig, childResult] at hi
      split at hi
      · rename_i e; cases hi; exact .inl ⟨rfl, (hm _).1 e⟩
      · rename_i e; cases hi; exact .inr ⟨rfl, (hm _).2 e⟩
      · cases hi
      · cases hi
      · cases hi
    have hout : ∀ l, l ∈ s.output.map portfolioLine → l = .maybe ∨ (multiConfig B ts faults).Definite l := by
      intro l hl
      obtain ⟨x, hx, rfl⟩ := List.mem_map.1 hl
      cases x with
      | maybe => exact .inl rfl
      | answer a => exact .inr (p2 a hx)
    refine ⟨by simpa using p1, fun h => ?_, fun h => ?_⟩
    · rcases hout _ h with h | h
      · cases h
      · rcases hdef _ h with ⟨_, h⟩ | ⟨h, _⟩
        · exact h
        · cases h
    · rcases hout _ h with h | h
      · cases h
      · rcases hdef _ h with ⟨h, _⟩ | ⟨_, h⟩
        · cases h
        · exact h
  · split at h
    · subst h; simp
    · rename_i m _
      rcases h with rfl | ⟨a, ha, rfl⟩
      · simp
      · refine ⟨by simp, fun h => ?_, fun h => ?_⟩
        · refine (hm m).1 ?_
          cases a <;> simp [TAnswer.line] at h
          exact ha
        · refine (hm m).2 ?_
          cases a <;> simp [TAnswer.line] at h
          exact ha

end

section
variable {S : Smt ctrTheory} {rw : Fla ctrTheory → Fla ctrTheory} {E : Elim ctrTheory} {order : Graph ctrTheory → List Pred}
  {fuel : Nat} {N : LGraph ctrTheory → Pred} {ar : Pred → Nat} {cs : List (Clause ctrTheory)}

/-- **C75** The answers of the termination front end for a program given as linear clauses without goals: whatever back end is
selected, and for every interleaving of the processes when none is, at most one line is printed; `YES` is printed only for a
program without infinite run; `NO` only for a program with one, or when the transition system has no initial state. -/
theorem C75_termination (hS : S.Sound) (hrw : RewriteExact rw) (hE : E.Exact) (ho : IsOrder order) (hN : IsNewVertex N)
    (hin : LegalInput ar cs) (hl : LinearInput cs) (hg : NoGoals cs) (ha : RewritesApart rw cs)
    (hst : NoStrayLoop S rw E order fuel cs) {B : TBackend}
    (hts : ∀ ts, prepare S rw E order fuel N cs = .done (some ts) → NoLeftovers ts ∧ CounterFresh ts ∧ B.Right ts)
    {option : Option (List Char)} {out : List TLine} (h : ClausesPrint S rw E order fuel N B option cs out) :
    out.length ≤ 1 ∧ (.yes ∈ out → ¬ ClausesDiverge cs) ∧
    (.no ∈ out → ClausesDiverge cs ∨ ∃ ts, prepare S rw E order fuel N cs = .done (some ts) ∧ ¬ ∃ s, ts.sem.Init s) := by
  obtain ⟨p1, p2⟩ := C75_prepare (N := N) hS hrw hE ho hN hin hl hg ha hst
  unfold ClausesPrint at h
  split at h
  · rename_i hp
    rcases h with rfl | rfl
    · simp
    · exact ⟨by simp, fun _ => p1 hp, by simp⟩
  · rename_i ts hp
    obtain ⟨w1, w2, w3, w4⟩ := p2 ts hp
    obtain ⟨t1, t2, t3⟩ := hts ts hp
    have hv : ts.Versioned := ⟨w3, fun x hx => by
      have := w1.auxCur x hx
      cases x with
      | ver n k => exact ⟨n, by rw [show k = 0 from this]⟩
      | src n k => exact absurd rfl (t1 _ hx n k)
      | base n => cases this
      | tgt n => cases this⟩
    obtain ⟨a1, a2, a3⟩ := C75_solve t3 w1 w2 hv t2 h
    refine ⟨a1, fun hy => ?_, fun hn => ?_⟩
    · rw [w4]; exact a2 hy
    · rcases a3 hn with h | h
      · exact .inl (w4.2 h)
      · exact .inr ⟨ts, hp, h⟩
  · subst h; simp

end

end Golem
