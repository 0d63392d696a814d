import Verif.Lemmas.LinearReady
import Verif.Lemmas.SingleLoopAux
import Verif.Props.CheckSat
import Verif.Props.Dar
import Verif.Props.PDKind
import Verif.Props.TPAGraph
import Verif.Props.TPAGraphEx

/-! C65: the engines for transition systems, from linear clauses to the answer of `check-sat`. -/

namespace Golem
variable {T : Theory}

/-! ### On linear hypergraphs -/

/-- The graph that `TransitionSystemEngine::solve` works on after its own preprocessing, if it is neither trivial nor a transition system,
has no auxiliary variables on the edges from `true` and on the edges to `false`. -/
def NoEntryAux (S : Smt T) (R : PRepr) (E : Elim T) (st : GS T) : Prop :=
  ∀ st' b, pipeline (towardsTransitionSystems S R E) st = .done (st', b) →
    isTrivial (toNormalGraph R st'.edges) = false → isTransitionSystem (toNormalGraph R st'.edges) = false →
    ∀ l ∈ toNormalGraph R st'.edges, l.src = .tru ∨ l.tgt = .fls → edgeAux R l = []

/-- Some edge of that graph, if it is not trivial, can be taken out of `true`. -/
def StartsAfter (S : Smt T) (R : PRepr) (E : Elim T) (st : GS T) : Prop :=
  ∀ st' b, pipeline (towardsTransitionSystems S R E) st = .done (st', b) →
    isTrivial (toNormalGraph R st'.edges) = false → (toNormalGraph R st'.edges).Starts R

/-- What an engine that may be asked for no witness owes: the right answer; and the right witness if it is asked for one. -/
def EngineResultOk (R : PRepr) (G : Graph T) (w : Bool) (r : VerificationResult T) : Prop :=
  AnswerOk R G r ∧ (w = true → HyperResultOk R G r)

section
variable {S : Smt T} {R : PRepr} {E : Elim T} {st : GS T} {w : Bool}

theorem tsEngine_tame (hS : S.Sound) (hc : S.DecidesOne) (hR : R.WF) (hF : R.FreshNames) (hA : R.PlainArgs) (hE : E.Exact)
    (hst : st.Inv R) (htm : st.edges.Tame) {solve : LGraph T → Outcome (VerificationResult T)}
    (ht : ∀ G r, isTrivial G = true → solve G = .done r → r = solveTrivial S G)
    (hs : ∀ st' b r, pipeline (towardsTransitionSystems S R E) st = .done (st', b) →
      isTrivial (toNormalGraph R st'.edges) = false → LinearReady R (toNormalGraph R st'.edges) → solve (toNormalGraph R st'.edges) = .done r → GraphResultOk R (toNormalGraph R st'.edges) r)
    {res : VerificationResult T} (h : tsEngineSolve S R E w solve st = .done res) : EngineResultOk R st.edges w res := by
  have := C47_ts_engine_at hS hR hF hE w hst (fun st' b r hp hi hn hno hr => by
    obtain ⟨-, hl⟩ := towards_ready hS hc hR hF hA hE hst htm hp
    refine ⟨?_, fun htr ds hd => ?_⟩
    · cases htr : isTrivial (toNormalGraph R st'.edges) with
      | true =>
        rw [ht _ _ htr hr]
        exact solveTrivial_ok hS hR htr
      | false =>
        rcases hl with htr' | hl
        · rw [htr] at htr'; cases htr'
        · exact hs st' b r hp htr hl hr
    · rw [ht _ _ htr hr] at hd
      exact solveTrivial_short S _ hd) h
  rcases this with h1 | ⟨rfl, h1, h2⟩
  · exact ⟨⟨h1.unsafeAns, h1.safe⟩, fun _ => h1⟩
  · exact ⟨⟨h1, h2⟩, fun e => by cases e⟩

theorem tsEngineGraph_trivial {Ex : ElimExcept T} {Q : KeepOnly T} {simp : Fla T → Fla T} {N : LGraph T → Pred}
    {prep : TS T → Option (TS T)} {solve : TS T → Outcome (TSResult T)} (G : LGraph T) (r : VerificationResult T)
    (ht : isTrivial G = true) (h : tsEngineGraph S R Ex Q simp (N G) prep solve w G = .done r) : r = solveTrivial S G := by
  rw [tsEngineGraph, if_pos ht] at h
  cases h; rfl

theorem LinearReady.fresh {G : LGraph T} (h : LinearReady R G) : SLOk R (freshPred G) G :=
  h.sl _ (freshPred_new G).1 (freshPred_new G).2.1 (freshPred_new G).2.2

variable {Ex : ElimExcept T} {Q : QElim T} {K : KeepOnly T} {simp : Fla T → Fla T} {hasArrays : Bool} {res : VerificationResult T}

/-- **C65** Interpolation-based model checking on a linear hypergraph. -/
theorem C65_imc_graph (hS : S.Sound) (hc : S.Complete) (hR : R.WF) (hF : R.FreshNames) (hA : R.PlainArgs) (hE : E.Exact)
    (hEx : Ex.Exact) (hQ : Q.Exact) (hK : K.Exact) (hsi : SimplifierOk simp) (hst : st.Inv R) (htm : st.edges.Tame)
    (hna : NoEntryAux S R E st) {inner fuel : Nat} (h : imcCheck S E Ex Q K simp w hasArrays inner fuel R st = .done res) :
    EngineResultOk R st.edges w res := by
  refine tsEngine_tame hS hc.one hR hF hA hE hst htm tsEngineGraph_trivial (fun st' b r hp hnt hl hr => ?_) h
  exact C17_imc hS hc hl.fresh hl.noStray hEx hl.entry hl.exit hK hQ hsi w hasArrays inner fuel
    (fun hnts ts hts => singleLoop_noAux hl.fresh S hEx hl.entry hl.exit (hna st' b hp hnt hnts) hts) hr

/-- **C65** Dual-approximated reachability on a linear hypergraph. -/
theorem C65_dar_graph (hS : S.Sound) (hc : S.Complete) (hR : R.WF) (hF : R.FreshNames) (hA : R.PlainArgs) (hE : E.Exact)
    (hEx : Ex.Exact) (hQ : Q.Exact) (hK : K.Exact) (hsi : SimplifierOk simp) (hst : st.Inv R) (htm : st.edges.Tame)
    (hna : NoEntryAux S R E st) {fuel : Nat} (h : darCheck S E Ex Q K simp w hasArrays fuel R st = .done res) :
    EngineResultOk R st.edges w res := by
  refine tsEngine_tame hS hc.one hR hF hA hE hst htm tsEngineGraph_trivial (fun st' b r hp hnt hl hr => ?_) h
  exact C49_dar_linear hS hc hl.fresh hl.noStray hEx hl.entry hl.exit hK hQ hsi w hasArrays fuel
    (fun hnts ts hts => singleLoop_noAux hl.fresh S hEx hl.entry hl.exit (hna st' b hp hnt hnts) hts) hr

/-- **C65** Property-directed k-induction on a linear hypergraph. -/
theorem C65_pdkind_graph {P : PdEnv T} (hP : P.Ok) (hc : P.S.Complete) (hR : R.WF) (hF : R.FreshNames) (hA : R.PlainArgs)
    (hE : E.Exact) (hEx : Ex.Exact) (hQ : Q.Exact) (hK : K.Exact) (hsi : SimplifierOk simp) (hst : st.Inv R) (htm : st.edges.Tame)
    (hna : NoEntryAux P.S R E st) {rfuel pfuel fuel : Nat}
    (h : pdkindCheck P E Ex Q K simp w hasArrays rfuel pfuel fuel R st = .done res) : EngineResultOk R st.edges w res := by
  refine tsEngine_tame hP.sound hc.one hR hF hA hE hst htm tsEngineGraph_trivial (fun st' b r hp hnt hl hr => ?_) h
  exact C50_linear hP hc hl.fresh hl.noStray hEx hl.entry hl.exit hK hQ hsi w hasArrays rfuel pfuel fuel
    (fun hnts ts hts => (singleLoop_noAux hl.fresh P.S hEx hl.entry hl.exit (hna st' b hp hnt hnts) hts).query) hr

/-- **C65** Transition power abstraction, with either core, on a linear hypergraph. -/
theorem C65_tpa_graph {X : NetEnv T} (hX : X.Ok) (hc : X.V.S.Complete) (hXQ : X.V.Q.Exact) (hXK : X.V.K.Exact) (hR : R.WF)
    (hF : R.FreshNames) (hA : R.PlainArgs) (hE : E.Exact) (hEx : Ex.Exact) (hQ : Q.Exact) (hK : K.Exact) (hsi : SimplifierOk simp)
    (hst : st.Inv R) (htm : st.edges.Tame) (hst0 : X.core = .split → StartsAfter X.V.S R E st) {forceTS : Bool}
    (h : tpaCheck X E Ex Q K simp forceTS w hasArrays R st = .done res) : EngineResultOk R st.edges w res := by
  refine tsEngine_tame hX.V.S hc.one hR hF hA hE hst htm (fun G r ht hr => ?_) (fun st' b r hp hnt hl hr => ?_) h
  · simp only [tpaGraph, ht, if_true, Outcome.done.injEq] at hr
    exact hr.symm
  · exact C64_tpa_graph hX hc hXQ hXK hl.fresh hl.noStray hEx hQ hK hsi hl.entry hl.exit hl.noParallel.oneLoop
      (fun hcore => hst0 hcore st' b hp hnt) hr

/-- The default preprocessing keeps the edges linear and their names plain. -/
theorem default_tame {rw : Fla T → Fla T} {order : Graph T → List Pred} {fuel : Nat} (hS : S.Sound) (hR : R.WF) (hF : R.FreshNames)
    (hA : R.PlainArgs) (hrw : RewriteExact rw) (hE : E.Exact)
    (ho : IsOrder order) {st st' : GS T} {b : OBack T} (hst : st.Inv R) (hn : NoClash R rw st.edges) (htm : st.edges.Tame)
    (h : pipeline (defaultStages S R rw E order fuel) st = .done (st', b)) : st'.edges.Tame := by
  unfold pipeline at h
  split at h
  · rename_i stx bs hrun
    cases h
    unfold defaultStages stagesBefore stagesAfter at hrun
    obtain ⟨s1, b1, c1, e1, r1, -⟩ := runStages_cons hrun
    obtain ⟨i1, -⟩ := C56_constraint_simplifier hrw hE.except hst hn e1
    have t1 := simplifyStage_tame hrw hE.except htm e1
    obtain ⟨s2, b2, c2, e2, r2, -⟩ := runStages_cons r1
    have i2 := (chainStage_ok hS hR hE ho _ _ _ i1 e2).1
    have t2 := chainStage_tame hA hE t1 e2
    obtain ⟨s3, b3, c3, e3, r3, -⟩ := runStages_cons r2
    have i3 := (unreachableStage_ok hR _ _ _ i2 e3).1
    have t3 := unreachableStage_tame t2 e3
    obtain ⟨s4, b4, c4, e4, r4, -⟩ := runStages_cons r3
    have i4 := (elimStage_ok hS hR hF hE (.inl rfl) _ _ _ i3 e4).1
    have t4 := elimStage_tame hA hE t3 e4
    obtain ⟨s5, b5, c5, e5, r5, -⟩ := runStages_cons r4
    have i5 := (inlineStage_uns hS hR hF hE fuel _ _ _ i4 e5).inv
    have t5 := inlineStage_tame hA hE t4 e5
    obtain ⟨s6, b6, c6, e6, r6, -⟩ := runStages_cons r5
    have i6 := (falseStage_ok hR _ _ _ i5 e6).1
    have t6 := falseStage_tame t5 e6
    obtain ⟨s7, b7, c7, e7, r7, -⟩ := runStages_cons r6
    have i7 := (unreachableStage_ok hR _ _ _ i6 e7).1
    have t7 := unreachableStage_tame t6 e7
    obtain ⟨s8, b8, c8, e8, r8, -⟩ := runStages_cons r7
    have i8 := (mergeStage_ok hS hR _ _ _ i7 e8).1
    have t8 := mergeStage_tame i7.ok.ids t7 e8
    obtain ⟨s9, b9, c9, e9, r9, -⟩ := runStages_cons r8
    have i9 := (chainStage_ok hS hR hE ho _ _ _ i8 e9).1
    have t9 := chainStage_tame hA hE t8 e9
    obtain ⟨s10, b10, c10, e10, r10, -⟩ := runStages_cons r9
    have i10 := (unreachableStage_ok hR _ _ _ i9 e10).1
    have t10 := unreachableStage_tame t9 e10
    obtain ⟨s11, b11, c11, e11, r11, -⟩ := runStages_cons r10
    have i11 := (elimStage_ok hS hR hF hE (.inl rfl) _ _ _ i10 e11).1
    have t11 := elimStage_tame hA hE t10 e11
    obtain ⟨s12, b12, c12, e12, r12, -⟩ := runStages_cons r11
    have i12 := (falseStage_ok hR _ _ _ i11 e12).1
    have t12 := falseStage_tame t11 e12
    obtain ⟨s13, b13, c13, e13, r13, -⟩ := runStages_cons r12
    have i13 := (unreachableStage_ok hR _ _ _ i12 e13).1
    have t13 := unreachableStage_tame t12 e13
    obtain ⟨s14, b14, c14, e14, r14, -⟩ := runStages_cons r13
    have t14 := mergeStage_tame i13.ok.ids t13 e14
    obtain ⟨s15, b15, c15, e15, r15, -⟩ := runStages_cons r14
    cases r15
    exact pruneStage_tame t14 e15
  · cases h
  · cases h

end

/-! ### From clauses -/

/-- Linear clauses: at most one predicate in each body. -/
def LinearInput (cs : List (Clause T)) : Prop := ∀ c ∈ cs, c.body.length ≤ 1

section
variable {ar : Pred → Nat} {cs : List (Clause T)}

theorem initialGraph_tame (hin : LegalInput ar cs) (hl : LinearInput cs) :
    (normalize cs).1.repr.PlainArgs ∧ (initialGraph cs).edges.Tame := by
  have hspec := normalizeFrom_spec (NState.init_inv hin.arity.1 hin.arity.2.1) cs hin.user hin.arity.2.2
  have hpr := (hspec.2.2 _ (NState.Ext.refl _)).preds
  obtain ⟨hR, hvars, -⟩ := C03_normal_form ar cs hin.arity hin.user
  have hnames : (normalize cs).1.repr.PlainArgs := by
    intro p n hn
    simp only [NState.repr] at hn
    cases hl : List.lookup p (normalize cs).1.reps with
    | none => simp [hl] at hn
    | some ns =>
      simp only [hl, Option.getD_some] at hn
      obtain ⟨k, _, e⟩ := hspec.1.names p ns hl _ hn
      subst e; rfl
  refine ⟨hnames, fun e he => ?_⟩
  obtain ⟨i, c, hc, rfl⟩ := mem_buildGraph he
  have hm := List.mem_of_getElem? hc
  constructor
  · obtain ⟨c0, h0, -, hb⟩ := hpr c hm
    have h1 := hl c0 h0
    have h2 : c.body.length = c0.body.length := by simpa using congrArg List.length hb
    simp only [clauseEdge]
    split
    · rfl
    · rename_i hne
      have : (c.body.map Prod.fst) ≠ [] := by simpa using hne
      have : c.body.length ≠ 0 := by simpa using this
      simp only [List.length_map]
      omega
  · intro x hx
    rcases (hvars c hm).2 _ hx with h | ⟨k, rfl⟩
    · simp only [predicateVars, List.mem_append] at h
      rcases h with h | h
      · obtain ⟨n, hn, rfl⟩ := List.mem_map.1 h
        exact hnames _ n hn
      · simp only [PRepr.keys, List.mem_flatMap] at h
        obtain ⟨q, -, h⟩ := h
        obtain ⟨n, hn, rfl⟩ := List.mem_map.1 h
        exact hnames _ n hn
    · rfl

variable {S : Smt T} {rw : Fla T → Fla T} {E : Elim T} {order : Graph T → List Pred} {fuel : Nat}
  {engine : PRepr → GS T → Outcome (VerificationResult T)} {printW validateW : Bool}

/-- The result for an engine that does what it owes on the graph of linear clauses. -/
theorem checkSat_linear (hS : S.Sound) (hrw : RewriteExact rw) (hE : E.Exact) (ho : IsOrder order) (hin : LegalInput ar cs)
    (hl : LinearInput cs) (ha : RewritesApart rw cs) {w : Bool}
    (he : ∀ st b r, pipeline (defaultStages S (normalize cs).1.repr rw E order fuel) (initialGraph cs) = .done (st, b) →
      (normalize cs).1.repr.WF → (normalize cs).1.repr.FreshNames → (normalize cs).1.repr.PlainArgs → st.Inv (normalize cs).1.repr →
      st.edges.Tame → engine (normalize cs).1.repr st = .done r → EngineResultOk (normalize cs).1.repr st.edges w r) :
    (.answer .safe ∈ (checkSat S rw E order fuel engine printW validateW cs).1 → Satisfiable (clauseRules cs)) ∧
    (.answer .unsafeAns ∈ (checkSat S rw E order fuel engine printW validateW cs).1 → ¬ Satisfiable (clauseRules cs)) ∧
    (w = true → ∀ a ds, .witness ⟨a, .invalidity ds⟩ ∈ (checkSat S rw E order fuel engine printW validateW cs).1 →
      ds = [] ∨ (a = .unsafeAns ∧ UnsafeWitness (normalize cs).1.repr (initialGraph cs).edges ds)) := by
  obtain ⟨hR, hF, hI⟩ := C04_initial_graph ar cs hin.arity hin.user hin.shape
  obtain ⟨hA, htm⟩ := initialGraph_tame hin hl
  have key : ∀ st b r, pipeline (defaultStages S (normalize cs).1.repr rw E order fuel) (initialGraph cs) = .done (st, b) →
      engine (normalize cs).1.repr st = .done r → EngineResultOk (normalize cs).1.repr st.edges w r := fun st b r hp hr =>
    he st b r hp hR hF hA (C56_default_pipeline hS hR hF hrw hE ho hI (hin.noClash ha) hp).1
      (default_tame hS hR hF hA hrw hE ho hI (hin.noClash ha) htm hp) hr
  obtain ⟨h1, h2⟩ := C57_check_sat_at (printW := printW) (validateW := validateW) hS hrw hE ho hin ha
    fun st b r hp hr => (key st b r hp hr).1
  exact ⟨h1, h2, fun hw a ds h => C57_unsafe_witness_at hS hrw hE ho hin ha (fun st b r hp hr => (key st b r hp hr).2 hw) h⟩

variable {Ex : ElimExcept T} {Q : QElim T} {K : KeepOnly T} {simp : Fla T → Fla T} {w hasArrays : Bool}

/-- What `check-sat` may print for linear clauses: `sat` only if the clauses have a model, `unsat` only if they have none, and (if the
engine is asked for witnesses) a refutation that is one, or is empty. -/
def CheckOk (cs : List (Clause T)) (w : Bool) (ls : List (CheckLine T)) : Prop :=
  (.answer .safe ∈ ls → Satisfiable (clauseRules cs)) ∧
  (.answer .unsafeAns ∈ ls → ¬ Satisfiable (clauseRules cs)) ∧
  (w = true → ∀ a ds, .witness ⟨a, .invalidity ds⟩ ∈ ls →
    ds = [] ∨ (a = .unsafeAns ∧ UnsafeWitness (normalize cs).1.repr (initialGraph cs).edges ds))

/-- **C65** `imc`. -/
theorem C65_imc (hS : S.Sound) (hc : S.Complete) (hrw : RewriteExact rw) (hE : E.Exact) (ho : IsOrder order) (hEx : Ex.Exact)
    (hQ : Q.Exact) (hK : K.Exact) (hsi : SimplifierOk simp) (hin : LegalInput ar cs) (hl : LinearInput cs) (ha : RewritesApart rw cs)
    (hna : ∀ st b, pipeline (defaultStages S (normalize cs).1.repr rw E order fuel) (initialGraph cs) = .done (st, b) →
      NoEntryAux S (normalize cs).1.repr E st) {inner ifuel : Nat} :
    CheckOk cs w (checkSat S rw E order fuel (imcCheck S E Ex Q K simp w hasArrays inner ifuel) printW validateW cs).1 :=
  checkSat_linear hS hrw hE ho hin hl ha fun st b _ hp hR hF hA hI htm hr =>
    C65_imc_graph hS hc hR hF hA hE hEx hQ hK hsi hI htm (hna st b hp) hr

/-- **C65** `dar`. -/
theorem C65_dar (hS : S.Sound) (hc : S.Complete) (hrw : RewriteExact rw) (hE : E.Exact) (ho : IsOrder order) (hEx : Ex.Exact)
    (hQ : Q.Exact) (hK : K.Exact) (hsi : SimplifierOk simp) (hin : LegalInput ar cs) (hl : LinearInput cs) (ha : RewritesApart rw cs)
    (hna : ∀ st b, pipeline (defaultStages S (normalize cs).1.repr rw E order fuel) (initialGraph cs) = .done (st, b) →
      NoEntryAux S (normalize cs).1.repr E st) {dfuel : Nat} :
    CheckOk cs w (checkSat S rw E order fuel (darCheck S E Ex Q K simp w hasArrays dfuel) printW validateW cs).1 :=
  checkSat_linear hS hrw hE ho hin hl ha fun st b _ hp hR hF hA hI htm hr =>
    C65_dar_graph hS hc hR hF hA hE hEx hQ hK hsi hI htm (hna st b hp) hr

/-- **C65** `pdkind`. -/
theorem C65_pdkind {P : PdEnv T} (hP : P.Ok) (hc : P.S.Complete) (hrw : RewriteExact rw) (hE : E.Exact) (ho : IsOrder order)
    (hEx : Ex.Exact) (hQ : Q.Exact) (hK : K.Exact) (hsi : SimplifierOk simp) (hin : LegalInput ar cs) (hl : LinearInput cs)
    (ha : RewritesApart rw cs)
    (hna : ∀ st b, pipeline (defaultStages P.S (normalize cs).1.repr rw E order fuel) (initialGraph cs) = .done (st, b) →
      NoEntryAux P.S (normalize cs).1.repr E st) {rfuel pfuel kfuel : Nat} :
    CheckOk cs w
      (checkSat P.S rw E order fuel (pdkindCheck P E Ex Q K simp w hasArrays rfuel pfuel kfuel) printW validateW cs).1 :=
  checkSat_linear hP.sound hrw hE ho hin hl ha fun st b _ hp hR hF hA hI htm hr =>
    C65_pdkind_graph hP hc hR hF hA hE hEx hQ hK hsi hI htm (hna st b hp) hr

/-- **C65** `tpa` and `split-tpa`. -/
theorem C65_tpa {X : NetEnv T} (hX : X.Ok) (hc : X.V.S.Complete) (hXQ : X.V.Q.Exact) (hXK : X.V.K.Exact) (hrw : RewriteExact rw)
    (hE : E.Exact) (ho : IsOrder order) (hEx : Ex.Exact) (hQ : Q.Exact) (hK : K.Exact) (hsi : SimplifierOk simp)
    (hin : LegalInput ar cs) (hl : LinearInput cs) (ha : RewritesApart rw cs)
    (hst : X.core = .split → ∀ st b,
      pipeline (defaultStages X.V.S (normalize cs).1.repr rw E order fuel) (initialGraph cs) = .done (st, b) →
      StartsAfter X.V.S (normalize cs).1.repr E st) {forceTS : Bool} :
    CheckOk cs w
      (checkSat X.V.S rw E order fuel (tpaCheck X E Ex Q K simp forceTS w hasArrays) printW validateW cs).1 :=
  checkSat_linear hX.V.S hrw hE ho hin hl ha fun st b _ hp hR hF hA hI htm hr =>
    C65_tpa_graph hX hc hXQ hXK hR hF hA hE hEx hQ hK hsi hI htm (fun hcore => hst hcore st b hp) hr

end

end Golem
