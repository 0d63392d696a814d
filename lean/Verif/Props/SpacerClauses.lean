import Verif.Props.Spacer
import Verif.Props.InitialGraph
import Verif.Props.Lasso

/-! Spacer as a service that takes clauses: no preprocessing between the clauses and the engine. -/

namespace Golem
variable {T : Theory}

/-- `graph.getVertices()` (`src/engine/Spacer.cc`): the vertices of the graph, `true` and `false`. -/
def graphVerts (G : Graph T) : List Pred := firstOcc (.tru :: .fls :: G.flatMap fun e => e.tgt :: e.src)

/-- `EngineFactory(logic, options).getEngine("spacer")->solve(*graph)`. -/
def spacerEngine (S : Smt T) (M : Mbp T) (simp : Fla T → Fla T) (logProof : Bool) (ord : List (Fla T) → List (Fla T))
    (pick : Nat → Nat → List (Pob T) → Nat) (hasArrays : Bool) (fuel : Nat) : Engine T :=
  fun R G => spacer ⟨S, M, R, G, simp, logProof, ord, graphVerts G, pick⟩ hasArrays fuel

theorem mem_graphVerts {G : Graph T} {p : Pred} : p ∈ graphVerts G ↔ G.Vertex p ∨ p = .tru ∨ p = .fls := by
  simp only [graphVerts, mem_firstOcc, List.mem_cons, List.mem_flatMap, Graph.Vertex]
  constructor
  · rintro (h | h | ⟨e, he, h⟩)
    · exact .inr (.inl h)
    · exact .inr (.inr h)
    · exact .inl ⟨e, he, h⟩
  · rintro (⟨e, he, h⟩ | h | h)
    · exact .inr (.inr ⟨e, he, h⟩)
    · exact .inl h
    · exact .inr (.inl h)

/-- C48 from the clauses: Spacer run directly on the graph of any arity-consistent set of clauses gives right answers and
right witnesses for that graph. -/
theorem C48_clauses {S : Smt T} {M : Mbp T} {simp : Fla T → Fla T} {logProof : Bool} {ord : List (Fla T) → List (Fla T)}
    {pick : Nat → Nat → List (Pob T) → Nat} {hasArrays : Bool} {fuel : Nat} (hS : S.Sound) (hM : M.Sound)
    (hsimp : SimpOk simp) (hord : ∀ l f, f ∈ ord l ↔ f ∈ l) (ar : Pred → Nat) (cs : List (Clause T))
    (har : ArityConsistent ar cs) (hu : ∀ c ∈ cs, c.User) (hs : ∀ c ∈ cs, c.Shape)
    (hc : S.Complete ∨ isNormalGraph (buildGraph (normalize cs).2) = true ∨ logProof = true) :
    (spacerEngine S M simp logProof ord pick hasArrays fuel).GoodOn cs := by
  obtain ⟨hR, hF, hI⟩ := C04_initial_graph ar cs har hu hs
  intro r hr
  refine C48_hyper (E := ⟨S, M, (normalize cs).1.repr, buildGraph (normalize cs).2, simp, logProof, ord,
    graphVerts (buildGraph (normalize cs).2), pick⟩) ⟨hR, hS, hM, hsimp, hord, fun p => mem_graphVerts, hI.ok.srcNe,
    hI.ok.ids, ?_⟩ hI.ends hc hr
  intro e he k hk
  rcases hI.ok.label e he _ hk with h | h
  · rcases mem_own.1 h with ⟨q, -, h2⟩ | h2
    · obtain ⟨n, -, h2⟩ := List.mem_map.1 h2; simp [actVar] at h2
    · obtain ⟨n, -, h2⟩ := List.mem_map.1 h2; simp [actVar] at h2
  · obtain ⟨n, h, -⟩ | ⟨n, h, -⟩ := h <;> simp [actVar] at h

/-- The graph of linear clauses is a normal graph. -/
theorem linear_isNormalGraph (ar : Pred → Nat) (cs : List (Clause T)) (har : ArityConsistent ar cs) (hu : ∀ c ∈ cs, c.User)
    (hl : ∀ c ∈ cs, c.body.length ≤ 1) : isNormalGraph (buildGraph (normalize cs).2) = true := by
  have hspec := normalizeFrom_spec (NState.init_inv har.1 har.2.1) cs hu har.2.2
  have hpr := (hspec.2.2 _ (NState.Ext.refl _)).preds
  simp only [isNormalGraph, List.all_eq_true, beq_iff_eq]
  intro e he
  obtain ⟨i, c, hc, rfl⟩ := mem_buildGraph he
  obtain ⟨c0, h0, -, hb⟩ := hpr c (List.mem_of_getElem? hc)
  have h1 := hl c0 h0
  have h2 : (c.body.map Prod.fst).length ≤ 1 := by rw [hb]; simpa using h1
  simp only [clauseEdge]
  split
  · simp
  · rename_i hne
    have : (c.body.map Prod.fst).length ≠ 0 := by
      intro h; exact hne (by simp [List.length_eq_zero_iff.1 h])
    omega

theorem lasso_shape {ts : TS T} {k : Nat} {dflt : Var → T.Val} : ∀ c ∈ lassoClauses k dflt ts, c.Shape := by
  intro c hc
  simp only [lassoClauses, List.mem_cons, List.not_mem_nil, or_false] at hc
  rcases hc with rfl | rfl | rfl | rfl <;> exact ⟨by simp, by simp⟩

theorem lasso_linear {ts : TS T} {k : Nat} {dflt : Var → T.Val} : ∀ c ∈ lassoClauses k dflt ts, c.body.length ≤ 1 := by
  intro c hc
  simp only [lassoClauses, List.mem_cons, List.not_mem_nil, or_false] at hc
  rcases hc with rfl | rfl | rfl | rfl <;> simp

/-- C52 with Spacer as the engine: no assumption on the engine is left. -/
theorem C52_spacer {S : Smt T} {M : Mbp T} {simp : Fla T → Fla T} {logProof : Bool} {ord : List (Fla T) → List (Fla T)}
    {pick : Nat → Nat → List (Pob T) → Nat} {hasArrays : Bool} {fuel : Nat} (hS : S.Sound) (hM : M.Sound)
    (hsimp : SimpOk simp) (hord : ∀ l f, f ∈ ord l ↔ f ∈ l) {k : Nat} {dflt : Var → T.Val} {ts : TS T} (hw : ts.WF)
    (hv : ts.Versioned) :
    (findLasso (spacerEngine S M simp logProof ord pick hasArrays fuel) k dflt ts = .done .lasso →
      ts.sem.Lasso ∧ ts.sem.InfiniteRun) ∧
    (findLasso (spacerEngine S M simp logProof ord pick hasArrays fuel) k dflt ts = .done .noLasso → ¬ ts.sem.Lasso) :=
  C52_lasso hw hv (C48_clauses hS hM hsimp hord _ _ lasso_arity (lasso_user hw hv) lasso_shape
    (.inr (.inl (linear_isNormalGraph _ _ lasso_arity (lasso_user hw hv) lasso_linear)))).right

theorem systemClauses_shape {k : Nat} {vars : List Var} {i t q : Fla T} : ∀ c ∈ systemClauses k vars i t q, c.Shape := by
  intro c hc
  simp only [systemClauses, List.mem_cons, List.not_mem_nil, or_false] at hc
  rcases hc with rfl | rfl | rfl <;> exact ⟨by simp, by simp⟩

theorem systemClauses_linear {k : Nat} {vars : List Var} {i t q : Fla T} :
    ∀ c ∈ systemClauses k vars i t q, c.body.length ≤ 1 := by
  intro c hc
  simp only [systemClauses, List.mem_cons, List.not_mem_nil, or_false] at hc
  rcases hc with rfl | rfl | rfl <;> simp

/-- Spacer is right on the clauses of a transition system. -/
theorem spacer_system {S : Smt T} {M : Mbp T} {simp : Fla T → Fla T} {logProof : Bool} {ord : List (Fla T) → List (Fla T)}
    {pick : Nat → Nat → List (Pob T) → Nat} {hasArrays : Bool} {fuel : Nat} (hS : S.Sound) (hM : M.Sound)
    (hsimp : SimpOk simp) (hord : ∀ l f, f ∈ ord l ↔ f ∈ l) {k : Nat} {vars : List Var} {i t q : Fla T}
    (hs : ∀ x ∈ vars, ∃ n, x = .ver n 0) (hi : ∀ x ∈ i.vars, x.Untagged) (ht : ∀ x ∈ t.vars, x.Untagged)
    (hq : ∀ x ∈ q.vars, x.Untagged) :
    (spacerEngine S M simp logProof ord pick hasArrays fuel).GoodOn (systemClauses k vars i t q) :=
  C48_clauses hS hM hsimp hord _ _ systemClauses_arity (systemClauses_user hs hi ht hq) systemClauses_shape
    (.inr (.inl (linear_isNormalGraph _ _ systemClauses_arity (systemClauses_user hs hi ht hq) systemClauses_linear)))

end Golem
