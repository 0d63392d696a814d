import Verif.Model.Validator

/-!
Independent specification of what a witness for a graph is. A SAFE witness is a closed, complete model; an UNSAFE
witness is a well-founded derivation of `false` in which every step names the edge that justifies it.
-/

namespace Golem
variable {T : Theory}

/-- `e` justifies deriving `head` from `body`: some valuation makes the label true and yields exactly these facts. -/
def Edge.Fires (R : PRepr) (e : Edge T) (body : List (Fact T)) (head : Fact T) : Prop :=
  ∃ ρ : Valuation T, e.fla.holds ρ ∧ body = e.srcFacts R ρ ∧ head = e.tgtFact R ρ

/-- The facts derived by the given premises. -/
def premFacts (ds : List (DStep T)) (js : List Nat) : List (Fact T) :=
  js.filterMap fun j => (ds[j]?).map DStep.fact

/-- A step is justified by the edge it names. -/
def StepOK (R : PRepr) (G : Graph T) (ds : List (DStep T)) (i : Nat) (d : DStep T) : Prop :=
  (∀ j ∈ d.premises, j < i) ∧ ∃ e ∈ G, d.clauseId = some e.id ∧ e.Fires R (premFacts ds d.premises) d.fact

/-- An UNSAFE witness. -/
structure UnsafeWitness (R : PRepr) (G : Graph T) (ds : List (DStep T)) : Prop where
  first : ∃ d, ds.head? = some d ∧ d.fact = trueFact ∧ d.clauseId = none
  last : ∃ d, ds.getLast? = some d ∧ d.fact = falseFact
  steps : ∀ (i : Nat) (d : DStep T), 0 < i → ds[i]? = some d → StepOK R G ds i d

/-- Vertices of a graph (`ChcDirectedHyperGraph::getVertices`, `src/graph/ChcGraph.cc:441-452`), as a predicate. -/
def Graph.Vertex (G : Graph T) (p : Pred) : Prop := ∃ e ∈ G, p = e.tgt ∨ p ∈ e.src

/-- A SAFE witness, not necessarily defining every vertex (an undefined predicate counts as empty). -/
structure SafeModel (R : PRepr) (G : Graph T) (D : Defs T) : Prop where
  closed : ∀ p d, D.get p = some d → ∀ x ∈ d.vars, x ∈ R.baseVars p
  tru : D.get .tru = some .tt
  fls : D.get .fls = some .ff
  model : IsModel (graphRules R G) (D.interp R)

/-- A SAFE witness: every vertex (and nothing else, besides entry and exit) has a definition over its own arguments, and
together the definitions form a model. -/
structure SafeWitness (R : PRepr) (G : Graph T) (D : Defs T) : Prop extends SafeModel R G D where
  complete : ∀ p, G.Vertex p → (D.get p).isSome
  only : ∀ p, (D.get p).isSome → G.Vertex p ∨ p = .tru ∨ p = .fls

/-- A SAFE witness that may leave vertices without definition (they count as empty), but defines nothing else. -/
structure SafeGood (R : PRepr) (G : Graph T) (D : Defs T) : Prop extends SafeModel R G D where
  only : ∀ p, (D.get p).isSome → G.Vertex p ∨ p = .tru ∨ p = .fls

theorem SafeWitness.good {R : PRepr} {G : Graph T} {D : Defs T} (h : SafeWitness R G D) : SafeGood R G D :=
  ⟨h.toSafeModel, h.only⟩

/-- `f` translates SAFE witnesses of `G'` to SAFE witnesses of `G`, complete ones to complete ones. -/
def SafeBack (R : PRepr) (G' G : Graph T) (f : Defs T → Defs T) : Prop := ∀ D, SafeGood R G' D →
  SafeGood R G (f D) ∧ (SafeWitness R G' D → SafeWitness R G (f D))

/-- `false` is reachable in the graph. -/
def Graph.Unsafe (R : PRepr) (G : Graph T) : Prop := Derivable (graphRules R G) falseFact

end Golem
