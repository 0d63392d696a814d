import Verif.Spec.Chc
import Verif.Lemmas.Logic

/-!
Hypergraphs over canonical predicates: `src/graph/ChcGraph.h`, `src/TermUtils.h:415-540`.
-/

namespace Golem
variable {T : Theory}

/-- Canonical predicate representation (`NonlinearCanonicalPredicateRepresentation`, `src/TermUtils.h:482-545`,
`LinearCanonicalPredicateRepresentation`, `src/TermUtils.h:415-480`): the base names of the argument variables of each
predicate. `true`/`false` have no arguments. -/
structure PRepr where
  args : Pred → List Name

/-- What the normalizer establishes (`src/Normalizer.h:40-60`): a fresh name per predicate position. -/
structure PRepr.WF (R : PRepr) : Prop where
  tru : R.args .tru = []
  fls : R.args .fls = []
  nodup : ∀ p, (R.args p).Nodup
  disjoint : ∀ p q, p ≠ q → ∀ n, n ∈ R.args p → n ∉ R.args q

/-- `getSourceTermFor(sym, instance)`: argument variables of the `i`-th body occurrence (`src/TermUtils.h:505-530`). -/
def PRepr.srcVars (R : PRepr) (p : Pred) (i : Nat) : List Var := (R.args p).map (Var.src · i)

/-- `getTargetTermFor(sym)`: argument variables in the head (`src/TermUtils.h:498-503`). -/
def PRepr.tgtVars (R : PRepr) (p : Pred) : List Var := (R.args p).map Var.tgt

/-- Base variables of a predicate: `sourceFormulaToBase(getStateVersion(sym))` (`src/Validator.cc:42`). -/
def PRepr.baseVars (R : PRepr) (p : Pred) : List Var := (R.args p).map Var.base

/-- `DirectedHyperEdge` (`src/graph/ChcGraph.h:46-51`). -/
structure Edge (T : Theory) where
  src : List Pred
  tgt : Pred
  fla : Fla T
  id : Nat
deriving DecidableEq

/-- Sources with their instance numbers: `VertexInstances` (`src/graph/ChcGraph.cc:546-557`): the `i`-th source gets the
number of earlier occurrences of the same vertex. -/
def instancesAux : List Pred → List Pred → List (Pred × Nat)
  | _, [] => []
  | seen, p :: ps => (p, seen.count p) :: instancesAux (p :: seen) ps

def instances (src : List Pred) : List (Pred × Nat) := instancesAux [] src

/-- All source argument variables of a list of predicate instances, in order. -/
def PRepr.keys (R : PRepr) (qs : List (Pred × Nat)) : List Var := qs.flatMap fun q => R.srcVars q.1 q.2

/-- `VertexInstances::getInstanceNumber(eid, i)` (`src/graph/ChcGraph.h:238-240`). -/
def instanceNumber (src : List Pred) (i : Nat) : Nat := ((instances src)[i]?.map Prod.snd).getD 0

/-- The ground rules an edge stands for: the label relates source argument variables (per instance) and target argument
variables; all other variables are implicitly existential. -/
def Edge.srcFacts (R : PRepr) (ρ : Valuation T) (e : Edge T) : List (Fact T) :=
  (instances e.src).map fun (p, i) => (p, (R.srcVars p i).map ρ)

def Edge.tgtFact (R : PRepr) (ρ : Valuation T) (e : Edge T) : Fact T := (e.tgt, (R.tgtVars e.tgt).map ρ)

def Edge.rule (R : PRepr) (ρ : Valuation T) (e : Edge T) : GRule T := ⟨e.srcFacts R ρ, e.tgtFact R ρ⟩

/-- `ChcDirectedHyperGraph::edges` (`src/graph/ChcGraph.h:226`): the edges in the iteration order of the `std::map`. -/
abbrev Graph (T : Theory) := List (Edge T)

/-- The ground rules of a graph. -/
def graphRules (R : PRepr) (G : Graph T) : Rules T := fun r =>
  ∃ e ∈ G, ∃ ρ : Valuation T, e.fla.holds ρ ∧ r = e.rule R ρ

/-- `std::map::at(eid)` (`src/graph/ChcGraph.h:277`); `none` is the `std::out_of_range` exception. -/
def Graph.find (G : Graph T) (id : Nat) : Option (Edge T) := List.find? (fun e : Edge T => e.id == id) G

/-- Definitions of a validity witness (`src/Witnesses.h:88`): a map from predicates to formulas over base variables. -/
abbrev Defs (T : Theory) := List (Pred × Fla T)

def Defs.get (D : Defs T) (p : Pred) : Option (Fla T) := List.lookup p D

/-- The interpretation of facts by definitions: the defining formula, with the argument values for the argument
variables. A predicate without a definition is empty. -/
def Defs.interp (R : PRepr) (D : Defs T) : Fact T → Prop := fun f =>
  ∃ d, D.get f.1 = some d ∧ ∃ ρ : Valuation T, (R.baseVars f.1).map ρ = f.2 ∧ d.holds ρ

/-- Renaming of base variables to source variables (`VersionManager::baseFormulaToSource`, `src/TermUtils.cc`). Variables
that are not base variables are left alone (the C++ code would attach a second tag; callers never pass such formulas). -/
def toSrc (i : Nat) : Var → Var
  | .base n => .src n i
  | x => x

/-- `VersionManager::baseFormulaToTarget`. -/
def toTgt : Var → Var
  | .base n => .tgt n
  | x => x

end Golem
