import Verif.Model.Graph

/-!
Linear graphs: `ChcDirectedGraph` (`src/graph/ChcGraph.h:142-223`), with
`LinearCanonicalPredicateRepresentation` (`src/TermUtils.h:415-435`).
-/

namespace Golem
variable {T : Theory}

/-- `getStateVersion(sym)` of a linear graph: argument variables with version 0 (`src/TermUtils.cc:32-52`). -/
def PRepr.stateVars (R : PRepr) (p : Pred) : List Var := (R.args p).map (Var.ver · 0)

/-- `getNextStateVersion(sym)`: argument variables with version 1. -/
def PRepr.nextVars (R : PRepr) (p : Pred) : List Var := (R.args p).map (Var.ver · 1)

/-- `DirectedEdge` (`src/graph/ChcGraph.h:53-58`). -/
structure LEdge (T : Theory) where
  src : Pred
  tgt : Pred
  fla : Fla T
  id : Nat
deriving DecidableEq

/-- `ChcDirectedGraph::edges`, in the order of the `std::map`. -/
abbrev LGraph (T : Theory) := List (LEdge T)

def LEdge.srcFact (R : PRepr) (ρ : Valuation T) (e : LEdge T) : Fact T := (e.src, (R.stateVars e.src).map ρ)

def LEdge.tgtFact (R : PRepr) (ρ : Valuation T) (e : LEdge T) : Fact T := (e.tgt, (R.nextVars e.tgt).map ρ)

def LEdge.rule (R : PRepr) (ρ : Valuation T) (e : LEdge T) : GRule T := ⟨[e.srcFact R ρ], e.tgtFact R ρ⟩

/-- The ground rules of a linear graph. -/
def lgraphRules (R : PRepr) (G : LGraph T) : Rules T := fun r =>
  ∃ e ∈ G, ∃ ρ : Valuation T, e.fla.holds ρ ∧ r = e.rule R ρ

/-- A name that is no argument of any predicate. -/
def PRepr.AuxName (R : PRepr) (n : Name) : Prop := ∀ p, n ∉ R.args p

/-- Auxiliary variables of an edge with the given sources: variables of version zero that belong to no predicate, and
source variables left over from predicates that were removed by `mergeTrivialChain` (`src/graph/ChcGraph.cc:382-420`). -/
def PRepr.AuxFor (R : PRepr) (ss : List Pred) (x : Var) : Prop :=
  (∃ n, x = .ver n 0 ∧ R.AuxName n) ∨ ∃ n, x = .src n 0 ∧ ∀ s ∈ ss, n ∉ R.args s

/-- Labels of a hypergraph mention the source instances' variables, the target's variables, and auxiliary variables of
version zero (`src/Normalizer.cc:55-75`, `src/graph/ChcGraph.h:327-331`, `src/graph/ChcGraph.cc:303-320`). -/
def Edge.LabelOk (R : PRepr) (e : Edge T) : Prop := ∀ x ∈ e.fla.vars,
  (∃ q ∈ instances e.src, x ∈ R.srcVars q.1 q.2) ∨ x ∈ R.tgtVars e.tgt ∨ R.AuxFor e.src x

/-- The same for linear graphs. -/
def LEdge.LabelOk (R : PRepr) (e : LEdge T) : Prop := ∀ x ∈ e.fla.vars,
  x ∈ R.stateVars e.src ∨ x ∈ R.nextVars e.tgt ∨ R.AuxFor [e.src] x

/-- `ChcDirectedHyperGraph::isNormalGraph` (`src/graph/ChcGraph.cc:65-71`). -/
def isNormalGraph (G : Graph T) : Bool := G.all fun e => e.src.length == 1

/-- The substitution for one edge in `toNormalGraph` (`src/graph/ChcGraph.cc:94-105`). -/
def toNormalSubst (R : PRepr) (s : Pred) (e : Edge T) : SubstMap T :=
  (R.srcVars s 0).zip ((R.args s).map fun n => Tm.var (.ver n 0)) ++
  (R.tgtVars e.tgt).zip ((R.args e.tgt).map fun n => Tm.var (.ver n 1))

/-- The label of one edge in `toNormalGraph` (`src/graph/ChcGraph.cc:90-108`). -/
def toNormalEdge (R : PRepr) (s : Pred) (e : Edge T) : LEdge T where
  src := s
  tgt := e.tgt
  fla := varSubstitute e.fla (toNormalSubst R s e)
  id := e.id

/-- `ChcDirectedHyperGraph::toNormalGraph` (`src/graph/ChcGraph.cc:73-112`): edges keep their ids. Its precondition
(`edge.from.size() == 1`) is made explicit: other edges are skipped. -/
def toNormalGraph (R : PRepr) (G : Graph T) : LGraph T :=
  G.filterMap fun e => match e.src with
    | [s] => some (toNormalEdge R s e)
    | _ => none

/-- The substitution for one edge in `toHyperGraph` (`src/graph/ChcGraph.cc:226-238`). -/
def toHyperSubst (R : PRepr) (e : LEdge T) : SubstMap T :=
  (R.stateVars e.src).zip ((R.args e.src).map fun n => Tm.var (.src n 0)) ++
  (R.nextVars e.tgt).zip ((R.args e.tgt).map fun n => Tm.var (.tgt n))

/-- The label of one edge in `toHyperGraph` (`src/graph/ChcGraph.cc:223-243`). -/
def toHyperEdge (R : PRepr) (e : LEdge T) (id : Nat) : Edge T where
  src := [e.src]
  tgt := e.tgt
  fla := varSubstitute e.fla (toHyperSubst R e)
  id := id

/-- `ChcDirectedGraph::toHyperGraph` (`src/graph/ChcGraph.cc:206-245`): the constructor of the hypergraph numbers the edges
afresh (`src/graph/ChcGraph.h:255-260`). -/
def toHyperGraph (R : PRepr) (G : LGraph T) : Graph T :=
  G.zipIdx.map fun p => toHyperEdge R p.1 p.2

/-- `getOutgoingEdgesFor` of a linear graph (`src/graph/ChcGraph.cc:168-183`): edges with that source, in id order
(C42 proves this of the adjacency lists). -/
def LGraph.out (G : LGraph T) (v : Pred) : List (LEdge T) := G.filter fun e => decide (e.src = v)

/-- `getIncomingEdgesFor`. -/
def LGraph.inc (G : LGraph T) (v : Pred) : List (LEdge T) := G.filter fun e => decide (e.tgt = v)

/-! ### Depth-first search -/

/-- The state of the search: marked vertices and the post-order so far. -/
structure DfsState where
  marked : List Pred
  order : List Pred

/-- The loop over the outgoing edges (`src/graph/ChcGraph.cc:34-36`). -/
def dfsFold (visit : Pred → DfsState → Option DfsState) : List Pred → DfsState → Option DfsState
  | [], st => some st
  | w :: ws, st =>
    match visit w st with
    | some st' => dfsFold visit ws st'
    | none => none

/-- `DFS::runOnVertex` (`src/graph/ChcGraph.cc:29-38`), with recursion depth bounded by fuel. -/
def dfsVisit (succ : Pred → List Pred) : Nat → Pred → DfsState → Option DfsState
  | 0, _, _ => none
  | fuel + 1, v, st =>
    if v ∈ st.marked then some st
    else
      match dfsFold (dfsVisit succ fuel) (succ v) ⟨v :: st.marked, st.order⟩ with
      | some st' => some ⟨st'.marked, st'.order ++ [v]⟩
      | none => none

/-- Targets of the outgoing edges. -/
def LGraph.succ (G : LGraph T) (v : Pred) : List Pred := (G.out v).map LEdge.tgt

/-- `postOrder` (`src/graph/ChcGraph.cc:57-62`). The recursion depth never exceeds the number of vertices. -/
def postOrder (G : LGraph T) : Option (List Pred) :=
  (dfsVisit G.succ (G.length + 2) .tru ⟨[], []⟩).map DfsState.order

/-- `reversePostOrder` (`src/graph/ChcGraph.cc:50-55`). -/
def reversePostOrder (G : LGraph T) : Option (List Pred) := (postOrder G).map List.reverse

end Golem
