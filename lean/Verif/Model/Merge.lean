import Verif.Model.LinearGraph
import Verif.Model.ToTS
import Verif.Model.Transformers.Unreachable

/-!
Merging edges and contracting vertices: `src/graph/ChcGraph.cc:257-420, 470-505`.
-/

namespace Golem
variable {T : Theory}

/-- A hypergraph with its id generator (`src/graph/ChcGraph.h:60-66`) and the process-wide counters for fresh auxiliary
variables: `renameAuxiliaries` (`src/graph/ChcGraph.cc:308`) and `createAuxiliaryVariable` (`src/graph/ChcGraph.h:328`). -/
structure GS (T : Theory) where
  edges : Graph T
  freeId : Nat
  gaux : Nat
  auxg : Nat

/-- `TrivialQuantifierElimination`: `tryEliminateVars` and `tryEliminateVarsExcept` (`src/TermUtils.cc:110-124`), modelled
in detail in `Verif.Model.TrivialQE`. -/
structure Elim (T : Theory) where
  vars : List Var → Fla T → Fla T
  except : ElimExcept T

/-- Its contract (C33): the result is implied by the formula, every solution of the result can be changed in the
eliminated variables to become a solution of the formula, and there are no new variables. -/
structure Elim.Exact (E : Elim T) : Prop where
  weaker : ∀ vs f (ρ : Valuation T), f.holds ρ → (E.vars vs f).holds ρ
  lift : ∀ vs f (ρ : Valuation T), (E.vars vs f).holds ρ → ∃ ρ' : Valuation T, (∀ x, x ∉ vs → ρ' x = ρ x) ∧ f.holds ρ'
  novars : ∀ vs f, ∀ x ∈ (E.vars vs f).vars, x ∈ f.vars
  except : E.except.Exact

/-- The variables that belong to an edge: those of its source instances and of its target
(`src/graph/ChcGraph.cc:283-293`). -/
def PRepr.own (R : PRepr) (srcs : List Pred) (tgt : Pred) : List Var := R.keys (instances srcs) ++ R.tgtVars tgt

/-- `getAuxiliaryVariablesFromEdge` (`src/graph/ChcGraph.cc:278-301`). -/
def auxiliaryVars (R : PRepr) (e : Edge T) : List Var :=
  (firstOcc e.fla.vars).filter fun x => decide (x ∉ R.own e.src e.tgt)

/-- The substitution of `renameAuxiliaries`: the `i`-th auxiliary variable becomes `gaux#(c+i)##0`
(`src/graph/ChcGraph.cc:311-316`). -/
def gauxSubst (c : Nat) (xs : List Var) : SubstMap T := xs.zipIdx.map fun p => (p.1, .var (.ver (.gaux (c + p.2)) 0))

/-- `renameAuxiliaries` (`src/graph/ChcGraph.cc:303-320`): the new label and the new counter. -/
def renameAuxiliaries (R : PRepr) (c : Nat) (e : Edge T) : Fla T × Nat :=
  (varSubstitute e.fla (gauxSubst c (auxiliaryVars R e)), c + (auxiliaryVars R e).length)

/-- `mapFromPredicate(getNextStateVersion(v), getStateVersion(v))`: target variables become source variables of instance 0
(`src/graph/ChcGraph.cc:344, 409`). -/
def tgtToSrc (R : PRepr) (v : Pred) : SubstMap T := (R.tgtVars v).zip ((R.args v).map fun n => Tm.var (.src n 0))

/-- The substitution of `mergeTrivialChainLabels` (`src/graph/ChcGraph.cc:400-411`), for every edge but the last. -/
def chainSubst (R : PRepr) : List (Edge T) → SubstMap T
  | e :: e' :: es => tgtToSrc R e.tgt ++ chainSubst R (e' :: es)
  | _ => []

/-- `mergeTrivialChainLabels` (`src/graph/ChcGraph.cc:390-420`). -/
def chainLabel (R : PRepr) (E : Elim T) (src tgt : Pred) (chain : List (Edge T)) : Fla T :=
  E.except (R.srcVars src 0 ++ R.tgtVars tgt) (varSubstitute (Fla.conj (chain.map Edge.fla)) (chainSubst R chain))

/-- The sources of the merged edge (`src/graph/ChcGraph.cc:351-357`). -/
def mergeSources (u v : Pred) (srcs : List Pred) : List Pred :=
  let s := srcs.map fun p => if p = v then u else p
  if u = .tru then
    let s' := s.filter fun p => decide (p ≠ .tru)
    if s'.isEmpty then [.tru] else s'
  else s

/-- Fresh auxiliary variables for the state variables of `v` (`src/graph/ChcGraph.cc:358-366`). -/
def loopSubst (R : PRepr) (v : Pred) (c : Nat) : SubstMap T :=
  (R.srcVars v 0).zipIdx.map fun p => (p.1, .var (.ver (.auxg (c + p.2)) 0))

/-- The sources and label of the merged edge before auxiliary variables are renamed, and the number of auxiliary variables
created (`src/graph/ChcGraph.cc:322-366`). `u` is the only source of the incoming edge. -/
def mergePre (R : PRepr) (E : Elim T) (c : Nat) (u : Pred) (inc out : Edge T) : List Pred × Fla T × Nat :=
  let v := inc.tgt
  if out.src.length = 1 ∧ out.tgt ≠ v then ([u], chainLabel R E u out.tgt [inc, out], c)
  else
    let l := E.vars (R.srcVars v 0) (.and (varSubstitute inc.fla (tgtToSrc R v)) out.fla)
    let srcs := mergeSources u v out.src
    if out.tgt = v then (srcs, varSubstitute l (loopSubst R v c), c + (R.args v).length) else (srcs, l, c)

/-- `ChcDirectedHyperGraph::mergeEdgePair` (`src/graph/ChcGraph.cc:322-371`), on edges instead of their ids. The new edge is
appended: it has the largest id. -/
def mergeEdgePair (R : PRepr) (E : Elim T) (st : GS T) (inc out : Edge T) : GS T × Edge T :=
  let pre := mergePre R E st.auxg (inc.src.headD .tru) inc out
  let e : Edge T := ⟨pre.1, out.tgt, pre.2.1, st.freeId⟩
  let l := renameAuxiliaries R st.gaux e
  let e' : Edge T := { e with fla := l.1 }
  ({ edges := st.edges ++ [e'], freeId := st.freeId + 1, gaux := l.2, auxg := pre.2.2 }, e')

/-- `getIncomingEdgesFor` / `getOutgoingEdgesFor` of a hypergraph, as edges (C42 proves that the adjacency lists hold
exactly these, in this order). -/
def Graph.inEdges (G : Graph T) (v : Pred) : List (Edge T) := List.filter (fun e : Edge T => decide (e.tgt = v)) G
def Graph.outEdges (G : Graph T) (v : Pred) : List (Edge T) := List.filter (fun e : Edge T => decide (v ∈ e.src)) G

/-- `VertexContractionResult` (`src/graph/ChcGraph.h:248-252`); a replacing edge is stored with the two edges its indices
refer to. -/
structure Contraction (T : Theory) where
  incoming : List (Edge T)
  outgoing : List (Edge T)
  replacing : List (Edge T × Edge T × Edge T)

/-- The two nested loops of `contractVertex` (`src/graph/ChcGraph.cc:479-494`) over the pairs of edges. -/
def mergePairs (R : PRepr) (E : Elim T) : List (Edge T × Edge T) → GS T → GS T × List (Edge T × Edge T × Edge T)
  | [], st => (st, [])
  | (i, o) :: ps, st =>
    let r := mergeEdgePair R E st i o
    let rest := mergePairs R E ps r.1
    (rest.1, (r.2, i, o) :: rest.2)

/-- All pairs of an incoming and an outgoing edge, in the order of the loops. -/
def edgePairs (is os : List (Edge T)) : List (Edge T × Edge T) := is.flatMap fun i => os.map fun o => (i, o)

/-- `ChcDirectedHyperGraph::contractVertex` (`src/graph/ChcGraph.cc:470-497`); `none` is `std::logic_error`. -/
def contractVertex (R : PRepr) (E : Elim T) (st : GS T) (v : Pred) : Option (GS T × Contraction T) :=
  let is := st.edges.inEdges v
  let os := st.edges.outEdges v
  if is.any (fun i => decide (1 < i.src.length) || (decide (1 < is.length) && os.any fun o => decide (1 < o.src.length))) then none
  else
    let r := mergePairs R E (edgePairs is os) st
    some ({ r.1 with edges := deleteNode r.1.edges v }, ⟨is, os, r.2⟩)

/-- `mergeTrivialChain` (`src/graph/ChcGraph.cc:373-380`). -/
def mergeTrivialChain (R : PRepr) (E : Elim T) (st : GS T) (chain : List (Edge T)) : GS T × Edge T :=
  let src := (chain.head?.bind fun e => e.src.head?).getD .tru
  let tgt := (chain.getLast?.map Edge.tgt).getD .fls
  let e : Edge T := ⟨[src], tgt, chainLabel R E src tgt chain, st.freeId⟩
  ({ st with edges := st.edges ++ [e], freeId := st.freeId + 1 }, e)

/-- `contractTrivialChain` (`src/graph/ChcGraph.cc:257-269`). -/
def contractTrivialChain (R : PRepr) (E : Elim T) (st : GS T) (chain : List (Edge T)) : GS T × Edge T :=
  let r := mergeTrivialChain R E st chain
  ({ r.1 with edges := (chain.dropLast.map Edge.tgt).foldl deleteNode r.1.edges }, r.2)

end Golem
