import Verif.Model.Merge
import Verif.Model.Entailment

/-!
`src/transformers/NodeEliminator.cc`, the predicates of `src/transformers/BasicTransformationPipelines.cc:22-40` and
`src/graph/ChcGraph.cc:559-577`.
-/

namespace Golem
variable {T : Theory}

/-- `hasHyperEdge` (`src/graph/ChcGraph.cc:559-565`). -/
def hasHyperEdge (G : Graph T) (v : Pred) : Bool :=
  (G.inEdges v).any (fun e => decide (1 < e.src.length)) || (G.outEdges v).any fun e => decide (1 < e.src.length)

/-- `isNonLoopNode` (`src/graph/ChcGraph.cc:567-571`). -/
def isNonLoopNode (G : Graph T) (v : Pred) : Bool := !(G.outEdges v).any fun e => decide (e.tgt = v)

/-- `isSimpleNode` (`src/graph/ChcGraph.cc:573-577`). -/
def isSimpleNode (G : Graph T) (v : Pred) : Bool :=
  decide ((G.inEdges v).length = 1) || decide ((G.outEdges v).length = 1)

/-- `SimpleNodeEliminatorPredicate` (`src/transformers/NodeEliminator.cc:43-67`). -/
def simpleElimPredicate (G : Graph T) (v : Pred) : Bool :=
  if isSimpleNode G v && isNonLoopNode G v then
    if !hasHyperEdge G v then true
    else match G.inEdges v with
      | [i] => match i.src with
        | [u] => (G.outEdges v).all fun o => decide (v ≠ o.tgt) && decide (o.src.count v = 1) && decide (u ∉ o.src)
        | _ => false
      | _ => false
  else false

/-- `SlightlyBetterNodeEliminatorPredicate` (`src/transformers/BasicTransformationPipelines.cc:26-40`). -/
def slightlyBetterPredicate (G : Graph T) (v : Pred) : Bool :=
  if !isNonLoopNode G v then false
  else if hasHyperEdge G v then false
  else decide ((G.inEdges v).length * (G.outEdges v).length ≤ (G.inEdges v).length + (G.outEdges v).length)

/-- The symbol order used by `std::sort` (`src/transformers/NodeEliminator.cc:23`): constants first, then predicates in the
order of their declaration. -/
def Pred.rank : Pred → Nat
  | .tru => 0
  | .fls => 1
  | .p n => n + 2

def insertByRank (a : Pred) : List Pred → List Pred
  | [] => [a]
  | b :: bs => if a.rank ≤ b.rank then a :: b :: bs else b :: insertByRank a bs

def sortByRank (l : List Pred) : List Pred := l.foldr insertByRank []

/-- `getVertices` (`src/graph/ChcGraph.cc:442-453`), sorted and without entry and exit
(`src/transformers/NodeEliminator.cc:21-27`). -/
def innerVertices (G : Graph T) : List Pred :=
  (sortByRank (firstOcc (G.flatMap fun e => e.tgt :: e.src))).filter fun p => decide (p ≠ .tru ∧ p ≠ .fls)

/-- The `while` loop of `NodeEliminator::transform` (`src/transformers/NodeEliminator.cc:28-40`); the result lists
`removedNodes` with their `nodeInfo`. Every iteration erases a vertex from the list, so its length bounds the number of
iterations. -/
def eliminateLoop (R : PRepr) (E : Elim T) (pred : Graph T → Pred → Bool) :
    Nat → List Pred → GS T → Outcome (GS T × List (Pred × Contraction T))
  | fuel, vertices, st =>
    match vertices.find? (pred st.edges) with
    | none => .done (st, [])
    | some v =>
      match fuel with
      | 0 => .outOfFuel
      | fuel + 1 =>
        match contractVertex R E st v with
        | none => .thrown
        | some (st', c) =>
          match eliminateLoop R E pred fuel (vertices.erase v) st' with
          | .done (st'', rs) => .done (st'', (v, c) :: rs)
          | .thrown => .thrown
          | .outOfFuel => .outOfFuel

/-- `NodeEliminator::transform` (`src/transformers/NodeEliminator.cc:19-41`). -/
def nodeEliminator (R : PRepr) (E : Elim T) (pred : Graph T → Pred → Bool) (st : GS T) :
    Outcome (GS T × List (Pred × Contraction T)) :=
  eliminateLoop R E pred (innerVertices st.edges).length (innerVertices st.edges) st

/-! ### Back-translation of a SAFE witness -/

/-- `targetFormulaToBase` (`src/TermUtils.h:343`). -/
def tgtToBase : Var → Var
  | .tgt n => .base n
  | x => x

/-- One incoming edge (`src/transformers/NodeEliminator.cc:141-147`); `none` is a failed `SANITY_CHECK` (or the exception
for hyperedges, which contraction excludes). -/
def incomingFla (D : Defs T) (e : Edge T) : Option (Fla T) :=
  match e.src with
  | [u] => (D.get u).map fun d => .and (d.rename (toSrc 0)) e.fla
  | _ => none

/-- The definitions of the other sources of an outgoing hyperedge (`src/transformers/NodeEliminator.cc:157-171`). -/
def otherSources (D : Defs T) (v : Pred) (srcs : List Pred) : Option (List (Fla T)) :=
  if 1 < srcs.length then
    if srcs.count v = 1 then
      (instances (srcs.filter fun p => decide (p ≠ v))).mapM fun q => (D.get q.1).map fun d => d.rename (toSrc q.2)
    else none
  else some []

/-- One outgoing edge (`src/transformers/NodeEliminator.cc:149-173`). -/
def outgoingFla (D : Defs T) (v : Pred) (e : Edge T) : Option (Fla T) :=
  (D.get e.tgt).bind fun d => (otherSources D v e.src).map fun rest =>
    Fla.conj ([e.fla, .not (d.rename toTgt)] ++ rest)

/-- `mapFromPredicate(getSourceTermFor(v), getTargetTermFor(v))` (`src/transformers/NodeEliminator.cc:175-176`). -/
def srcToTgt (R : PRepr) (v : Pred) : SubstMap T := (R.srcVars v 0).zip ((R.args v).map fun n => Tm.var (.tgt n))

/-- The two partitions of the interpolation query for a removed vertex (`src/transformers/NodeEliminator.cc:139-182`). -/
def elimQuery (R : PRepr) (D : Defs T) (v : Pred) (c : Contraction T) : Option (Fla T × Fla T) := do
  let is ← c.incoming.mapM (incomingFla D)
  let os ← c.outgoing.mapM (outgoingFla D v)
  return (Fla.disj is, varSubstitute (Fla.disj os) (srcToTgt R v))

/-- The loop of `NodeEliminator::BackTranslator::translate(ValidityWitness)` (`src/transformers/NodeEliminator.cc:133-200`)
over the removed vertices, last one first. `done none` is `return ValidityWitness{}` because a definition is missing,
`thrown` is `std::logic_error` unless the query is UNSAT. -/
def elimSafeLoop (S : Smt T) (R : PRepr) : List (Pred × Contraction T) → Defs T → Outcome (Option (Defs T))
  | [], D => .done (some D)
  | (v, c) :: rs, D =>
    match elimSafeLoop S R rs D with
    | .done (some D) =>
      match elimQuery R D v c with
      | none => .done none
      | some (a, b) =>
        if S.check [a, b] = .unsat then .done (some (D.insertNew v ((S.itp [a] [b]).rename tgtToBase))) else .thrown
    | r => r

/-- `NodeEliminator::BackTranslator::translate(ValidityWitness)` (`src/transformers/NodeEliminator.cc:124-201`). -/
def elimSafe (S : Smt T) (R : PRepr) (rs : List (Pred × Contraction T)) (D : Defs T) : Outcome (Defs T) :=
  match elimSafeLoop S R rs D with
  | .done r => .done (r.getD [])
  | .thrown => .thrown
  | .outOfFuel => .outOfFuel

end Golem
