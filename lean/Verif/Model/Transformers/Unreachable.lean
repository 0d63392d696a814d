import Verif.Model.Adjacency
import Verif.Model.Transformers.Simple

/-!
`src/transformers/RemoveUnreachableNodes.cc`, `src/transformers/TrivialEdgePruner.cc`.
-/

namespace Golem
variable {T : Theory}

/-- `for source in sources: if inserted, push` (`src/transformers/RemoveUnreachableNodes.cc:23-27`). The queue is used as
a stack; its back is the head of the list. -/
def pushSources : List Pred → List Pred × List Pred → List Pred × List Pred
  | [], st => st
  | s :: ss, (queue, seen) => pushSources ss (if s ∈ seen then (queue, seen) else (s :: queue, s :: seen))

/-- The loop over the incoming edges of a vertex (`src/transformers/RemoveUnreachableNodes.cc:21-28`). -/
def pushIncoming (G : Graph T) : List Nat → List Pred × List Pred → List Pred × List Pred
  | [], st => st
  | id :: ids, st => pushIncoming G ids (pushSources ((G.find id).elim [] Edge.src) st)

/-- The `while` loop of `computeBackwardUnreachable` (`src/transformers/RemoveUnreachableNodes.cc:18-29`). -/
def backwardLoop (G : Graph T) (A : AdjLists) : Nat → List Pred → List Pred → Option (List Pred)
  | _, [], seen => some seen
  | 0, _ :: _, _ => none
  | fuel + 1, v :: queue, seen =>
    let st := pushIncoming G (A.inEdges v) (queue, seen)
    backwardLoop G A fuel st.1 st.2

/-- Inner loop of `computeForwardUnreachable` (`src/transformers/RemoveUnreachableNodes.cc:49-58`). -/
def pushTargets (G : Graph T) : List Nat → List Pred × List Pred → List Pred × List Pred
  | [], st => st
  | id :: ids, (queue, seen) =>
    match G.find id with
    | none => pushTargets G ids (queue, seen)
    | some e =>
      pushTargets G ids
        (if e.tgt ∈ seen then (queue, seen)
         else if e.src.all (fun s => decide (s ∈ seen)) then (e.tgt :: queue, e.tgt :: seen) else (queue, seen))

/-- The `while` loop of `computeForwardUnreachable` (`src/transformers/RemoveUnreachableNodes.cc:46-60`). -/
def forwardLoop (G : Graph T) (A : AdjLists) : Nat → List Pred → List Pred → Option (List Pred)
  | _, [], seen => some seen
  | 0, _ :: _, _ => none
  | fuel + 1, v :: queue, seen =>
    let st := pushTargets G (A.outEdges v) (queue, seen)
    forwardLoop G A fuel st.1 st.2

/-- `computeBackwardUnreachable` (`src/transformers/RemoveUnreachableNodes.cc:11-36`). The fuel is the number of nodes
plus one: every queued vertex is a node and is queued once, so the loop never runs out (`backward_terminates`). -/
def computeBackwardUnreachable (G : Graph T) (A : AdjLists) : Option (List Pred) :=
  (backwardLoop G A (A.nodes.length + 1) [.fls] [.tru, .fls]).map fun seen => A.nodes.filter fun n => decide (n ∉ seen)

/-- `computeForwardUnreachable` (`src/transformers/RemoveUnreachableNodes.cc:38-67`). -/
def computeForwardUnreachable (G : Graph T) (A : AdjLists) : Option (List Pred) :=
  (forwardLoop G A (A.nodes.length + 1) [.tru] [.tru]).map fun seen => A.nodes.filter fun n => decide (n ∉ seen)

/-- `ChcDirectedHyperGraph::deleteNode` (`src/graph/ChcGraph.cc:271-275`). -/
def deleteNode (G : Graph T) (p : Pred) : Graph T := G.filter fun e => decide (¬ (e.tgt = p ∨ p ∈ e.src))

/-- `std::unordered_map::insert`: no effect if the key exists. -/
def Defs.insertNew (D : Defs T) (p : Pred) (d : Fla T) : Defs T :=
  match D.get p with
  | some _ => D
  | none => D ++ [(p, d)]

/-- `RemoveUnreachableNodes::BackTranslator::translate(ValidityWitness)` (`src/transformers/RemoveUnreachableNodes.cc:102-114`);
the invalidity translation is the identity (`src/transformers/RemoveUnreachableNodes.h:27`). -/
def unreachableBack (fromTrue toFalse : List Pred) : BackTranslator T where
  safe D := fromTrue.foldl (fun D p => D.insertNew p .ff) (toFalse.foldl (fun D p => D.insertNew p .tt) D)
  uns ds := ds

/-- `RemoveUnreachableNodes::transform` (`src/transformers/RemoveUnreachableNodes.cc:71-100`). -/
def removeUnreachable (G : Graph T) : Option (Graph T × BackTranslator T) :=
  let A := adjacency G
  let inner := A.nodes.filter fun n => decide (¬ (n = .tru ∨ n = .fls))
  if (A.inEdges .fls).isEmpty then some ([], unreachableBack [] inner)
  else if (A.outEdges .tru).isEmpty then some ([], unreachableBack inner [])
  else do
    let bw ← computeBackwardUnreachable G A
    let G1 := bw.foldl deleteNode G
    let A1 := if bw.isEmpty then A else adjacency G1
    let fw ← computeForwardUnreachable G1 A1
    return (fw.foldl deleteNode G1, unreachableBack fw bw)

/-- `RemoveForwardUnreachableNodes::transform` (`src/transformers/RemoveUnreachableNodes.cc:116-134`), back-translator
(`:136-146`). -/
def removeForwardUnreachable (G : Graph T) : Option (Graph T × BackTranslator T) :=
  let A := adjacency G
  if (A.outEdges .tru).isEmpty then
    some ([], unreachableBack (A.nodes.filter fun n => decide (¬ (n = .tru ∨ n = .fls))) [])
  else do
    let fw ← computeForwardUnreachable G A
    return (fw.foldl deleteNode G, unreachableBack fw [])

/-! ### TrivialEdgePruner -/

/-- Direct edges (`src/transformers/TrivialEdgePruner.cc:14-19`). -/
def directEdges (G : Graph T) : List (Edge T) := G.filter fun e => decide (e.tgt = .fls ∧ e.src = [.tru])

/-- Outcome of the loop over the direct edges (`src/transformers/TrivialEdgePruner.cc:23-42`). -/
inductive PruneResult (T : Theory) where
  | satEdge (e : Edge T)
  | giveUp
  | allUnsat

def pruneLoop (S : Smt T) : List (Edge T) → PruneResult T
  | [] => .allUnsat
  | e :: es =>
    match S.check [e.fla] with
    | .sat => .satEdge e
    | .unsat => pruneLoop S es
    | _ => .giveUp

/-- `ChcDirectedHyperGraph::deleteEdges` (`src/graph/ChcGraph.cc:537-543`). -/
def deleteEdges (G : Graph T) (ids : List Nat) : Graph T := G.filter fun e => decide (e.id ∉ ids)

/-- Back-translator with a satisfiable edge (`src/transformers/TrivialEdgePruner.cc:48-53`). -/
def setClause1 (id : Nat) (ds : List (DStep T)) : List (DStep T) :=
  match ds with
  | d0 :: d1 :: rest => d0 :: { d1 with clauseId := some id } :: rest
  | _ => ds

/-- `TrivialEdgePruner::transform` (`src/transformers/TrivialEdgePruner.cc:12-46`). The graph constructor renumbers the
single edge to id 0 (`src/graph/ChcGraph.h:253-257`). -/
def trivialEdgePruner (S : Smt T) (G : Graph T) : Graph T × BackTranslator T :=
  match pruneLoop S (directEdges G) with
  | .satEdge e => ([{ e with id := 0 }], ⟨id, setClause1 e.id⟩)
  | .giveUp => (G, ⟨id, id⟩)
  | .allUnsat => (deleteEdges G ((directEdges G).map Edge.id), ⟨id, id⟩)

end Golem
