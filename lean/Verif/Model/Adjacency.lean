import Verif.Model.Graph

/-!
`AdjacencyListsGraphRepresentation` (`src/graph/ChcGraph.h:56-96`, `src/graph/ChcGraph.cc:170-204`).
-/

namespace Golem
variable {T : Theory}

/-- `std::unordered_map<SymRef, std::vector<EId>>`: keys in insertion order, each with its list. -/
abbrev AdjList := List (Pred × List Nat)

def AdjList.at (l : AdjList) (p : Pred) : List Nat := (List.lookup p l).getD []

/-- `list[p]` on an `unordered_map`: creates an empty entry if the key is missing. -/
def AdjList.touch (l : AdjList) (p : Pred) : AdjList :=
  match List.lookup p l with
  | some _ => l
  | none => l ++ [(p, [])]

/-- `list[p].push_back(id)`. -/
def AdjList.push (l : AdjList) (p : Pred) (id : Nat) : AdjList :=
  (l.touch p).map fun (q, ids) => if q = p then (q, ids ++ [id]) else (q, ids)

structure AdjLists where
  incoming : AdjList
  outgoing : AdjList

/-- `incoming.insert({entry, {}})` etc. (`src/graph/ChcGraph.cc:188-191`). -/
def AdjLists.init : AdjLists :=
  ⟨[(.tru, []), (.fls, [])], [(.tru, []), (.fls, [])]⟩

/-- The loop over the sources of one edge (`src/graph/ChcGraph.cc:195-200`): the edge is recorded once per vertex, by
comparing with the last recorded id. -/
def addSources (id : Nat) : List Pred → AdjLists → AdjLists
  | [], A => A
  | s :: ss, A =>
    let inc := A.incoming.touch s
    let out := A.outgoing.touch s
    let out := if (out.at s).getLast? = some id then out else out.push s id
    addSources id ss ⟨inc, out⟩

/-- One edge (`src/graph/ChcGraph.cc:192-202`). -/
def addEdge (A : AdjLists) (e : Edge T) : AdjLists :=
  let A := addSources e.id e.src ⟨A.incoming.push e.tgt e.id, A.outgoing⟩
  ⟨A.incoming, A.outgoing.touch e.tgt⟩

/-- `AdjacencyListsGraphRepresentation::from(ChcDirectedHyperGraph)` (`src/graph/ChcGraph.cc:185-204`). The overload for
linear graphs (`src/graph/ChcGraph.cc:168-183`) is the case of singleton sources, without the guard. -/
def adjacency (G : Graph T) : AdjLists := List.foldl addEdge AdjLists.init G

/-- `getIncomingEdgesFor` (`src/graph/ChcGraph.h:80`). -/
def AdjLists.inEdges (A : AdjLists) (p : Pred) : List Nat := A.incoming.at p

/-- `getOutgoingEdgesFor` (`src/graph/ChcGraph.h:84`). -/
def AdjLists.outEdges (A : AdjLists) (p : Pred) : List Nat := A.outgoing.at p

/-- `getNodes` (`src/graph/ChcGraph.h:88-95`). -/
def AdjLists.nodes (A : AdjLists) : List Pred := A.incoming.map Prod.fst

end Golem
