import Verif.Model.Validator

/-!
The simple graph transformers: `FalseClauseRemoval`, `MultiEdgeMerger`, `RemoveUnreachableNodes`,
`RemoveForwardUnreachableNodes`, `TrivialEdgePruner`.
-/

namespace Golem
variable {T : Theory}

/-- `WitnessBackTranslator` (`src/transformers/Transformer.h:15-34`). -/
structure BackTranslator (T : Theory) where
  /-- `translate(ValidityWitness)` -/
  safe : Defs T → Defs T
  /-- `translate(InvalidityWitness)` -/
  uns : List (DStep T) → List (DStep T)

/-! ### FalseClauseRemoval -/

/-- `ChcDirectedHyperGraph::deleteFalseEdges` (`src/graph/ChcGraph.cc:533-535`). -/
def deleteFalseEdges (G : Graph T) : Graph T := G.filter fun e => decide (e.fla ≠ .ff)

/-- `FalseClauseRemoval::transform` (`src/transformers/FalseClauseRemoval.cc:10-13`, back-translator
`src/transformers/FalseClauseRemoval.h:17-21`). -/
def falseClauseRemoval (G : Graph T) : Graph T × BackTranslator T := (deleteFalseEdges G, ⟨id, id⟩)

/-! ### MultiEdgeMerger -/

/-- The bucket of simple edges from `s` to `t` (`src/graph/ChcGraph.cc:509-514`). -/
def bucket (G : Graph T) (s t : Pred) : List (Edge T) := G.filter fun e => decide (e.src = [s] ∧ e.tgt = t)

def bucketKey (e : Edge T) : Option (Pred × Pred) :=
  match e.src with
  | [s] => some (s, e.tgt)
  | _ => none

/-- Keep the first occurrence of each element (iteration over a hash map visits each key once; the order of the keys is
unspecified in C++ and immaterial here). -/
def firstOcc {α : Type} [DecidableEq α] : List α → List α
  | [] => []
  | a :: l => a :: (firstOcc l).filter (fun b => decide (b ≠ a))

/-- `MergedEdges`: for each bucket with at least two edges, the replaced edges and the edge replacing them
(`src/graph/ChcGraph.cc:515-529`). -/
def mergedRecords (G : Graph T) : List (List (Edge T) × Edge T) :=
  (firstOcc (G.filterMap bucketKey)).filterMap fun (s, t) =>
    match bucket G s t with
    | e :: e' :: es => some (e :: e' :: es, { e with fla := Fla.disj ((e :: e' :: es).map Edge.fla) })
    | _ => none

/-- Effect of one record on the edge map: the first edge gets the disjunction, the others are erased. -/
def applyRecords (recs : List (List (Edge T) × Edge T)) (G : Graph T) : Graph T :=
  G.filterMap fun e =>
    match recs.find? (fun r => r.2.id == e.id) with
    | some r => some { e with fla := r.2.fla }
    | none => if recs.any (fun r => r.1.any (fun e' => e'.id == e.id)) then none else some e

/-- `ChcDirectedHyperGraph::mergeMultiEdges` (`src/graph/ChcGraph.cc:505-531`). -/
def mergeMultiEdges (G : Graph T) : Graph T × List (List (Edge T) × Edge T) :=
  (applyRecords (mergedRecords G) G, mergedRecords G)

/-- `chosenEdgeIndex` (`src/transformers/MultiEdgeMerger.cc:61-78`). -/
def chooseEdge (S : Smt T) (m : SubstMap T) (es : List (Edge T)) : Option (Edge T) :=
  match es.find? (fun e => decide (varSubstitute e.fla m = .tt)) with
  | some e => some e
  | none => es.find? fun e =>
      decide (varSubstitute e.fla m ≠ .ff) && decide (S.check [varSubstitute e.fla m] = .sat)

/-- Body of the loop in `MultiEdgeMerger::BackTranslator::translate(InvalidityWitness)`
(`src/transformers/MultiEdgeMerger.cc:22-83`). `none`: no edge could be chosen, or an out-of-range access. -/
def mergerStep (S : Smt T) (R : PRepr) (recs : List (List (Edge T) × Edge T)) (ds : List (DStep T)) (d : DStep T) :
    Option (DStep T) :=
  match recs.find? (fun r => decide (d.clauseId = some r.2.id)) with
  | none => some d
  | some r => do
    let m ← mapFromPredicate (R.tgtVars r.2.tgt) d.fact.2
    let j ← d.premises.head?
    let prem ← ds[j]?
    let s ← r.2.src.head?
    let m' ← mapFromPredicate (R.srcVars s 0) prem.fact.2
    let e ← chooseEdge S (m ++ m') r.1
    return { d with clauseId := some e.id }

/-- `MultiEdgeMerger::BackTranslator::translate(InvalidityWitness)` (`src/transformers/MultiEdgeMerger.cc:18-86`); the
empty derivation is `InvalidityWitness{}`. -/
def mergerUnsafe (S : Smt T) (R : PRepr) (recs : List (List (Edge T) × Edge T)) (ds : List (DStep T)) : List (DStep T) :=
  if recs.isEmpty then ds else (ds.mapM (mergerStep S R recs ds)).getD []

/-- `MultiEdgeMerger::transform` (`src/transformers/MultiEdgeMerger.cc:12-16`). -/
def multiEdgeMerger (S : Smt T) (R : PRepr) (G : Graph T) : Graph T × BackTranslator T :=
  ((mergeMultiEdges G).1, ⟨id, mergerUnsafe S R (mergeMultiEdges G).2⟩)

end Golem
