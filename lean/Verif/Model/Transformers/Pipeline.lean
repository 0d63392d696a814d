import Verif.Model.Transformers.Simple
import Verif.Model.Transformers.Unreachable
import Verif.Model.Transformers.NodeEliminator
import Verif.Model.Transformers.Derivations
import Verif.Model.Transformers.ChainSummarizer

/-!
`src/transformers/TransformationPipeline.cc`, `src/transformers/Transformer.h` and
`src/transformers/BasicTransformationPipelines.cc`.
-/

namespace Golem
variable {T : Theory}

/-- `WitnessBackTranslator` (`src/transformers/Transformer.h:15-18`): both translations may throw. -/
structure OBack (T : Theory) where
  safe : Defs T → Outcome (Defs T)
  uns : List (DStep T) → Outcome (List (DStep T))

/-- A back-translator that never throws. -/
def BackTranslator.out (b : BackTranslator T) : OBack T := ⟨fun D => .done (b.safe D), fun ds => .done (b.uns ds)⟩

/-- `Transformer::transform` (`src/transformers/Transformer.h:36-41`). -/
abbrev Stage (T : Theory) := GS T → Outcome (GS T × OBack T)

/-- The loop of `TransformationPipeline::transform` (`src/transformers/TransformationPipeline.cc:11-16`): the back-translators
in the order of the stages. -/
def runStages : List (Stage T) → GS T → Outcome (GS T × List (OBack T))
  | [], st => .done (st, [])
  | s :: ss, st =>
    match s st with
    | .done (st1, b) =>
      match runStages ss st1 with
      | .done (st', bs) => .done (st', b :: bs)
      | .thrown => .thrown
      | .outOfFuel => .outOfFuel
    | .thrown => .thrown
    | .outOfFuel => .outOfFuel

/-- `TransformationPipeline::BackTranslator::translate(ValidityWitness)`
(`src/transformers/TransformationPipeline.cc:28-33`). -/
def translateSafe : List (OBack T) → Defs T → Outcome (Defs T)
  | [], D => .done D
  | b :: bs, D =>
    match b.safe D with
    | .done D' => translateSafe bs D'
    | .thrown => .thrown
    | .outOfFuel => .outOfFuel

/-- `TransformationPipeline::BackTranslator::translate(InvalidityWitness)`
(`src/transformers/TransformationPipeline.cc:21-26`). -/
def translateUns : List (OBack T) → List (DStep T) → Outcome (List (DStep T))
  | [], ds => .done ds
  | b :: bs, ds =>
    match b.uns ds with
    | .done ds' => translateUns bs ds'
    | .thrown => .thrown
    | .outOfFuel => .outOfFuel

/-- `TransformationPipeline::transform` (`src/transformers/TransformationPipeline.cc:10-19`): the back-translators are
reversed. -/
def pipeline (stages : List (Stage T)) : Stage T := fun st =>
  match runStages stages st with
  | .done (st', bs) => .done (st', ⟨translateSafe bs.reverse, translateUns bs.reverse⟩)
  | .thrown => .thrown
  | .outOfFuel => .outOfFuel

/-- `WitnessBackTranslator::translate(VerificationResult)` (`src/transformers/Transformer.h:20-33`). The last case is
`std::get` on a variant that holds the other witness. -/
def OBack.result (b : OBack T) (r : VerificationResult T) : Outcome (VerificationResult T) :=
  match r.witness, r.answer with
  | .none, _ => .done r
  | .validity D, .safe =>
    match b.safe D with
    | .done D' => .done ⟨.safe, .validity D'⟩
    | .thrown => .thrown
    | .outOfFuel => .outOfFuel
  | .invalidity ds, .unsafeAns =>
    match b.uns ds with
    | .done ds' => .done ⟨.unsafeAns, .invalidity ds'⟩
    | .thrown => .thrown
    | .outOfFuel => .outOfFuel
  | _, .unknown => .done r
  | _, _ => .thrown

/-! ### The stages -/

/-- `NodeEliminator` (`src/transformers/NodeEliminator.cc:19-41`). -/
def elimStage (S : Smt T) (R : PRepr) (E : Elim T) (pred : Graph T → Pred → Bool) : Stage T := fun st =>
  match nodeEliminator R E pred st with
  | .done (st', rs) => .done (st', ⟨elimSafe S R rs, elimUns S R rs⟩)
  | .thrown => .thrown
  | .outOfFuel => .outOfFuel

/-- `SimpleChainSummarizer` (`src/transformers/SimpleChainSummarizer.cc`). -/
def chainStage (S : Smt T) (R : PRepr) (E : Elim T) (order : Graph T → List Pred) : Stage T := fun st =>
  match chainSummarizer R E order st with
  | .done (st', ss) => .done (st', ⟨chainSafe S R ss, chainUns S R ss⟩)
  | .thrown => .thrown
  | .outOfFuel => .outOfFuel

/-- `FalseClauseRemoval` (`src/transformers/FalseClauseRemoval.cc`). -/
def falseStage : Stage T := fun st =>
  .done ({ st with edges := (falseClauseRemoval st.edges).1 }, (falseClauseRemoval st.edges).2.out)

/-- `RemoveUnreachableNodes` (`src/transformers/RemoveUnreachableNodes.cc`). -/
def unreachableStage : Stage T := fun st =>
  match removeUnreachable st.edges with
  | some (G', b) => .done ({ st with edges := G' }, b.out)
  | none => .outOfFuel

/-- `MultiEdgeMerger` (`src/transformers/MultiEdgeMerger.cc`). -/
def mergeStage (S : Smt T) (R : PRepr) : Stage T := fun st =>
  .done ({ st with edges := (multiEdgeMerger S R st.edges).1 }, (multiEdgeMerger S R st.edges).2.out)

/-- `TrivialEdgePruner` (`src/transformers/TrivialEdgePruner.cc`). A new graph with a single edge has a new id generator
(`src/graph/ChcGraph.h:253-257`). -/
def pruneStage (S : Smt T) : Stage T := fun st =>
  .done ({ st with
      edges := (trivialEdgePruner S st.edges).1
      freeId := match pruneLoop S (directEdges st.edges) with
        | .satEdge _ => 1
        | _ => st.freeId },
    (trivialEdgePruner S st.edges).2.out)

/-- `towardsTransitionSystems` (`src/transformers/BasicTransformationPipelines.cc:55-64`). -/
def towardsTransitionSystems (S : Smt T) (R : PRepr) (E : Elim T) : List (Stage T) :=
  [elimStage S R E slightlyBetterPredicate, falseStage, unreachableStage, mergeStage S R, pruneStage S]

end Golem
