import Verif.Model.Transformers.Pipeline
import Verif.Model.Transformers.EdgeInliner

/-!
`src/transformers/ConstraintSimplifier.cc` and `defaultTransformationPipeline`
(`src/transformers/BasicTransformationPipelines.cc:66-84`).
-/

namespace Golem
variable {T : Theory}

/-- Local variables are versioned (`src/transformers/ConstraintSimplifier.cc:64-78`): a variable that is neither tagged nor
versioned becomes `x##0`. -/
def versionLocal : Var → Var
  | .base n => .ver n 0
  | x => x

/-- The body of the loop of `ConstraintSimplifier::transform` (`src/transformers/ConstraintSimplifier.cc:43-80`). `rw` is the
composition of `eliminateItes`, `eliminateDivMod` and `eliminateDistincts`, which call rewriters of OpenSMT. The variables
kept are those of the source terms and of the next-state version of the target. -/
def simplifyEdge (R : PRepr) (rw : Fla T → Fla T) (E : ElimExcept T) (e : Edge T) : Edge T :=
  { e with fla := (E (R.own e.src e.tgt) (rw e.fla)).rename versionLocal }

/-- `ConstraintSimplifier::transform` (`src/transformers/ConstraintSimplifier.cc:39-82`); its back-translator returns
witnesses unchanged (`src/transformers/ConstraintSimplifier.h:15-23`). -/
def simplifyStage (R : PRepr) (rw : Fla T → Fla T) (E : ElimExcept T) : Stage T := fun st =>
  .done ({ st with edges := st.edges.map (simplifyEdge R rw E) }, ⟨.done, .done⟩)

/-- `EdgeInliner` (`src/transformers/EdgeInliner.cc`), with a bound on the number of rounds. -/
def inlineStage (S : Smt T) (R : PRepr) (E : Elim T) (fuel : Nat) : Stage T := fun st =>
  match inlineLoop R E fuel st with
  | .done (st', es) => .done (st', ⟨inlineSafe S R es, inlineUns S R es⟩)
  | .thrown => .thrown
  | .outOfFuel => .outOfFuel

/-- The stages of `defaultTransformationPipeline` before the edge inliner, without the first
(`src/transformers/BasicTransformationPipelines.cc:69-71`). -/
def stagesBefore (S : Smt T) (R : PRepr) (E : Elim T) (order : Graph T → List Pred) : List (Stage T) :=
  [chainStage S R E order, unreachableStage, elimStage S R E simpleElimPredicate]

/-- The stages of `defaultTransformationPipeline` after the edge inliner
(`src/transformers/BasicTransformationPipelines.cc:73-82`). -/
def stagesAfter (S : Smt T) (R : PRepr) (E : Elim T) (order : Graph T → List Pred) : List (Stage T) :=
  [falseStage, unreachableStage, mergeStage S R, chainStage S R E order, unreachableStage, elimStage S R E simpleElimPredicate,
    falseStage, unreachableStage, mergeStage S R, pruneStage S]

/-- `defaultTransformationPipeline` (`src/transformers/BasicTransformationPipelines.cc:66-84`). -/
def defaultStages (S : Smt T) (R : PRepr) (rw : Fla T → Fla T) (E : Elim T) (order : Graph T → List Pred) (fuel : Nat) :
    List (Stage T) :=
  simplifyStage R rw E.except :: (stagesBefore S R E order ++ inlineStage S R E fuel :: stagesAfter S R E order)

end Golem
