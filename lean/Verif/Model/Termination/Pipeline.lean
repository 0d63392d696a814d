import Verif.Model.Transformers.Default

/-! The preprocessing of the termination front end (`src/termination/Frontend.cc:468-480`). -/

namespace Golem
variable {T : Theory}

/-- `RemoveForwardUnreachableNodes` (`src/transformers/RemoveUnreachableNodes.cc:116-135`). -/
def forwardStage : Stage T := fun st =>
  match removeForwardUnreachable st.edges with
  | some (G', b) => .done ({ st with edges := G' }, b.out)
  | none => .outOfFuel

/-- The stages of `run` (`src/termination/Frontend.cc:468-477`). -/
def terminationStages (S : Smt T) (R : PRepr) (rw : Fla T → Fla T) (E : Elim T) (order : Graph T → List Pred) (fuel : Nat) :
    List (Stage T) :=
  [simplifyStage R rw E.except, chainStage S R E order, forwardStage, elimStage S R E simpleElimPredicate,
    inlineStage S R E fuel, falseStage, mergeStage S R, chainStage S R E order, pruneStage S]

end Golem
