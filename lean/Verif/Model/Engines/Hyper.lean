import Verif.Model.Transformers.Pipeline
import Verif.Model.Engines.Bse

/-! Engines on hypergraphs: `TransitionSystemEngine::solve` and `BMC::solve` on `ChcDirectedHyperGraph`. -/

namespace Golem
variable {T : Theory}

/-- `BMC::solve(ChcDirectedHyperGraph)` (`src/engine/Bmc.h:29-35`), with `solve` the overload for linear graphs. -/
def normalSolve (R : PRepr) (solve : LGraph T → Outcome (VerificationResult T)) (G : Graph T) :
    Outcome (VerificationResult T) :=
  if isNormalGraph G then solve (toNormalGraph R G) else .done ⟨.unknown, .none⟩

/-- `TransitionSystemEngine::solve(ChcDirectedHyperGraph)` (`src/engine/TransitionSystemEngine.cc:16-28`), with `solve` the
overload for linear graphs. -/
def tsEngineSolve (S : Smt T) (R : PRepr) (E : Elim T) (w : Bool) (solve : LGraph T → Outcome (VerificationResult T))
    (st : GS T) : Outcome (VerificationResult T) :=
  match pipeline (towardsTransitionSystems S R E) st with
  | .done (st', b) =>
    if isNormalGraph st'.edges then
      match solve (toNormalGraph R st'.edges) with
      | .done r => if w then b.result r else .done r
      | .thrown => .thrown
      | .outOfFuel => .outOfFuel
    else .done ⟨.unknown, .none⟩
  | .thrown => .thrown
  | .outOfFuel => .outOfFuel

end Golem
