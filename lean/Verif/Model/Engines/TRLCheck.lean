import Verif.Model.Engines.TSCheck
import Verif.Model.Engines.TRL

/-! Transitive relation learning as `EngineFactory::getEngine` (`src/engine/EngineFactory.cc:21-49`) makes it, on the hypergraph that
`check-sat` hands to it. -/

namespace Golem

/-- `trl` (`src/engine/TRL.h`) without a request for a witness: `TransitionSystemEngine::solve`
(`src/engine/TransitionSystemEngine.cc:16-44`) with the overload for transition systems of TRL, which does not call
`ensureNoAuxiliaryVariablesInInitAndQuery`. -/
def trlCheck (V : TrlEnv) (E : Elim LIA) (Ex : ElimExcept LIA) (K : KeepOnly LIA) (simp : Fla LIA → Fla LIA) (fuel : Nat) :=
  tsCheck V.S E Ex K simp some (fun ts => trlSolve V false ts fuel) false

end Golem
