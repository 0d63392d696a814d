import Verif.Model.SingleLoop
import Verif.Model.Engines.Hyper
import Verif.Model.Engines.Dar
import Verif.Model.Engines.PDKind
import Verif.Model.Engines.TPANetwork
import Verif.Model.Transformers.Default

/-!
The engines for transition systems as `EngineFactory::getEngine` (`src/engine/EngineFactory.cc:21-49`) makes them, on the
hypergraph that `check-sat` hands to them.
-/

namespace Golem
variable {T : Theory}

/-- The symbol of the vertex that stands for the contracted ones (`src/graph/ChcGraph.cc:646-666`). In the code its name is the
concatenation of the names of the contracted vertices; here it is the first number above all vertices of the graph. -/
def freshPred (G : LGraph T) : Pred := .p ((G.flatMap fun e => [e.src.rank, e.tgt.rank]).foldl max 0)

/-- `TransitionSystemEngine::solve(ChcDirectedHyperGraph)` (`src/engine/TransitionSystemEngine.cc:16-44`), for any engine that
overrides the overload for transition systems only. -/
def tsCheck (S : Smt T) (E : Elim T) (Ex : ElimExcept T) (K : KeepOnly T) (simp : Fla T → Fla T) (prep : TS T → Option (TS T))
    (solve : TS T → Outcome (TSResult T)) (w : Bool) : PRepr → GS T → Outcome (VerificationResult T) := fun R st =>
  tsEngineSolve S R E w (fun G => tsEngineGraph S R Ex K simp (freshPred G) prep solve w G) st

/-- `imc` (`src/engine/IMC.h`). -/
def imcCheck (S : Smt T) (E : Elim T) (Ex : ElimExcept T) (Q : QElim T) (K : KeepOnly T) (simp : Fla T → Fla T) (w hasArrays : Bool)
    (inner fuel : Nat) := tsCheck S E Ex K simp (ensureNoAux Q) (fun ts => imcSolve S w hasArrays ts inner fuel) w

/-- `dar` (`src/engine/DAR.h`). -/
def darCheck (S : Smt T) (E : Elim T) (Ex : ElimExcept T) (Q : QElim T) (K : KeepOnly T) (simp : Fla T → Fla T) (w hasArrays : Bool)
    (fuel : Nat) := tsCheck S E Ex K simp (ensureNoAux Q) (fun ts => darSolve S hasArrays ts fuel) w

/-- `pdkind` (`src/engine/PDKind.h`). -/
def pdkindCheck (P : PdEnv T) (E : Elim T) (Ex : ElimExcept T) (Q : QElim T) (K : KeepOnly T) (simp : Fla T → Fla T)
    (w hasArrays : Bool) (rfuel pfuel fuel : Nat) :=
  tsCheck P.S E Ex K simp (ensureNoAuxQuery Q) (fun ts => pdkindSolve P w hasArrays ts rfuel pfuel fuel) w

/-- `tpa` and `split-tpa` (`src/engine/TPA.h`), which override the overload for linear graphs. -/
def tpaCheck (X : NetEnv T) (E : Elim T) (Ex : ElimExcept T) (Q : QElim T) (K : KeepOnly T) (simp : Fla T → Fla T)
    (forceTS w hasArrays : Bool) : PRepr → GS T → Outcome (VerificationResult T) := fun R st =>
  tsEngineSolve X.V.S R E w (fun G => tpaGraph X R Ex Q K simp (freshPred G) forceTS hasArrays w G) st

end Golem
