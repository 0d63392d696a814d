import Verif.Model.Normalizer
import Verif.Model.Validator
import Verif.Model.Transformers.Default

/-! `ChcInterpreterContext::interpretCheckSat` (`src/ChcInterpreter.cc:418-556`) with one engine. -/

namespace Golem
variable {T : Theory}

/-- The graph `ChcGraphBuilder::buildGraph` returns, with the counters of a fresh graph
(`src/graph/ChcGraph.h:195-263`). -/
def initialGraph (cs : List (Clause T)) : GS T :=
  ⟨buildGraph (normalize cs).2, (buildGraph (normalize cs).2).length, 0, 0⟩

/-- A line on the standard output: an answer (`sat` for SAFE, `unsat` for UNSAFE, `unknown`;
`src/ChcInterpreter.cc:455-469`), a witness (`VerificationResult::printWitness`, not modelled further), or the verdict of the
internal validation (`src/ChcInterpreter.cc:429, 440-447`). -/
inductive CheckLine (T : Theory) where
  | answer (a : VAnswer)
  | witness (r : VerificationResult T)
  | validation (ok : Bool)

/-- `doWorkAfterAnswer` (`src/ChcInterpreter.cc:418-452`): what is printed, and how it ends. -/
def afterAnswer (S : Smt T) (R : PRepr) (G : Graph T) (b : OBack T) (printW validateW : Bool) (r : VerificationResult T) :
    List (CheckLine T) × Outcome Unit :=
  if printW || validateW then
    match b.result r with
    | .done r' =>
      match r'.witness with
      | .none => (if validateW then [.validation false] else [], .done ())
      | _ =>
        let p : List (CheckLine T) := if printW then [.witness r'] else []
        if validateW then
          match validate S R G r' with
          | .validated => (p ++ [.validation true], .done ())
          | .notValidated => (p ++ [.validation false], .done ())
          | .ub => (p, .thrown)
        else (p, .done ())
    | .thrown => ([], .thrown)
    | .outOfFuel => ([], .outOfFuel)
  else ([], .done ())

/-- `interpretCheckSat` (`src/ChcInterpreter.cc:530-556`) with a single engine: what is printed, and how it ends. -/
def checkSat (S : Smt T) (rw : Fla T → Fla T) (E : Elim T) (order : Graph T → List Pred) (fuel : Nat)
    (engine : PRepr → GS T → Outcome (VerificationResult T)) (printW validateW : Bool) (cs : List (Clause T)) :
    List (CheckLine T) × Outcome Unit :=
  let R := (normalize cs).1.repr
  match pipeline (defaultStages S R rw E order fuel) (initialGraph cs) with
  | .done (st, b) =>
    match engine R st with
    | .done r =>
      if r.answer = .unknown then ([.answer r.answer], .done ())
      else
        let w := afterAnswer S R (initialGraph cs).edges b printW validateW r
        (.answer r.answer :: w.1, w.2)
    | .thrown => ([], .thrown)
    | .outOfFuel => ([], .outOfFuel)
  | .thrown => ([], .thrown)
  | .outOfFuel => ([], .outOfFuel)

end Golem
