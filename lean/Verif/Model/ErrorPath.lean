import Verif.Model.LinearGraph
import Verif.Model.Validator
import Verif.Model.TransitionSystem
import Verif.Model.Entailment

/-!
Witnesses for linear graphs: `src/Witnesses.cc:48-112, 226-240`, `src/engine/Common.cc`, `src/TransformationUtils.cc:290-297`.
-/

namespace Golem
variable {T : Theory}

/-- `ValidityWitness::trivialDefinitions` (`src/Witnesses.cc:234-246`). -/
def trivialDefinitions : Defs T := [(.tru, .tt), (.fls, .ff)]

/-- `isTrivial` (`src/TransformationUtils.cc:290-296`). -/
def isTrivial (G : LGraph T) : Bool := G.all fun e => decide (e.src = .tru ∧ e.tgt = .fls)

/-- The loop of `solveTrivial` (`src/engine/Common.cc:6-36`). -/
def solveTrivial (S : Smt T) : LGraph T → VerificationResult T
  | [] => ⟨.safe, .validity trivialDefinitions⟩
  | e :: es =>
    if e.fla = .ff then solveTrivial S es
    else match S.check [e.fla] with
      | .unsat => solveTrivial S es
      | .sat => ⟨.unsafeAns, .invalidity [⟨[], trueFact, none⟩, ⟨[0], falseFact, some e.id⟩]⟩
      | _ => ⟨.unknown, .none⟩

/-- `std::map::at(eid)` on the edges of a linear graph. -/
def LGraph.find (G : LGraph T) (id : Nat) : Option (LEdge T) := List.find? (fun e : LEdge T => e.id == id) G

/-- The formulas asserted for an error path: each label moved to its step (`src/Witnesses.cc:59-63`). -/
def pathQuery (es : List (LEdge T)) : List (Fla T) := es.zipIdx.map fun p => sendFla p.1.fla (p.2 : Nat)

/-- `vertices` (`src/Witnesses.cc:83-87`). -/
def pathVertices (es : List (LEdge T)) : List Pred := es.map LEdge.src ++ (es.getLast?.map LEdge.tgt).toList

/-- `instantiate(vertexPredicates[i])` (`src/Witnesses.cc:69-79, 91-99`): the arguments of the vertex, moved `i` steps and
evaluated in the model. -/
def pathFact (R : PRepr) (ρ : Valuation T) (v : Pred) (i : Nat) : Fact T :=
  (v, (R.stateVars v).map fun x => ρ (shift i x))

/-- The derivation (`src/Witnesses.cc:101-115`). -/
def pathDerivation (R : PRepr) (ρ : Valuation T) (es : List (LEdge T)) : List (DStep T) :=
  ⟨[], trueFact, none⟩ :: es.zipIdx.map fun p =>
    ⟨[p.2], pathFact R ρ ((pathVertices es)[p.2 + 1]?.getD .fls) (p.2 + 1), some p.1.id⟩

/-- `InvalidityWitness::fromErrorPath` (`src/Witnesses.cc:48-120`). The exception is `thrown`; so is an unknown edge id. -/
def fromErrorPath (S : Smt T) (R : PRepr) (G : LGraph T) (ids : List Nat) : Outcome (List (DStep T)) :=
  if ids.isEmpty then .done []
  else match ids.mapM G.find with
    | none => .thrown
    | some es =>
      if S.check (pathQuery es) = .sat then .done (pathDerivation R (S.model (pathQuery es)) es) else .thrown

end Golem
