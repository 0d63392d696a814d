import Verif.Model.ToTS

/-!
Bounded model checking of arbitrary linear graphs: `src/engine/Bmc.cc:73-190`.

The solver is modelled by the list of formulas on its assertion stack; the bound of the main loop is replaced by fuel.
-/

namespace Golem
variable {T : Theory}

/-- `SymRef::x`: `true` and `false` are the first symbols of every logic. -/
def Pred.symNo : Pred → Nat
  | .tru => 0
  | .fls => 1
  | .p n => n + 2

/-- `BMCUtils::getVarFor` (`src/engine/Bmc.cc:80-82`). -/
def reachedVar (p : Pred) (k : Nat) : Var := .base (.bmc p.symNo k)

def reached (p : Pred) (k : Nat) : Fla T := .atom (.var (reachedVar p k))

/-- `predecessorTransitions` (`src/engine/Bmc.cc:156-163`). -/
def predTransitions (G : LGraph T) (frontier : List Pred) (node : Pred) (k : Nat) : List (Fla T) :=
  ((G.inc node).filter fun e => decide (e.src ∈ frontier)).map fun e => .and (sendFla e.fla k) (reached e.src k)

/-- The nodes of the next frontier (`src/engine/Bmc.cc:154-170`). -/
def nextFrontier (G : LGraph T) (frontier : List Pred) (k : Nat) : List Pred :=
  (getVertices G).filter fun n => !(predTransitions G frontier n k).isEmpty

/-- What is asserted for one level (`src/engine/Bmc.cc:165-167`). -/
def levelAsserts (G : LGraph T) (frontier : List Pred) (k : Nat) : List (Fla T) :=
  (nextFrontier G frontier k).map fun n => Fla.imp (reached n (k + 1)) (Fla.disj (predTransitions G frontier n k))

/-- The loop of `computeWitness` (`src/engine/Bmc.cc:99-114`): the edges found, last one first. If no edge qualifies, the
level is skipped. -/
def walkBack (G : LGraph T) (ρ : Valuation T) (known : List Var) : Nat → Pred → List (LEdge T)
  | 0, _ => []
  | r + 1, cur =>
    match (G.inc cur).find? fun e => decide (reachedVar e.src r ∈ known ∧ (reached (T := T) e.src r).holds ρ ∧
        (sendFla e.fla r).holds ρ) with
    | some e => e :: walkBack G ρ known r e.src
    | none => walkBack G ρ known r cur

/-- `computeWitness` (`src/engine/Bmc.cc:88-118`). -/
def linearBmcWitness (S : Smt T) (R : PRepr) (G : LGraph T) (ρ : Valuation T) (steps : Nat) (known : List Var) :
    Outcome (List (DStep T)) :=
  if ¬ (reached (T := T) .fls steps).holds ρ then .done []
  else
    let path := walkBack G ρ known steps .fls
    if path.length ≠ steps then .done []
    else fromErrorPath S R G (path.reverse.map LEdge.id)

/-- The main loop of `BMC::solveGeneralLinearSystem` (`src/engine/Bmc.cc:151-188`). Every answer except SAT continues. -/
def linearBmcLoop (S : Smt T) (R : PRepr) (w : Bool) (G : LGraph T) :
    Nat → Nat → List Pred → List (Fla T) → List Var → Outcome (VerificationResult T)
  | 0, _, _, _, _ => .outOfFuel
  | fuel + 1, k, frontier, stack, known =>
    let next := nextFrontier G frontier k
    let stack' := stack ++ levelAsserts G frontier k
    let known' := known ++ next.map fun n => reachedVar n (k + 1)
    let query := stack' ++ [reached .fls (k + 1)]
    if Pred.fls ∈ next ∧ S.check query = .sat then
      if w then
        match linearBmcWitness S R G (S.model query) (k + 1) known' with
        | .done ds => .done ⟨.unsafeAns, .invalidity ds⟩
        | .thrown => .thrown
        | .outOfFuel => .outOfFuel
      else .done ⟨.unsafeAns, .none⟩
    else linearBmcLoop S R w G fuel (k + 1) next stack' known'

/-- `BMC::solveGeneralLinearSystem` (`src/engine/Bmc.cc:135-190`). -/
def linearBmc (S : Smt T) (R : PRepr) (w : Bool) (G : LGraph T) (fuel : Nat) : Outcome (VerificationResult T) :=
  linearBmcLoop S R w G fuel 0 [.tru] [reached .tru 0] [reachedVar .tru 0]

end Golem
