import Verif.Model.Smt

/-!
Entailment filtering: `impliedBy` and `checkEntailmentOneByOne` (`src/utils/SmtSolver.cc:43-120`).
-/

namespace Golem
variable {T : Theory}

/-- How a C++ loop ends: normally, by an exception, or not within the given number of iterations. -/
inductive Outcome (α : Type) where
  | done (a : α)
  | thrown
  | outOfFuel
deriving DecidableEq, Repr

/-- The activation variable `.act<i>` (`src/utils/SmtSolver.cc:64-65`). -/
def actVar (i : Nat) : Var := .base (.act i)

/-- `logic.mkAnd(activationLiterals[i], logic.mkNot(candidates[i]))` (`src/utils/SmtSolver.cc:67`). -/
def entQuery (i : Nat) (c : Fla T) : Fla T := .and (.atom (.var (actVar i))) (.not c)

/-- The vector `queries` (`src/utils/SmtSolver.cc:63-68`). -/
def entQueries (cs : List (Fla T)) : List (Fla T) := cs.zipIdx.map fun p => entQuery p.2 p.1

/-- `activationLiterals[i]`: the variable, or its negation once disabled (`src/utils/SmtSolver.cc:88`). `en` lists for each
candidate whether it is still enabled. -/
def actLits (en : List Bool) : List (Fla T) :=
  en.zipIdx.map fun p => if p.1 then .atom (.var (actVar p.2)) else .not (.atom (.var (actVar p.2)))

/-- The `for` loop after a SAT answer (`src/utils/SmtSolver.cc:83-90`): disable every enabled candidate whose query is
true in the model. -/
def disableFalsified (ρ : Valuation T) (cs : List (Fla T)) (en : List Bool) : List Bool :=
  (en.zip (entQueries cs)).map fun p => p.1 && !decide (p.2.holds ρ)

/-- The `while` loop (`src/utils/SmtSolver.cc:73-92`). `fuel` bounds the number of iterations of the model only; the
theorem shows `candidates.size() + 1` suffices. -/
def impliedLoop (S : Smt T) (As cs : List (Fla T)) : Nat → List Bool → Outcome (List Bool)
  | 0, _ => .outOfFuel
  | n + 1, en =>
    if en.count false < cs.length then
      let stack := As ++ [Fla.disj (entQueries cs), Fla.conj (actLits en)]
      match S.check stack with
      | .unsat => .done en
      | .sat => impliedLoop S As cs n (disableFalsified (S.model stack) cs en)
      | _ => .thrown
    else .done en

/-- `impliedBy(candidates, assertions, logic)` (`src/utils/SmtSolver.cc:57-113`). -/
def impliedBy (S : Smt T) (As cs : List (Fla T)) : Outcome (List (Fla T)) :=
  match impliedLoop S As cs (cs.length + 1) (cs.map fun _ => true) with
  | .done en => .done ((cs.zip en).filterMap fun p => if p.2 then some p.1 else none)
  | .thrown => .thrown
  | .outOfFuel => .outOfFuel

/-- `checkEntailmentOneByOne(candidates, assertions, logic)` (`src/utils/SmtSolver.cc:44-55,115-125`). -/
def checkEntailmentOneByOne (S : Smt T) (As cs : List (Fla T)) : List (Fla T) :=
  cs.filter fun c => decide (S.check (As ++ [.not c]) = .unsat)

end Golem
