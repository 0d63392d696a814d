import Verif.Model.Termination.Graph
import Verif.Model.Termination.StepCounter
import Verif.Model.Termination.Lasso
import Verif.Model.Termination.Nonterm
import Verif.Model.Portfolio
import Verif.Model.CheckSat

/-! The termination front end after the clauses are made: `src/termination/Frontend.cc:330-498`. -/

namespace Golem
variable {T : Theory}

/-- `TerminationAnswer` (`src/termination/Frontend.cc:330`). -/
inductive TAnswer where | terminating | nonterminating | unknown | error
deriving DecidableEq, Repr

/-- The lines on the standard output: those of `printAnswer` (`src/termination/Frontend.cc:367-382`). -/
inductive TLine where | yes | no | maybe | error
deriving DecidableEq, Repr

/-- `printAnswer` (`src/termination/Frontend.cc:367-382`). -/
def TAnswer.line : TAnswer → TLine
  | .terminating => .yes
  | .nonterminating => .no
  | .unknown => .maybe
  | .error => .error

/-- `Method` (`src/termination/Frontend.cc:332`). -/
inductive TMethod where | lassoFinder | stepCounter | nontermViaSafety
deriving DecidableEq, Repr

/-- `parseMethod` (`src/termination/Frontend.cc:334-339`). -/
def parseMethod (s : List Char) : Option TMethod :=
  if s = "lasso-finder".toList then some .lassoFinder
  else if s = "step-counter".toList then some .stepCounter
  else if s = "nontermination-via-safety".toList then some .nontermViaSafety
  else none

/-- What the methods use: the safety engine, the solver and the quantifier elimination of the third, the predicate symbol for
the clauses, default values, the sort test, and a bound on the rounds of the third. -/
structure TBackend where
  engine : Engine ctrTheory
  smt : Smt ctrTheory
  keep : KeepOnly ctrTheory
  sym : Nat
  dflt : Var → Int
  isInt : Var → Bool
  fuel : Nat

/-- `LassoDetector` (`src/termination/Frontend.cc:343-348`). -/
def lassoAnswer : LassoAnswer → TAnswer
  | .lasso => .nonterminating
  | .noLasso => .unknown
  | _ => .error

/-- `ReachabilityTerm` (`src/termination/Frontend.cc:349-354`). -/
def counterAnswer : TermAnswer → TAnswer
  | .yes => .terminating
  | .unknown => .unknown
  | _ => .error

/-- `ReachabilityNonterm` (`src/termination/Frontend.cc:355-362`). -/
def nontermAnswer : TermAnswer → TAnswer
  | .yes => .terminating
  | .no => .nonterminating
  | .unknown => .unknown
  | .error => .error

/-- The answer of a method, if it returns. -/
def withAnswer {α : Type} (f : α → TAnswer) : Outcome α → Outcome TAnswer
  | .done a => .done (f a)
  | .thrown => .thrown
  | .outOfFuel => .outOfFuel

/-- `solve(method, options, ts)` (`src/termination/Frontend.cc:341-365`). -/
def solveMethod (B : TBackend) (ts : TS ctrTheory) : TMethod → Outcome TAnswer
  | .lassoFinder => withAnswer lassoAnswer (findLasso B.engine B.sym B.dflt ts)
  | .stepCounter => withAnswer counterAnswer (stepCounter B.engine B.sym B.isInt ts)
  | .nontermViaSafety => withAnswer nontermAnswer (nontermRun B.smt B.keep B.engine B.sym ts B.fuel)

/-- The methods in the order of the enumeration (`src/termination/Frontend.cc:332, 392-394`). -/
def methodAt : Nat → TMethod
  | 0 => .lassoFinder
  | 1 => .stepCounter
  | _ => .nontermViaSafety

/-- What the child process number `i` does with the answer of its method (`src/termination/Frontend.cc:395-404`); an exception
that leaves the method ends the child with an error, a method that does not return is `none`. -/
def childResult (B : TBackend) (ts : TS ctrTheory) (i : Nat) : Option (Option TLine) :=
  match solveMethod B ts (methodAt i) with
  | .done .terminating => some (some .yes)
  | .done .nonterminating => some (some .no)
  | .done _ => some none
  | .thrown => some none
  | .outOfFuel => none

/-- `multiMethodSolve` (`src/termination/Frontend.cc:384-432`) as a portfolio; `faults`: processes may die. -/
def multiConfig (B : TBackend) (ts : TS ctrTheory) (faults : Bool) : Portfolio.Config TLine :=
  ⟨3, childResult B ts, true, faults⟩

def portfolioLine : Portfolio.Line TLine → TLine
  | .answer a => a
  | .maybe => .maybe

/-- What `solve(options, ts)` (`src/termination/Frontend.cc:434-443`) can have printed at some moment. An unknown back end ends the
program without a line on the standard output. -/
def SolvePrints (B : TBackend) (option : Option (List Char)) (ts : TS ctrTheory) (out : List TLine) : Prop :=
  match option with
  | none => ∃ faults s, Portfolio.Reach (multiConfig B ts faults) s ∧ out = s.output.map portfolioLine
  | some name =>
    match parseMethod name with
    | none => out = []
    | some m => out = [] ∨ ∃ a, solveMethod B ts m = .done a ∧ out = [a.line]

/-- The front end from the graph on (`src/termination/Frontend.cc:466-494`): `none` is the answer TERMINATING given without a
back end, otherwise the transition system for the back end. `N` makes the symbol of the vertex of the single-loop
transformation. -/
def prepare (S : Smt T) (rw : Fla T → Fla T) (E : Elim T) (order : Graph T → List Pred) (fuel : Nat) (N : LGraph T → Pred)
    (cs : List (Clause T)) : Outcome (Option (TS T)) :=
  let R := (normalize cs).1.repr
  match pipeline (terminationStages S R rw E order fuel) (initialGraph cs) with
  | .done (st, _) =>
    let G := toNormalGraph R st.edges
    if isTriviallyTerminating G then .done none
    else
      match extractTS S R E.except (N G) G with
      | none => .thrown
      | some ts => if ts.trans = .ff then .done none else .done (some ts)
  | .thrown => .thrown
  | .outOfFuel => .outOfFuel

/-- What the front end can have printed at some moment (`src/termination/Frontend.cc:455-498`), for the clauses of the
program. -/
def ClausesPrint (S : Smt ctrTheory) (rw : Fla ctrTheory → Fla ctrTheory) (E : Elim ctrTheory)
    (order : Graph ctrTheory → List Pred) (fuel : Nat) (N : LGraph ctrTheory → Pred) (B : TBackend) (option : Option (List Char))
    (cs : List (Clause ctrTheory)) (out : List TLine) : Prop :=
  match prepare S rw E order fuel N cs with
  | .done none => out = [] ∨ out = [.yes]
  | .done (some ts) => SolvePrints B option ts out
  | _ => out = []

end Golem
