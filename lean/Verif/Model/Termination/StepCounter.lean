import Verif.Model.Termination.Common

/-! `src/termination/ReachabilityTerm.cc`, over integer arithmetic. -/

namespace Golem

/-- Function symbols of `ArithLogic` that the step counter uses. -/
inductive IntSym where | plus | minus | times | neg | geq | gt | lt | ite
deriving DecidableEq, Repr

/-- Integer arithmetic. Simplification: Boolean values are integers too (zero is false). -/
abbrev ctrTheory : Theory where
  Val := Int
  Sym := IntSym
  decVal := inferInstance
  decSym := inferInstance
  ap1 f a := match f with
    | .neg => -a
    | _ => 0
  ap2 f a b := match f with
    | .plus => a + b
    | .minus => a - b
    | .times => a * b
    | .geq => if a ≥ b then 1 else 0
    | .gt => if a > b then 1 else 0
    | .lt => if a < b then 1 else 0
    | _ => 0
  ap3 f c a b := match f with
    | .ite => if c ≠ 0 then a else b
    | _ => 0
  truth v := decide (v ≠ 0)
  vT := (1 : Int)
  vF := (0 : Int)
  truth_vT := by decide
  truth_vF := by decide

/-- An integer constant term. -/
def intConst (v : Int) : Tm ctrTheory := Tm.const (T := ctrTheory) v

/-- `abs(x) := ite(x >= 0, x, -x)` (`src/termination/ReachabilityTerm.cc:29`). -/
def absTm (x : Var) : Tm ctrTheory :=
  .ap3 IntSym.ite (.ap2 IntSym.geq (.var x) (intConst 0)) (.var x) (.ap1 IntSym.neg (.var x))

/-- `logic.mkPlus(vec)` of a nonempty list. -/
def sumTm : List (Tm ctrTheory) → Tm ctrTheory
  | [] => intConst 0
  | [t] => t
  | t :: ts => .ap2 IntSym.plus t (sumTm ts)

/-- `sum` (`src/termination/ReachabilityTerm.cc:25-32`): only variables of sort Int count; one when there are none. -/
def measureTm (isInt : Var → Bool) (vars : List Var) : Tm ctrTheory :=
  let args := (vars.filter isInt).map absTm
  if args.isEmpty then intConst 1 else sumTm args

/-- `counter0`, `counter1` (`src/termination/ReachabilityTerm.cc:22-24`). -/
def counter0 : Var := .ver (.user "counter") 0
def counter1 : Var := shift 1 counter0

/-- The system with the counter for one multiplier (`src/termination/ReachabilityTerm.cc:33-43`). -/
def counterSystem (isInt : Var → Bool) (m : Nat) (ts : TS ctrTheory) : TS ctrTheory where
  stateVars := ts.stateVars ++ [counter0]
  auxVars := ts.auxVars
  init := .and ts.init (.atom (.ap2 IntSym.gt (.var counter0)
    (.ap2 IntSym.times (intConst m) (measureTm isInt ts.stateVars))))
  trans := .and ts.trans (.eq (.var counter1) (.ap2 IntSym.minus (.var counter0) (intConst 1)))
  query := .atom (.ap2 IntSym.lt (.var counter0) (intConst 0))

/-- The loop over the multiplier (`src/termination/ReachabilityTerm.cc:34-99`). -/
def stepCounterLoop (E : Engine ctrTheory) (k : Nat) (isInt : Var → Bool) (ts : TS ctrTheory) :
    Nat → Nat → Outcome TermAnswer
  | 0, _ => .outOfFuel
  | fuel + 1, m =>
    if m < 64 then
      let c := counterSystem isInt m ts
      match solveClauses E (systemClauses k c.stateVars c.init c.trans c.query) with
      | .done r =>
        match r.answer with
        | .safe => .done .yes
        | .unknown => .done .error
        | .unsafeAns => stepCounterLoop E k isInt ts fuel (m * 2)
      | .thrown => .thrown
      | .outOfFuel => .outOfFuel
    else .done .unknown

/-- `ReachabilityTerm::termination` (`src/termination/ReachabilityTerm.cc:15-101`); eight rounds suffice for the loop. -/
def stepCounter (E : Engine ctrTheory) (k : Nat) (isInt : Var → Bool) (ts : TS ctrTheory) : Outcome TermAnswer :=
  stepCounterLoop E k isInt ts 8 1

end Golem
