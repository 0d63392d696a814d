import Verif.Model.Termination.Common

/-! `src/termination/LassoDetector.cc`. -/

namespace Golem
variable {T : Theory}

/-- `notYetSaved` (`src/termination/LassoDetector.cc:33-43`): the current state, default values, flag false. `dflt` is
`logic.getDefaultValuePTRef` of the sort of a variable. -/
def notYetSaved (dflt : Var → T.Val) (ts : TS T) : List (Tm T) :=
  ts.stateVars.map Tm.var ++ (ts.stateVars.map fun x => Tm.const (dflt x)) ++ [Tm.const T.vF]

/-- The stored copy: the state variables one step in the past (`:47-51`), and the flag `stored` (`:52`). -/
def storedCopy (ts : TS T) : List (Tm T) := ts.stateVars.map fun x => Tm.var (shift (-1) x)
def storedFlag : Var := .base (.user "stored")

/-- The clauses of `find_lasso` (`src/termination/LassoDetector.cc:19-105`); the predicate `L` is the `k`-th. -/
def lassoClauses (k : Nat) (dflt : Var → T.Val) (ts : TS T) : List (Clause T) :=
  [⟨(.p k, notYetSaved dflt ts), ts.init, []⟩,
   ⟨(.p k, ts.nextVars.map Tm.var ++ storedCopy ts ++ [.var storedFlag]), ts.trans,
     [(.p k, ts.stateVars.map Tm.var ++ storedCopy ts ++ [.var storedFlag])]⟩,
   ⟨(.p k, ts.nextVars.map Tm.var ++ ts.stateVars.map Tm.var ++ [.const T.vT]), ts.trans,
     [(.p k, notYetSaved dflt ts)]⟩,
   ⟨(.fls, []), .tt, [(.p k, ts.stateVars.map Tm.var ++ ts.stateVars.map Tm.var ++ [.const T.vT])]⟩]

/-- `LassoDetector::find_lasso` (`src/termination/LassoDetector.cc:16-129`). -/
def findLasso (E : Engine T) (k : Nat) (dflt : Var → T.Val) (ts : TS T) : Outcome LassoAnswer :=
  match solveClauses E (lassoClauses k dflt ts) with
  | .done r => .done (match r.answer with
    | .safe => .noLasso
    | .unsafeAns => .lasso
    | .unknown => .unknown)
  | .thrown => .thrown
  | .outOfFuel => .outOfFuel

end Golem
