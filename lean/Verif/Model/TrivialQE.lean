import Verif.Lemmas.Logic

/-!
`TrivialQuantifierElimination` and `extractSubstitutionsAndSimplify`: `src/TermUtils.cc:9-128, 222-256`.
-/

namespace Golem
variable {T : Theory}

/-- OpenSMT's `getNewFacts` + `retrieveSubstitutions` + `substitutionsTransitiveClosure`
(called in `src/TermUtils.cc:231-238`): a verdict (`none` = `l_Undef`) and closed substitutions. Simplification: keys are
variables and values are terms; non-variable keys (array selects) are not modelled. -/
structure SubstOracle (T : Theory) where
  retrieve : Fla T → Option Bool × SubstMap T

/-- Entries of `new` whose key is not in `all` are appended (`src/TermUtils.cc:240-245`). -/
def addNewSubsts (all new : SubstMap T) : SubstMap T :=
  all ++ new.filter fun e => (all.find e.1).isNone

/-- The `while (true)` loop of `TermUtils::extractSubstitutionsAndSimplify` (`src/TermUtils.cc:222-256`) with a bound on
the number of iterations; `none` means the bound was too small. -/
def extractLoop (O : SubstOracle T) : Nat → Fla T → SubstMap T → Option (Fla T × SubstMap T)
  | 0, _, _ => none
  | n + 1, root, all =>
    let (res, new) := O.retrieve root
    let all := addNewSubsts all new
    let root := match res with
      | none => root
      | some true => .tt
      | some false => .ff
    let newRoot := varSubstitute root new
    if newRoot = root then some (newRoot, all) else extractLoop O n newRoot all

/-- `logic.substitutionsTransitiveClosure` on the accumulated map, for entries whose values only mention keys of later
entries. -/
def closeSubsts : SubstMap T → SubstMap T
  | [] => []
  | (x, t) :: rest => (x, t.subst (closeSubsts rest).fn) :: closeSubsts rest

/-- Arithmetic services used by `tryEliminateVars`: `tryAsShiftedVar` (`src/TermUtils.cc:15-28`), `mkMinus`,
`yieldsSortInt`, and the test for fractional coefficients (`src/TermUtils.cc:78-84`). -/
structure ArithOps (T : Theory) where
  shifted : Tm T → Option (Var × Tm T)
  minus : Tm T → Tm T → Tm T
  isInt : Var → Bool
  fractional : Tm T → Bool

/-- One iteration over the keys (`src/TermUtils.cc:45-89`): `reapply` = `substitutionsToReapply`, `restore` =
`equalitiesToRestore`. -/
def elimStep (A : ArithOps T) (keep : Var → Bool) (st : SubstMap T × List (Fla T)) (e : Var × Tm T) :
    SubstMap T × List (Fla T) :=
  let (reapply, restore) := st
  let canUse (v : Var) : Bool := !keep v && (reapply.find v).isNone
  let eqn : Fla T := .eq (.var e.1) e.2
  if keep e.1 then
    match e.2 with
    | .var v =>
      if canUse v then (reapply ++ [(v, .var e.1)], restore)
      else match A.shifted e.2 with
        | some (v, c) => if canUse v then (reapply ++ [(v, A.minus (.var e.1) c)], restore) else (reapply, restore ++ [eqn])
        | none => (reapply, restore ++ [eqn])
    | rhs => match A.shifted rhs with
      | some (v, c) => if canUse v then (reapply ++ [(v, A.minus (.var e.1) c)], restore) else (reapply, restore ++ [eqn])
      | none => (reapply, restore ++ [eqn])
  else if A.isInt e.1 && A.fractional e.2 then (reapply, restore ++ [eqn])
  else (reapply, restore)

/-- `tryEliminateVars(fla, logic, shouldKeepVar)` (`src/TermUtils.cc:30-108`). Values of `reapply` mention only kept
variables, so the final transitive closure does nothing. -/
def tryEliminate (O : SubstOracle T) (A : ArithOps T) (fuel : Nat) (keep : Var → Bool) (f : Fla T) : Option (Fla T) := do
  let (simplified, substs) ← extractLoop O fuel f []
  let (reapply, restore) := (closeSubsts substs).foldl (elimStep A keep) ([], [])
  let g := if restore.isEmpty then simplified else Fla.conj (restore ++ [simplified])
  return if reapply.isEmpty then g else varSubstitute g reapply

/-- `TrivialQuantifierElimination::tryEliminateVars(vars, fla)` (`src/TermUtils.cc:110-114`). -/
def tryEliminateVars (O : SubstOracle T) (A : ArithOps T) (fuel : Nat) (vars : List Var) (f : Fla T) : Option (Fla T) :=
  if vars.isEmpty then some f else tryEliminate O A fuel (fun x => !decide (x ∈ vars)) f

/-- `TrivialQuantifierElimination::tryEliminateVarsExcept(vars, fla)` (`src/TermUtils.cc:116-124`). -/
def tryEliminateVarsExcept (O : SubstOracle T) (A : ArithOps T) (fuel : Nat) (vars : List Var) (f : Fla T) :
    Option (Fla T) :=
  tryEliminate O A fuel (fun x => decide (x ∈ vars)) f

end Golem
