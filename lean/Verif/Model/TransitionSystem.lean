import Verif.Model.Smt
import Verif.Spec.Reach
import Verif.Lemmas.Smt

/-!
Transition systems: `src/TransitionSystem.h`, `src/TransitionSystem.cc`, and the time machine
(`src/TermUtils.h:180-300`).
-/

namespace Golem
variable {T : Theory}

/-- `TimeMachine::sendVarThroughTime` (`src/TermUtils.h:214-226`): add `steps` to the version number. On a variable without
version the C++ code asserts (and would fail in `std::stoi`); here it is left unchanged. -/
def shift (k : Int) : Var → Var
  | .ver n j => .ver n (j + k)
  | .src n j => .src n (j + k)
  | x => x

/-- `TimeMachine::sendFlaThroughTime` (`src/TermUtils.h:276-281`). -/
def sendFla (f : Fla T) (k : Int) : Fla T := if k = 0 then f else f.rename (shift k)

/-- `TransitionSystem` with its `SystemType` (`src/TransitionSystem.h:16-76`). -/
structure TS (T : Theory) where
  stateVars : List Var
  auxVars : List Var
  init : Fla T
  trans : Fla T
  query : Fla T

/-- `nextStateVars` (`src/TransitionSystem.cc:77-78`). -/
def TS.nextVars (ts : TS T) : List Var := ts.stateVars.map (shift 1)

/-- `SystemType::isStateFormula` (`src/TransitionSystem.cc:88-93`). -/
def TS.IsStateFormula (ts : TS T) (f : Fla T) : Prop := ∀ x ∈ f.vars, x ∈ ts.stateVars ∨ x ∈ ts.auxVars

/-- `SystemType::isTransitionFormula` (`src/TransitionSystem.cc:95-103`). -/
def TS.IsTransitionFormula (ts : TS T) (f : Fla T) : Prop :=
  ∀ x ∈ f.vars, x ∈ ts.stateVars ∨ x ∈ ts.nextVars ∨ x ∈ ts.auxVars

/-- A variable of the current state: a name with version zero. -/
def Var.isCurrent : Var → Prop
  | .ver _ j => j = 0
  | .src _ j => j = 0
  | _ => False

instance (v : Var) : Decidable v.isCurrent := by
  cases v <;> simp only [Var.isCurrent] <;> infer_instance

/-- What `TransitionSystem::isWellFormed` checks (`src/TransitionSystem.cc:17-40`), together with what its callers
establish: all variables have version zero, state variables are distinct and are not auxiliary. -/
structure TS.WF (ts : TS T) : Prop where
  init : ts.IsStateFormula ts.init
  query : ts.IsStateFormula ts.query
  trans : ts.IsTransitionFormula ts.trans
  stateCur : ∀ x ∈ ts.stateVars, x.isCurrent
  auxCur : ∀ x ∈ ts.auxVars, x.isCurrent
  nodup : ts.stateVars.Nodup
  sep : ∀ x ∈ ts.stateVars, x ∉ ts.auxVars

/-- The auxiliary variables of init, transition and query are pairwise different (`toTransitionSystem` collects them from
three different edges, whose local variables have different names). -/
structure TS.AuxSep (ts : TS T) : Prop where
  it : ∀ x ∈ ts.auxVars, x ∈ ts.init.vars → x ∉ ts.trans.vars
  iq : ∀ x ∈ ts.auxVars, x ∈ ts.init.vars → x ∉ ts.query.vars
  tq : ∀ x ∈ ts.auxVars, x ∈ ts.trans.vars → x ∉ ts.query.vars

/-- No auxiliary variables in init and query: what `ensureNoAuxiliaryVariablesInInitAndQuery` establishes
(`src/TransformationUtils.cc:119-139`). -/
structure TS.NoAux (ts : TS T) : Prop where
  init : ∀ x ∈ ts.init.vars, x ∈ ts.stateVars
  query : ∀ x ∈ ts.query.vars, x ∈ ts.stateVars

/-- A state of the system: the values of the state variables, in order. -/
abbrev TS.State (T : Theory) := List T.Val

/-- What the formulas of a transition system mean. -/
def TS.sem (ts : TS T) : STS (TS.State T) where
  Init := fun s => ∃ ρ : Valuation T, ts.init.holds ρ ∧ ts.stateVars.map ρ = s
  Step := fun s t => ∃ ρ : Valuation T, ts.trans.holds ρ ∧ ts.stateVars.map ρ = s ∧ ts.nextVars.map ρ = t
  Bad := fun s => ∃ ρ : Valuation T, ts.query.holds ρ ∧ ts.stateVars.map ρ = s

/-- The set of states a formula over the state variables describes. -/
def TS.den (ts : TS T) (f : Fla T) : TS.State T → Prop := fun s =>
  ∃ ρ : Valuation T, f.holds ρ ∧ ts.stateVars.map ρ = s

/-- `f` mentions state variables only. -/
def TS.Over (ts : TS T) (f : Fla T) : Prop := ∀ x ∈ f.vars, x ∈ ts.stateVars

/-- `TransitionSystem::reverseTransitionRelation` (`src/TransitionSystem.cc:142-172`): three consecutive substitutions
through helper variables of version 2. -/
def TS.reverseTransition (ts : TS T) : Fla T :=
  let helperVars := ts.stateVars.map (shift 2)
  let m1 : SubstMap T := ts.stateVars.zip (helperVars.map Tm.var)
  let m2 : SubstMap T := ts.nextVars.zip (ts.stateVars.map Tm.var)
  let m3 : SubstMap T := helperVars.zip (ts.nextVars.map Tm.var)
  varSubstitute (varSubstitute (varSubstitute ts.trans m1) m2) m3

/-- `TransitionSystem::reverse` (`src/TransitionSystem.cc:134-140`). -/
def TS.reverse (ts : TS T) : TS T where
  stateVars := ts.stateVars
  auxVars := ts.auxVars
  init := ts.query
  trans := ts.reverseTransition
  query := ts.init

end Golem
