import Verif.Model.Normalizer

/-!
The values of the variables of a clause in a step of a derivation: `StepHandler::getInstPairs` (`src/proofs/ProofSteps.cc:777-877`).

A failed assertion and an exception are `none`. Arguments that are not variables are left out of the pairs at the end
(`src/proofs/ProofSteps.cc:868-876`); here they never enter. The conversion of values to text (`printConstant`) is not modelled.
-/

namespace Golem
variable {T : Theory}

/-- The equalities for the renamed local variables (`src/Normalizer.cc:61-68`). -/
def auxEqs (counter : Nat) : List Var → List (NEq T)
  | [] => []
  | x :: xs => (.ver (.aux counter) 0, .var x) :: auxEqs (counter + 1) xs

/-- `normalizingEqualities` of a clause (`src/Normalizer.cc:26-37`). -/
def normalizingEqs (R : PRepr) (k : Nat) (c : Clause T) : List (NEq T) :=
  clauseEqs R c ++ auxEqs k (localVars R c (normalizedBody R c))

/-- The values found so far: of the variables of the normalized clause, and of those of the original one
(`src/proofs/ProofSteps.cc:783-785`). -/
structure IPairs (T : Theory) where
  after : List (Var × T.Val)
  before : List (Var × T.Val)

/-- A value for an original variable, unless there is one (`src/proofs/ProofSteps.cc:806-810, 859-862`). -/
def IPairs.note (st : IPairs T) (arg : Tm T) (val : T.Val) : IPairs T :=
  match arg with
  | .var x => if (st.before.lookup x).isSome then st else { st with before := st.before ++ [(x, val)] }
  | _ => st

/-- One argument: the loop over the equalities (`src/proofs/ProofSteps.cc:802-812`). -/
def IPairs.arg (eqs : List (NEq T)) (v : Var) (val : T.Val) (st : IPairs T) : IPairs T :=
  match eqs with
  | [] => st
  | (nv, t) :: rest =>
    if nv = v then IPairs.arg rest v val (({ st with after := st.after ++ [(nv, val)] } : IPairs T).note t val)
    else IPairs.arg rest v val st

/-- `processFormalArgumentsWithValues` (`src/proofs/ProofSteps.cc:798-814`). -/
def IPairs.args (eqs : List (NEq T)) : List Var → List T.Val → IPairs T → Option (IPairs T)
  | [], [], st => some st
  | v :: vs, a :: as, st => IPairs.args eqs vs as (IPairs.arg eqs v a st)
  | _, _, _ => none

/-- The premises (`src/proofs/ProofSteps.cc:816-825`), with the instance numbers. -/
def IPairs.premises (R : PRepr) (eqs : List (NEq T)) : List (Pred × Nat) → List (Fact T) → IPairs T → Option (IPairs T)
  | q :: qs, f :: fs, st =>
    match IPairs.args eqs (R.srcVars q.1 q.2) f.2 st with
    | some st' => IPairs.premises R eqs qs fs st'
    | none => none
  | _, _, st => some st

/-- The values of the auxiliary variables (`src/proofs/ProofSteps.cc:850-863`). -/
def IPairs.auxs (eqs : List (NEq T)) (M : Valuation T) : List Var → IPairs T → Option (IPairs T)
  | [], st => some st
  | v :: vs, st =>
    match eqs.find? fun e => decide (e.1 = v) with
    | none => none
    | some e => IPairs.auxs eqs M vs (st.note e.2 (M v))

/-- `getInstPairs` (`src/proofs/ProofSteps.cc:777-877`): `facts` are the facts of the premises other than `true`, `fact` the derived fact,
`label` the constraint of the clause in the graph; `solve` returns a model of a satisfiable formula. -/
def getInstPairs (solve : Fla T → Option (Valuation T)) (R : PRepr) (eqs : List (NEq T)) (label : Fla T) (facts : List (Fact T)) (fact : Fact T) :
    Option (List (Var × T.Val)) :=
  match IPairs.premises R eqs (instances (facts.map Prod.fst)) facts ⟨[], []⟩ with
  | none => none
  | some st1 =>
    match IPairs.args eqs (R.tgtVars fact.1) fact.2 st1 with
    | none => none
    | some st2 =>
      let auxVars := dedup (label.vars.filter fun x => !(st2.after.lookup x).isSome)
      if auxVars = [] then some st2.before
      else
        match solve (varSubstitute label (st2.after.map fun p => (p.1, .const p.2))) with
        | none => none
        | some M => (IPairs.auxs eqs M auxVars st2).map IPairs.before

end Golem
