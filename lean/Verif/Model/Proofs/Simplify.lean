import Verif.Spec.Alethe

/-!
Evaluation of ground terms with proof steps (`src/proofs/ProofSteps.cc:326-622`), for integers.

A failed assertion, an exception and undefined behaviour are `none`. Numbers are values: the text of a number that the
printer makes is determined by it (`src/proofs/ProofSteps.cc:35-54`); constants written otherwise in the input, as `(- 0)`, are not modelled. Reals (`/`) are not modelled. The name `@T3` is `.t 3`.
-/

namespace Golem
namespace Alethe

/-- The part of `StepHandler` that changes (`src/proofs/ProofSteps.h:93-98`); the current step number is the number of steps. -/
structure St where
  steps : List Step
  nameIndex : Nat
  trueStep : Nat

/-- `recordStep` (`src/proofs/ProofSteps.cc:154-156`). -/
def St.record (st : St) (clause : List Term) (rule : String) (premises : List Nat) : St :=
  { st with steps := st.steps ++ [⟨false, clause, rule, premises, []⟩] }

/-- `lastStep` (`src/proofs/ProofSteps.h:140`). -/
def St.last (st : St) : Nat := st.steps.length - 1

/-- The equations of the steps (`src/proofs/ProofSteps.cc:620`). -/
def eqn (a b : Term) : Term := .op .eq [a, b]

/-- `negate` (`src/proofs/ProofSteps.cc:27-29`). -/
def neg (t : Term) : Term := .op .not [t]

/-- `argAsNumber` (`src/proofs/ProofSteps.cc:477-489`). -/
def asNum : Term → Option Int
  | .num n => some n
  | _ => none

/-- The arguments of a sum (`src/proofs/ProofSteps.cc:582-586`). -/
def asNums : List Term → Option (List Int)
  | [] => some []
  | t :: l =>
    match asNum t, asNums l with
    | some n, some ns => some (n :: ns)
    | _, _ => none

/-- A Boolean constant (`src/proofs/ProofSteps.cc:560-567`). -/
def asBool : Term → Option Bool
  | .bool b => some b
  | _ => none

/-- `smtlib_divmod` (`src/proofs/ProofSteps.cc:463-469`): the quotient is rounded down for a positive divisor, up for a negative one. -/
def divmod (m n : Int) : Int × Int :=
  let q := if n > 0 then m.fdiv n else -((-m).fdiv n)
  (q, m - n * q)

/-- Is the term a formula? Only well-sorted terms are modelled: a conjunct that is not a formula is `none` below. -/
def isFormula : Term → Bool
  | .bool _ => true
  | .var _ k => decide (k = .bool)
  | .app _ _ => true
  | .op o _ => decide (o ∈ [OpSym.eq, .lt, .le, .gt, .ge, .and, .or, .not, .imp])
  | _ => false

/-- The arguments of `and` that stay; `inl t`: the constant `false` was met (`src/proofs/ProofSteps.cc:534-549`). -/
def andArgs : List Term → Option (Term ⊕ List Term)
  | [] => some (.inr [])
  | t :: l =>
    match asBool t with
    | some true => andArgs l
    | some false => some (.inl t)
    | none =>
      if isFormula t then
        match andArgs l with
        | some (.inl u) => some (.inl u)
        | some (.inr r) => some (.inr (t :: r))
        | none => none
      else none

/-- The value and the rule for the operators that need one step (`src/proofs/ProofSteps.cc:499-619`). -/
def evalDirect : OpSym → List Term → Option (Term × String)
  | .eq, [.num m, .num n] => some (.bool (decide (m = n)), "eq_simplify")
  | .eq, [.bool a, .bool b] => some (.bool (decide (a = b)), "equiv_simplify")
  | .lt, [.num m, .num n] => some (.bool (decide (m < n)), "comp_simplify")
  | .le, [.num m, .num n] => some (.bool (decide (m < n ∨ m = n)), "comp_simplify")
  | .and, args =>
    match andArgs args with
    | some (.inl t) => some (t, "and_simplify")
    | some (.inr []) => some (.bool true, "and_simplify")
    | some (.inr [t]) => some (t, "and_simplify")
    | some (.inr l) => some (.op .and l, "and_simplify")
    | none => none
  | .or, args =>
    if args.any (fun t => asBool t == some true) then some (.bool true, "or_simplify")
    else if args.all (fun t => asBool t == some false) then some (.bool false, "or_simplify")
    else none
  | .not, [.bool b] => some (.bool (!b), "not_simplify")
  | .ite, [.bool c, a, b] => some (if c then a else b, "ite_simplify")
  | .add, args => (asNums args).bind fun ns => if ns = [] then none else some (.num ns.sum, "sum_simplify")
  | .sub, [.num m, .num n] => some (.num (m - n), "minus_simplify")
  | .mul, [.num m, .num n] => some (.num (m * n), "prod_simplify")
  | .mod, [.num m, .num n] => if n = 0 then none else some (.num (divmod m n).2, "mod_simplify")
  | .div, [.num m, .num n] => if n = 0 then none else some (.num (divmod m n).1, "div_simplify")
  | _, _ => none

/-- One step that evaluates an operator (`src/proofs/ProofSteps.cc:620`). -/
def direct1 (o : OpSym) (args : List Term) (st : St) : Option (Term × St) :=
  match evalDirect o args with
  | some (t, rule) => some (t, st.record [eqn (.op o args) t] rule [])
  | none => none

/-- `simplifyOpDirect` (`src/proofs/ProofSteps.cc:473-622`). -/
def simplifyOpDirect (o : OpSym) (args : List Term) (st : St) : Option (Term × St) :=
  match o with
  | .gt =>
    let inner := Term.op .le args
    let st1 := st.record [eqn (.op .gt args) (neg inner)] "comp_simplify" []
    match direct1 .le args st1 with
    | none => none
    | some (c, st2) =>
      let st3 := st2.record [eqn (neg inner) (neg c)] "cong" [st2.last]
      match direct1 .not [c] st3 with
      | none => none
      | some (d, st4) => some (d, st4.record [eqn (.op .gt args) d] "trans" [st1.last, st3.last, st4.last])
  | .ge =>
    match args with
    | [a, b] =>
      let st1 := st.record [eqn (.op .ge args) (.op .le [b, a])] "comp_simplify" []
      match direct1 .le [b, a] st1 with
      | none => none
      | some (c, st2) => some (c, st2.record [eqn (.op .ge args) c] "trans" [st1.last, st2.last])
    | _ => none
  | o => direct1 o args st

/-- `SimplifyResult` (`src/proofs/ProofSteps.h:147`). -/
abbrev Result := Option (Term × Nat)

/-- The new arguments (`src/proofs/ProofSteps.cc:349-359`). -/
def newArgs : List Term → List Result → List Term
  | _ :: as, some (t, _) :: rs => t :: newArgs as rs
  | a :: as, none :: rs => a :: newArgs as rs
  | _, _ => []

/-- The premises of the congruence (`src/proofs/ProofSteps.cc:350-355`). -/
def congPremises (rs : List Result) : List Nat := rs.filterMap fun r => r.map Prod.snd

/-- `processResults` (`src/proofs/ProofSteps.cc:344-373`), after the simplified term has been made: the name under which the term is known
afterwards, and the state. -/
def processResults (term simplified : Term) (name : Option Name) (rs : List Result) (st : St) : Name × St :=
  match name with
  | some n => (n, st.record [eqn (.name n) simplified] "cong" (congPremises rs))
  | none => (.t st.nameIndex, { st.record [eqn (.named term (.t st.nameIndex)) simplified] "cong" (congPremises rs) with
      nameIndex := st.nameIndex + 1 })

/-- The first step of `shortCircuitSimplifyITE`, if the condition has changed (`src/proofs/ProofSteps.cc:421-427`). -/
def iteCong (ite ite' : Term) (res : Result) (st : St) : St :=
  match res with
  | some (_, k) => st.record [eqn ite ite'] "cong" [k]
  | none => st

mutual
/-- `simplify` (`src/proofs/ProofSteps.cc:326-410`) and `shortCircuitSimplifyITE` (`src/proofs/ProofSteps.cc:412-448`). -/
def simplify : Term → Option Name → St → Option (Result × St)
  | .num _, _, st => some (none, st)
  | .bool _, _, st => some (none, st)
  | .var _ _, _, st => some (none, st)
  | .name _, _, st => some (none, st)
  | .named _ _, _, _ => none
  | .all _ _, _, _ => none
  | .app f args, nm, st =>
    match simplifyArgs args st with
    | none => none
    | some (rs, st1) =>
      if rs.all Option.isNone then some (none, st1)
      else
        let t' := Term.app f (newArgs args rs)
        let st2 := (processResults (.app f args) t' nm rs st1).2
        some (some (t', st2.last), st2)
  | .op .ite [c, a, b], _, st =>
    match simplify c none st with
    | none => none
    | some (res, st1) =>
      let ite := Term.op .ite [c, a, b]
      let c' := (res.map Prod.fst).getD c
      let ite' := Term.op .ite [c', a, b]
      let st2 := iteCong ite ite' res st1
      let prem1 := if res.isSome then [st2.last] else []
      match c' with
      | .bool v =>
        let branch := if v then a else b
        let st3 := st2.record [eqn ite' branch] "ite_simplify" []
        let prem2 := prem1 ++ [st3.last]
        match (if v then simplify a none st3 else simplify b none st3) with
        | none => none
        | some (bres, st4) =>
          let simplified := (bres.map Prod.fst).getD branch
          let prem3 := prem2 ++ (bres.map Prod.snd).toList
          let st5 := if bres.isSome || res.isSome then st4.record [eqn ite simplified] "trans" prem3 else st4
          some (some (simplified, st5.last), st5)
      | _ => none
  | .op .ite _, _, _ => none
  | .op o args, nm, st =>
    match simplifyArgs args st with
    | none => none
    | some (rs, st1) =>
      if rs.all Option.isNone then
        match simplifyOpDirect o args st1 with
        | none => none
        | some (e, st2) => some (some (e, st2.last), st2)
      else
        let as := newArgs args rs
        let r := processResults (.op o args) (.op o as) nm rs st1
        match simplifyOpDirect o as r.2 with
        | none => none
        | some (e, st3) =>
          let st4 := st3.record [eqn (.name r.1) e] "trans" [r.2.last, st3.last]
          some (some (e, st4.last), st4)
/-- The arguments (`src/proofs/ProofSteps.cc:334-341`). -/
def simplifyArgs : List Term → St → Option (List Result × St)
  | [], st => some ([], st)
  | t :: l, st =>
    match simplify t none st with
    | none => none
    | some (r, st1) =>
      match simplifyArgs l st1 with
      | none => none
      | some (rs, st2) => some (r :: rs, st2)
end

end Alethe
end Golem
