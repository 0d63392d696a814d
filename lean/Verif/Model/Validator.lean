import Verif.Model.Graph
import Verif.Model.Smt

/-!
`src/Validator.cc`.
-/

namespace Golem
variable {T : Theory}

/-- `Validator::Result` (`src/Validator.h:23`); `ub` marks an out-of-range access that release builds do not check. -/
inductive VResult where
  | validated | notValidated | ub
deriving DecidableEq, Repr

/-- `DerivationStep` (`src/Witnesses.h:41-46`). Facts are predicates applied to constants
(`assert` in `src/Validator.cc:99`). `clauseId = none` is `static_cast<id_t>(-1)`, the id of the initial step
(`src/Witnesses.cc:103`, `src/engine/Common.cc:23`), which no edge has. -/
structure DStep (T : Theory) where
  premises : List Nat
  fact : Fact T
  clauseId : Option Nat
deriving DecidableEq

/-- First loop of `validateValidityWitness` (`src/Validator.cc:32-43`): definitions only mention the arguments. -/
def defsClosed (R : PRepr) (D : Defs T) : Bool :=
  D.all fun (p, d) => d.vars.all fun x => decide (x ∈ R.baseVars p)

/-- Versioned interpretations of the sources of an edge (`src/Validator.cc:61-67`); `none` = missing definition. -/
def bodyInterps (D : Defs T) : List (Pred × Nat) → Option (List (Fla T))
  | [] => some []
  | (p, i) :: ps => do
    let d ← D.get p
    let rest ← bodyInterps D ps
    return d.rename (toSrc i) :: rest

/-- The query for one edge (`src/Validator.cc:57-72`). -/
def edgeQuery (D : Defs T) (e : Edge T) : Option (Fla T) := do
  let body ← bodyInterps D (instances e.src)
  let head ← D.get e.tgt
  return .and (Fla.conj (e.fla :: body)) (.not (head.rename toTgt))

/-- Loop over the edges (`src/Validator.cc:56-85`). -/
def validateEdges (S : Smt T) (D : Defs T) : Graph T → VResult
  | [] => .validated
  | e :: es =>
    match edgeQuery D e with
    | none => .notValidated
    | some q => if S.check [q] = .unsat then validateEdges S D es else .notValidated

/-- `Validator::validateValidityWitness` (`src/Validator.cc:25-87`). -/
def validateValidityWitness (S : Smt T) (R : PRepr) (G : Graph T) (D : Defs T) : VResult :=
  if defsClosed R D then validateEdges S D G else .notValidated

/-- `TermUtils::mapFromPredicate(domain, codomain)` (`src/TermUtils.h:129-139`) with the symbol and arity assertions
compiled out; `none` when the domain is longer than the codomain (read past the end). -/
def mapFromPredicate : List Var → List T.Val → Option (SubstMap T)
  | [], _ => some []
  | _ :: _, [] => none
  | x :: xs, v :: vs => do return (x, .const v) :: (← mapFromPredicate xs vs)

/-- Loop over the sources in `validateStep` (`src/Validator.cc:104-110`); `none` = out-of-range access. -/
def fillSources (R : PRepr) (ds : List (DStep T)) : List (Pred × Nat) → List Nat → Option (SubstMap T)
  | [], _ => some []
  | _ :: _, [] => none
  | (p, i) :: ps, j :: js => do
    let d ← ds[j]?
    let m ← mapFromPredicate (R.srcVars p i) d.fact.2
    let rest ← fillSources R ds ps js
    return m ++ rest

/-- `validateStep` (`src/Validator.cc:90-122`). Neither the order of the premises nor (without assertions) the predicate
symbols of the facts are checked. -/
def validateStep (S : Smt T) (R : PRepr) (G : Graph T) (ds : List (DStep T)) (i : Nat) : VResult :=
  match ds[i]? with
  | none => .ub
  | some d =>
    match d.clauseId.bind G.find with
    | none => .ub
    | some e =>
      match fillSources R ds (instances e.src) d.premises with
      | none => .ub
      | some m =>
        match mapFromPredicate (R.tgtVars e.tgt) d.fact.2 with
        | none => .ub
        | some m' =>
          let c := varSubstitute e.fla (m ++ m')
          if c = .tt then .validated
          else if c = .ff then .notValidated
          else if S.check [c] = .sat then .validated else .notValidated

/-- The loop `for i in 1..size` (`src/Validator.cc:141-144`). -/
def validateStepsFrom (S : Smt T) (R : PRepr) (G : Graph T) (ds : List (DStep T)) : Nat → Nat → VResult
  | _, 0 => .validated
  | i, k + 1 =>
    match validateStep S R G ds i with
    | .validated => validateStepsFrom S R G ds (i + 1) k
    | r => r

/-- `Validator::validateInvalidityWitness` (`src/Validator.cc:124-146`). -/
def validateInvalidityWitness (S : Smt T) (R : PRepr) (G : Graph T) (ds : List (DStep T)) : VResult :=
  match ds.head?, ds.getLast? with
  | some d0, some dl =>
    if d0.fact ≠ trueFact then .notValidated
    else if dl.fact ≠ falseFact then .notValidated
    else validateStepsFrom S R G ds 1 (ds.length - 1)
  | _, _ => .notValidated

end Golem

namespace Golem
variable {T : Theory}

/-- `VerificationAnswer` (`src/Witnesses.h:128`). -/
inductive VAnswer where
  | safe | unsafeAns | unknown
deriving DecidableEq, Repr

/-- `witness_t` (`src/Witnesses.h:129`). -/
inductive Witness (T : Theory) where
  | none
  | validity (D : Defs T)
  | invalidity (ds : List (DStep T))

/-- `VerificationResult` (`src/Witnesses.h:131-160`). -/
structure VerificationResult (T : Theory) where
  answer : VAnswer
  witness : Witness T

/-- `Validator::validate` (`src/Validator.cc:13-24`). A witness of the wrong kind makes `std::get` throw: `ub`. -/
def validate (S : Smt T) (R : PRepr) (G : Graph T) (r : VerificationResult T) : VResult :=
  match r.witness with
  | .none => .notValidated
  | .validity D =>
    match r.answer with
    | .safe => validateValidityWitness S R G D
    | .unsafeAns => .ub
    | .unknown => .notValidated
  | .invalidity ds =>
    match r.answer with
    | .safe => .ub
    | .unsafeAns => validateInvalidityWitness S R G ds
    | .unknown => .notValidated

end Golem
