import Verif.Spec.Alethe

/-!
What a proof is made from: clauses and a derivation of `false`. This file does not depend on the model of the code that prints proofs.
-/

namespace Golem
namespace Alethe

def Val.sort : Val → Sort'
  | .int _ => .int
  | .bool _ => .bool

/-- The values of the variables of a clause. -/
abbrev Inst := List (Str × Val)

mutual
/-- The value of a term without predicates, given the values of the variables. -/
def valueIn (σ : Inst) : Term → Option Val
  | .num n => some (.int n)
  | .bool b => some (.bool b)
  | .var s k => (σ.lookup s).bind fun v => if v.sort = k then some v else none
  | .op .ite [c, a, b] =>
    match valueIn σ c with
    | some (.bool true) => valueIn σ a
    | some (.bool false) => valueIn σ b
    | _ => none
  | .op o args => (valuesIn σ args).bind (opVal o)
  | _ => none
def valuesIn (σ : Inst) : List Term → Option (List Val)
  | [] => some []
  | t :: l =>
    match valueIn σ t, valuesIn σ l with
    | some v, some vs => some (v :: vs)
    | _, _ => none
end

mutual
/-- The variables of a term without quantifiers. -/
def vars : Term → List (Str × Sort')
  | .var s k => [(s, k)]
  | .op _ args => varss args
  | .app _ args => varss args
  | _ => []
def varss : List Term → List (Str × Sort')
  | [] => []
  | t :: l => vars t ++ varss l
end

mutual
/-- No quantifiers and no names. -/
def plain : Term → Bool
  | .op _ args => plains args
  | .app _ args => plains args
  | .name _ => false
  | .named _ _ => false
  | .all _ _ => false
  | _ => true
def plains : List Term → Bool
  | [] => true
  | t :: l => plain t && plains l
end

mutual
/-- No names. -/
def noNames : Term → Bool
  | .op _ args => noNamess args
  | .app _ args => noNamess args
  | .name _ => false
  | .named _ _ => false
  | .all _ b => noNames b
  | _ => true
def noNamess : List Term → Bool
  | [] => true
  | t :: l => noNames t && noNamess l
end

/-- The fact that a predicate becomes, given the values of the variables. -/
def atomFact (σ : Inst) : Term → Option Term
  | .app f args => (valuesIn σ args).map fun vs => .app f (vs.map lit)
  | .var s .bool => if (σ.lookup s).isNone then some (.var s .bool) else none
  | _ => none

def headFact (σ : Inst) : Term → Option Term
  | .bool false => some (.bool false)
  | t => atomFact σ t

/-- The facts that the predicates of a body become; the constraints must be true. -/
def bodyFacts (σ : Inst) : List Term → Option (List Term)
  | [] => some []
  | t :: l =>
    if valueIn σ t = some (.bool true) then bodyFacts σ l
    else
      match atomFact σ t, bodyFacts σ l with
      | some f, some fs => some (f :: fs)
      | _, _ => none

def conjuncts : Term → List Term
  | .op .and l => l
  | t => [t]

/-- A step of a derivation: the number of the clause, the numbers of the steps for its body (`0` stands for `true`), the fact, the values of
the variables. -/
structure Coarse where
  clause : Nat
  premises : List Nat
  fact : Term
  σ : Inst

/-- Step `i` applies a clause `∀ xs. l → r` correctly. -/
def Applies (assertions : List Term) (ds : List Coarse) (i : Nat) (d : Coarse) : Prop :=
  ∃ xs l r, assertions[d.clause]? = some (.all xs (.op .imp [l, r])) ∧ xs ≠ [] ∧ plain l = true ∧ plain r = true ∧
    -- the values are for variables of the clause, of the right sorts
    (∀ x ∈ vars l ++ vars r, ∀ v, d.σ.lookup x.1 = some v → x ∈ xs ∧ v.sort = x.2) ∧
    -- the quantified variables that occur have values
    (∀ x ∈ xs, (∃ k, (x.1, k) ∈ vars l ++ vars r) → (d.σ.lookup x.1).isSome = true) ∧
    ((∀ x ∈ xs, ¬ ∃ k, (x.1, k) ∈ vars l ++ vars r) → d.σ = []) ∧
    d.premises ≠ [] ∧ (∀ p ∈ d.premises, p < i) ∧
    (∃ fs, bodyFacts d.σ (conjuncts l) = some fs ∧ fs.map some = (d.premises.filter (· ≠ 0)).map fun p => ds[p]?.map Coarse.fact) ∧
    headFact d.σ r = some d.fact

/-- A derivation of `false`: the first step stands for `true`, the others apply clauses. -/
def Derivation (assertions : List Term) (ds : List Coarse) : Prop :=
  (∃ d, ds[0]? = some d ∧ d.premises = []) ∧ (∀ i d, 0 < i → ds[i]? = some d → Applies assertions ds i d) ∧
  1 < ds.length ∧ ∀ d, ds[ds.length - 1]? = some d → d.fact = .bool false

end Alethe
end Golem
