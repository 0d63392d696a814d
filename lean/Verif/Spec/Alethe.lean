/-!
Alethe proofs over integers: terms, their values, and what it means that a step of a proof is right.

This file does not depend on the model of the code that prints proofs.
-/

namespace Golem
namespace Alethe

abbrev Str := List Char

inductive OpSym where | eq | lt | le | gt | ge | and | or | not | ite | add | sub | mul | mod | div | imp
deriving DecidableEq, Repr

/-- The names that a proof introduces: `@a3` for an assumption, `@i3` for an instance, `@LHS3` for a left-hand side, `@T3` for a term. -/
inductive Name where
  | a (n : Nat)
  | i (n : Nat)
  | lhs (n : Nat)
  | t (n : Nat)
deriving DecidableEq, Repr

inductive Sort' where | int | bool
deriving DecidableEq, Repr

/-- Terms; `app` is a predicate. `named t s` is `(! t :named s)`. -/
inductive Term where
  | num (n : Int)
  | bool (b : Bool)
  | var (s : Str) (k : Sort')
  | name (s : Name)
  | op (o : OpSym) (args : List Term)
  | app (f : Str) (args : List Term)
  | named (t : Term) (s : Name)
  | all (xs : List (Str × Sort')) (body : Term)

/-! ### Values -/

inductive Val where
  | int (n : Int)
  | bool (b : Bool)
deriving DecidableEq, Repr

def Val.toInt : Val → Int
  | .int n => n
  | .bool _ => 0

def Val.toBool : Val → Bool
  | .int _ => false
  | .bool b => b

/-- An interpretation, of the operators as well. -/
structure Interp where
  opv : OpSym → List Val → Val
  app : Str → List Val → Bool
  varI : Str → Int
  varB : Str → Bool
  name : Name → Val

open Classical in
mutual
/-- The value of a term. -/
noncomputable def eval (I : Interp) : Term → Val
  | .num n => .int n
  | .bool b => .bool b
  | .var s .int => .int (I.varI s)
  | .var s .bool => .bool (I.varB s)
  | .name s => I.name s
  | .op o args => I.opv o (evals I args)
  | .app f args => .bool (I.app f (evals I args))
  | .named t _ => eval I t
  | .all xs b => .bool (decide (∀ (wi : Str → Int) (wb : Str → Bool), (∀ x, (x, .int) ∉ xs → wi x = I.varI x) →
      (∀ x, (x, .bool) ∉ xs → wb x = I.varB x) → (eval { I with varI := wi, varB := wb } b).toBool = true))
noncomputable def evals (I : Interp) : List Term → List Val
  | [] => []
  | t :: l => eval I t :: evals I l
end

/-- The operators as SMT-LIB defines them (division and remainder by zero are left open elsewhere). -/
def stdOp : OpSym → List Val → Val
  | .eq, [a, b] => .bool (decide (a = b))
  | .lt, [a, b] => .bool (decide (a.toInt < b.toInt))
  | .le, [a, b] => .bool (decide (a.toInt ≤ b.toInt))
  | .gt, [a, b] => .bool (decide (a.toInt > b.toInt))
  | .ge, [a, b] => .bool (decide (a.toInt ≥ b.toInt))
  | .and, l => .bool (l.all Val.toBool)
  | .or, l => .bool (l.any Val.toBool)
  | .not, [a] => .bool (!a.toBool)
  | .ite, [c, a, b] => if c.toBool then a else b
  | .add, l => .int ((l.map Val.toInt).sum)
  | .sub, [a, b] => .int (a.toInt - b.toInt)
  | .mul, [a, b] => .int (a.toInt * b.toInt)
  | .mod, [a, b] => .int (a.toInt % b.toInt)
  | .div, [a, b] => .int (a.toInt / b.toInt)
  | .imp, [a, b] => .bool (!a.toBool || b.toBool)
  | _, _ => .bool false

/-- Everything is standard. -/
def Std (I : Interp) : Prop := I.opv = stdOp

/-- Only equality is standard. -/
def EqStd (I : Interp) : Prop := I.opv .eq = stdOp .eq

/-- Equality and the connectives that clauses are made of are standard. -/
def LogStd (I : Interp) : Prop := ∀ o ∈ [OpSym.eq, .not, .imp, .or], I.opv o = stdOp o

/-! ### Proofs -/

structure Step where
  assume : Bool
  clause : List Term
  rule : String
  premises : List Nat
  args : List Term

/-- Some literal of the clause is true. -/
def Holds (I : Interp) (c : List Term) : Prop := ∃ t ∈ c, (eval I t).toBool = true

mutual
/-- The names defined in a term. -/
def defs : Term → List (Name × Term)
  | .op _ args => defss args
  | .app _ args => defss args
  | .named t s => (s, t) :: defs t
  | .all _ b => defs b
  | _ => []
def defss : List Term → List (Name × Term)
  | [] => []
  | t :: l => defs t ++ defss l
end

/-- The names have the values of the terms they stand for. -/
def Respects (I : Interp) (ss : List Step) : Prop := ∀ s ∈ ss, ∀ d ∈ defss s.clause, I.name d.1 = eval I d.2

/-- The interpretations for which a rule must be right: congruence and transitivity may use nothing but equality; resolution and the rules
that make clauses of formulas nothing but the meaning of the connectives. The other rules have no premises. -/
def Scope (rule : String) (I : Interp) : Prop :=
  if rule ∈ ["cong", "trans"] then EqStd I
  else if rule ∈ ["resolution", "equiv1", "equiv2", "implies", "or"] then LogStd I
  else Std I

/-- Step number `k` cites earlier steps only, and follows from those that it cites. -/
def StepOk (ss : List Step) (k : Nat) : Prop := ∀ s, ss[k]? = some s → s.assume = false →
  (∀ p ∈ s.premises, p < k) ∧ (s.premises ≠ [] → s.rule ∈ ["cong", "trans", "resolution", "equiv1", "equiv2", "implies", "or"]) ∧
  ∀ I : Interp, Scope s.rule I → Respects I ss → (∀ p ∈ s.premises, ∀ s', ss[p]? = some s' → Holds I s'.clause) → Holds I s.clause

/-- The proof is right. -/
def Correct (ss : List Step) : Prop := ∀ k, StepOk ss k


/-! ### Closed terms -/

/-- The constant for a value. -/
def lit : Val → Term
  | .int n => .num n
  | .bool b => .bool b

def ints : List Val → Option (List Int)
  | [] => some []
  | .int n :: l => (ints l).map (n :: ·)
  | .bool _ :: _ => none

def bools : List Val → Option (List Bool)
  | [] => some []
  | .bool b :: l => (bools l).map (b :: ·)
  | .int _ :: _ => none

/-- The operators, on values of the right sorts; not for division by zero, and not for the numbers of arguments that the proof printer
does not know. -/
def opVal : OpSym → List Val → Option Val
  | .eq, [.int a, .int b] => some (.bool (decide (a = b)))
  | .eq, [.bool a, .bool b] => some (.bool (decide (a = b)))
  | .lt, [.int a, .int b] => some (.bool (decide (a < b)))
  | .le, [.int a, .int b] => some (.bool (decide (a ≤ b)))
  | .gt, [.int a, .int b] => some (.bool (decide (b < a)))
  | .ge, [.int a, .int b] => some (.bool (decide (b ≤ a)))
  | .and, l => (bools l).map fun bs => .bool (bs.all id)
  | .or, l => (bools l).map fun bs => .bool (bs.any id)
  | .not, [.bool a] => some (.bool (!a))
  | .add, v :: l => (ints (v :: l)).map fun ns => .int ns.sum
  | .sub, [.int a, .int b] => some (.int (a - b))
  | .mul, [.int a, .int b] => some (.int (a * b))
  | .mod, [.int a, .int b] => if b = 0 then none else some (.int (a % b))
  | .div, [.int a, .int b] => if b = 0 then none else some (.int (a / b))
  | _, _ => none

mutual
/-- The value of a closed term without predicates. -/
def value : Term → Option Val
  | .num n => some (.int n)
  | .bool b => some (.bool b)
  | .op .ite [c, a, b] =>
    match value c with
    | some (.bool true) => value a
    | some (.bool false) => value b
    | _ => none
  | .op o args => (values args).bind (opVal o)
  | _ => none
def values : List Term → Option (List Val)
  | [] => some []
  | t :: l =>
    match value t, values l with
    | some v, some vs => some (v :: vs)
    | _, _ => none
end

end Alethe
end Golem
