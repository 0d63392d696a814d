import Verif.Spec.Chc

/-!
The front end: from the syntax tree of an SMT-LIB term to a term of the logic.

Models: `src/ChcInterpreter.h:24-86` (`LetBinder`, `LetRecords`), `src/ChcInterpreter.cc:28-43` (`addLetFrame`), `270-391`
(`parseTopLevelAssertion`, `parseTerm`).
-/

namespace Golem
namespace Front

/-- A sort, as the reference number of the interned sort (`SRef::x`). -/
abbrev Srt := Nat

/-- The sort `Bool` (`logic.getSort_bool()`). -/
def boolSort : Srt := 0

/-- A term of OpenSMT (`PTRef`), Boolean and non-Boolean alike. A variable is a name with a sort; `pred p args` is the
application of the `p`-th symbol declared by `declare-fun`; the other symbols are the Boolean connectives, equality and the
theory's functions (`Theory.ap1` to `ap3`). Simplification: theory functions of arity at most three. -/
inductive PT (T : Theory) where
  | var (x : String) (s : Srt)
  | const (v : T.Val)
  | ap1 (f : T.Sym) (a : PT T)
  | ap2 (f : T.Sym) (a b : PT T)
  | ap3 (f : T.Sym) (a b c : PT T)
  | pred (p : Nat) (args : List (PT T))
  | tt
  | ff
  | eq (a b : PT T)
  | not (t : PT T)
  | and (ts : List (PT T))
  | or (ts : List (PT T))

/-- The syntax tree of a term (`ASTNode`): `num` = `TERM_T` (a literal), `qid` = `QID_T`, `lqid` = `LQID_T`,
`letE` = `LET_T` (the names and the terms of the bindings, in order), `all` = `FORALL_T`, `other` = any other node type.
Simplification: the two parts of a binding are kept in two lists. -/
inductive Ast where
  | num (c : String)
  | qid (name : String)
  | lqid (name : String) (args : List Ast)
  | letE (names : List String) (vals : List Ast) (body : Ast)
  | all (vars : List (String × Srt)) (body : Ast)
  | other

section
variable {α : Type}

/-- `LetBinder` (`src/ChcInterpreter.h:24-46`): the current value and the shadowed ones, the latest first. -/
structure LetBinder (α : Type) where
  current : α
  shadowed : List α

/-- `LetRecords` (`src/ChcInterpreter.h:48-86`). The map `letBinders` is a function; the two vectors are kept in reverse
(the head is the back). The keys are compared as strings; who owns the character arrays is not modelled. -/
structure LetRecords (α : Type) where
  binders : String → Option (LetBinder α)
  known : List String
  limits : List Nat

/-- A fresh `LetRecords`. -/
def LetRecords.empty : LetRecords α := ⟨fun _ => none, [], []⟩

/-- `getOrUndef` (`src/ChcInterpreter.h:56-60`). -/
def LetRecords.get (r : LetRecords α) (x : String) : Option α := (r.binders x).map (·.current)

/-- `pushFrame` (`src/ChcInterpreter.h:61`). -/
def LetRecords.pushFrame (r : LetRecords α) : LetRecords α := { r with limits := r.known.length :: r.limits }

/-- One round of the loop of `popFrame` (`src/ChcInterpreter.h:66-74`): the last known binder goes. -/
def LetRecords.popBinder (r : LetRecords α) : LetRecords α :=
  match r.known with
  | [] => r
  | x :: known =>
    { r with
      known := known
      binders := fun y => if y = x then
          match r.binders x with
          | some ⟨_, v :: vs⟩ => some ⟨v, vs⟩
          | _ => none
        else r.binders y }

/-- The loop of `popFrame` (`src/ChcInterpreter.h:65-75`), for the `n` binders above the limit. -/
def LetRecords.popBinders (r : LetRecords α) : Nat → LetRecords α
  | 0 => r
  | n + 1 => r.popBinder.popBinders n

/-- `popFrame` (`src/ChcInterpreter.h:62-76`). -/
def LetRecords.popFrame (r : LetRecords α) : LetRecords α :=
  match r.limits with
  | [] => r
  | limit :: limits => { r with limits := limits }.popBinders (r.known.length - limit)

/-- `addBinding` (`src/ChcInterpreter.h:78-85`). -/
def LetRecords.addBinding (r : LetRecords α) (x : String) (v : α) : LetRecords α :=
  { r with
    known := x :: r.known
    binders := fun y => if y = x then
        match r.binders x with
        | none => some ⟨v, []⟩
        | some b => some ⟨v, b.current :: b.shadowed⟩
      else r.binders y }

/-- The loop over the bindings in `addLetFrame` (`src/ChcInterpreter.cc:35-41`): `reserved` is
`hasSym(name) && noScoping`. The flag tells whether all were added. -/
def LetRecords.addAll (r : LetRecords α) (reserved : String → Bool) : List (String × α) → Bool × LetRecords α
  | [] => (true, r)
  | (x, v) :: bs => if reserved x then (false, r) else (r.addBinding x v).addAll reserved bs

end

/-- `addLetFrame` (`src/ChcInterpreter.cc:28-43`). -/
def addLetFrame {α : Type} (r : LetRecords α) (reserved : String → Bool) (names : List String) (vals : List α) :
    Bool × LetRecords α :=
  if names.length > 1 ∧ ¬ names.Nodup then (false, r) else r.addAll reserved (names.zip vals)

/-- The declared predicates: name and number of arguments; the position is the number of the symbol
(`logic.declareFun`, `src/ChcInterpreter.cc:174`). Simplification: symbols are told apart by name and arity, not by the sorts
of the arguments. -/
abbrev Decls := List (String × Nat)

/-- What the parser asks of the logic: `lit` is `mkConst`, `theory` is `resolveTerm` for names that are not declared
predicates (`none` when it throws), `reserved` is `hasSym(name) && noScoping`, `mkAnd` and `mkOr` are the
(simplifying) constructors of the logic. -/
structure Logic (T : Theory) where
  lit : String → T.Val
  theory : String → List (PT T) → Option (PT T)
  reserved : String → Bool
  mkAnd : List (PT T) → PT T
  mkOr : List (PT T) → PT T

/-- The number of a declared symbol. -/
def Decls.find (D : Decls) (f : String) (n : Nat) : Option Nat := D.findIdx? fun d => d.1 == f && d.2 == n

variable {T : Theory}

/-- `logic.resolveTerm` (called in `src/ChcInterpreter.cc:318, 339`). -/
def Logic.resolve (L : Logic T) (D : Decls) (f : String) (args : List (PT T)) : Option (PT T) :=
  match D.find f args.length with
  | some p => some (.pred p args)
  | none => L.theory f args

/-- `logic.mkVar` (called in `src/ChcInterpreter.cc:300`): variables are symbols without arguments, so a Boolean variable
with the name of a declared predicate without arguments is that predicate. -/
def mkVar (D : Decls) (x : String) (s : Srt) : PT T :=
  match D.find x 0 with
  | some p => if s = boolSort then .pred p [] else .var x s
  | none => .var x s

/-- How parsing ends: with a term (or a list of terms), with `PTRef_Undef` or an exception of the logic (undefined behaviour
behind an `assert`), or with an exception for a quantifier below the top (`src/ChcInterpreter.cc:385`) or for an unknown node. -/
inductive PRes (α : Type) where
  | ok (a : α)
  | undef
  | quantified
  | unknown

section
variable (L : Logic T) (D : Decls)

mutual
/-- `parseTerm` (`src/ChcInterpreter.cc:310-391`). The records are threaded through; the guard of a `let` pops its frame on
every exit. -/
def parseTerm : Ast → LetRecords (PT T) → PRes (PT T) × LetRecords (PT T)
  | .num c, r => (.ok (.const (L.lit c)), r)
  | .qid x, r =>
    match r.get x with
    | some t => (.ok t, r)
    | none =>
      match L.resolve D x [] with
      | some t => (.ok t, r)
      | none => (.undef, r)
  | .lqid f args, r =>
    match parseTerms args r with
    | (.ok ts, r') =>
      match L.resolve D f ts with
      | some t => (.ok t, r')
      | none => (.undef, r')
    | (.undef, r') => (.undef, r')
    | (.quantified, r') => (.quantified, r')
    | (.unknown, r') => (.unknown, r')
  | .letE names vals body, r =>
    match parseTerms vals r.pushFrame with
    | (.ok ts, r1) =>
      match addLetFrame r1 L.reserved names ts with
      | (true, r2) =>
        match parseTerm body r2 with
        | (res, r3) => (res, r3.popFrame)
      | (false, r2) => (.undef, r2.popFrame)
    | (.undef, r1) => (.undef, r1.popFrame)
    | (.quantified, r1) => (.quantified, r1.popFrame)
    | (.unknown, r1) => (.unknown, r1.popFrame)
  | .all _ _, r => (.quantified, r)
  | .other, r => (.unknown, r)

/-- The loops over arguments and bound terms (`src/ChcInterpreter.cc:328-335, 364-371`). -/
def parseTerms : List Ast → LetRecords (PT T) → PRes (List (PT T)) × LetRecords (PT T)
  | [], r => (.ok [], r)
  | a :: as, r =>
    match parseTerm a r with
    | (.ok t, r1) =>
      match parseTerms as r1 with
      | (.ok ts, r2) => (.ok (t :: ts), r2)
      | (.undef, r2) => (.undef, r2)
      | (.quantified, r2) => (.quantified, r2)
      | (.unknown, r2) => (.unknown, r2)
    | (.undef, r1) => (.undef, r1)
    | (.quantified, r1) => (.quantified, r1)
    | (.unknown, r1) => (.unknown, r1)
end

/-- The loop over the quantified variables (`src/ChcInterpreter.cc:295-302`): one frame with one binding for each. -/
def bindVars (r : LetRecords (PT T)) : List (String × Srt) → LetRecords (PT T)
  | [] => r
  | (x, s) :: vs => bindVars (r.pushFrame.addBinding x (mkVar D x s)) vs

/-- The destructor of `QuantifierHack` (`src/ChcInterpreter.cc:283-287`). -/
def popFrames (r : LetRecords (PT T)) : Nat → LetRecords (PT T)
  | 0 => r
  | n + 1 => popFrames r.popFrame n

/-- `parseTopLevelAssertion` (`src/ChcInterpreter.cc:270-308`). -/
def parseTop : Ast → LetRecords (PT T) → PRes (PT T) × LetRecords (PT T)
  | .all vs body, r =>
    match parseTop body (bindVars D r vs) with
    | (res, r1) => (res, popFrames r1 vs.length)
  | a, r => parseTerm L D a r
end

end Front
end Golem
