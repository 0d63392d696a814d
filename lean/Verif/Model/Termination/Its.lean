import Verif.Model.SExpr
import Verif.Model.Names
import Verif.Model.Termination.Solve

/-!
The front end for integer transition systems: `src/termination/Frontend.cc:46-327, 455-498`.

Assertions are taken as compiled out. `thrown` stands for an exception that leaves `run` and for undefined behaviour (reading past
the end of an argument list). The terms of OpenSMT carry their sort here: `PT.int`, `PT.bool`; a term that OpenSMT refuses
because of the sorts or the number of arguments is `thrown`.
-/

namespace Golem
namespace Its
open SExpr (SExp)

abbrev Str := List Char

/-- The outcome of reading and translating: `nonlinear` is `LANonLinearException`. -/
inductive Res (α : Type) where
  | ok (a : α)
  | nonlinear
  | thrown

def Res.bind {α β : Type} (x : Res α) (f : α → Res β) : Res β :=
  match x with
  | .ok a => f a
  | .nonlinear => .nonlinear
  | .thrown => .thrown

instance : Monad Res where
  pure := .ok
  bind := Res.bind

def Res.ofOption {α : Type} : Option α → Res α
  | some a => .ok a
  | none => .thrown

/-- `LocationDeclaration` (`src/termination/Frontend.cc:47-51`). -/
structure Decl where
  name : Str
  argTypes : List Str
  returnType : Str

/-- `Location` (`src/termination/Frontend.cc:53-56`). -/
structure Loc where
  name : Str
  args : List Str

/-- `Expr::Kind` without `Var` and `Const` (`src/termination/Frontend.cc:59`). -/
inductive Kind where | and | or | eq | leq | geq | lt | gt | add | sub | mul
deriving DecidableEq, Repr

/-- `Expr` (`src/termination/Frontend.cc:58-62`). -/
inductive Expr where
  | const (s : Str)
  | var (s : Str)
  | app (k : Kind) (children : List Expr)

/-- `Rule` (`src/termination/Frontend.cc:64-68`). -/
structure Rule where
  lhs : Loc
  rhs : Loc
  guard : Option Expr

/-- `ITS` (`src/termination/Frontend.cc:70-83`). -/
structure Itss where
  format : Str
  theory : Str
  locations : List (Str × Decl)
  entrypoint : Str
  rules : List Rule

def Itss.empty : Itss := ⟨[], [], [], [], []⟩

/-- `asAtom` (`src/utils/SExpressions.h:27-30`). -/
def asAtom : SExp → Option Str
  | .atom s => some s
  | .list _ => none

/-- `asSubExpressions` (`src/utils/SExpressions.h:32-35`). -/
def asSub : SExp → Option (List SExp)
  | .atom _ => none
  | .list es => some es

/-- The operators (`src/termination/Frontend.cc:197-220`). -/
def kindOf (op : Str) : Option Kind :=
  if op = "and".toList then some .and
  else if op = "or".toList then some .or
  else if op = "=".toList then some .eq
  else if op = "+".toList then some .add
  else if op = "-".toList then some .sub
  else if op = "*".toList then some .mul
  else if op = "<=".toList then some .leq
  else if op = ">=".toList then some .geq
  else if op = "<".toList then some .lt
  else if op = ">".toList then some .gt
  else none

/-- Is an atom read as a number (`src/termination/Frontend.cc:183`)? -/
def isConst : Str → Bool
  | [] => false
  | c :: r => Names.isDigit c || (c == '-' && !r.isEmpty)

mutual
/-- `ITS::parseExpr` (`src/termination/Frontend.cc:180-229`). -/
def parseExpr : SExp → Option Expr
  | .atom s => some (if isConst s then .const s else .var s)
  | .list [] => none
  | .list (.list _ :: _) => none
  | .list (.atom op :: args) =>
    if op = "exists".toList then
      match args with
      | _ :: b :: _ => parseExpr b
      | _ => none
    else
      match kindOf op with
      | some k => (parseExprs args).map (Expr.app k)
      | none => none
/-- The children (`src/termination/Frontend.cc:223-226`). -/
def parseExprs : List SExp → Option (List Expr)
  | [] => some []
  | e :: es =>
    match parseExpr e with
    | some x => (parseExprs es).map (x :: ·)
    | none => none
end

def asAtoms : List SExp → Option (List Str)
  | [] => some []
  | e :: es =>
    match asAtom e with
    | some s => (asAtoms es).map (s :: ·)
    | none => none

/-- `ITS::parseFun` (`src/termination/Frontend.cc:121-145`); the keyword has been checked by the caller. -/
def parseFun (args : List SExp) : Option Decl :=
  match args with
  | [_, nm, ty] =>
    match asAtom nm with
    | none => none
    | some name =>
      match ty with
      | .atom t => some ⟨name, [], t⟩
      | .list [] => none
      | .list (arrow :: ts) =>
        if asAtom arrow = some "->".toList then
          match ts.getLast?, asAtoms ts.dropLast with
          | some r, some as => (asAtom r).map fun r => ⟨name, as, r⟩
          | none, some _ => some ⟨name, [], "->".toList⟩
          | _, none => none
        else none
  | _ => none

/-- `ITS::parseLocationInstance` (`src/termination/Frontend.cc:147-160`). -/
def parseLoc : SExp → Option Loc
  | .atom s => some ⟨s, []⟩
  | .list [] => none
  | .list (n :: as) =>
    match asAtom n, asAtoms as with
    | some n, some as => some ⟨n, as⟩
    | _, _ => none

/-- `ITS::parseRule` (`src/termination/Frontend.cc:162-178`). -/
def parseRule (args : List SExp) : Option Rule :=
  match args with
  | _ :: l :: r :: rest =>
    match parseLoc l, parseLoc r with
    | some l, some r =>
      match rest with
      | [] => some ⟨l, r, none⟩
      | [g, e] =>
        if asAtom g = some ":guard".toList then (parseExpr e).map fun e => ⟨l, r, some e⟩ else none
      | _ => none
    | _, _ => none
  | _ => none

/-- `std::map::insert`: an element with an equivalent key is kept. The order of the keys plays no role here. -/
def insertDecl (m : List (Str × Decl)) (d : Decl) : List (Str × Decl) :=
  if m.any (fun p => decide (p.1 = d.name)) then m else m ++ [(d.name, d)]

/-- `ITS::resolve` (`src/termination/Frontend.cc:100-119`). -/
def resolve (its : Itss) : SExp → Option Itss
  | .atom _ => none
  | .list [] => none
  | .list (kw :: rest) =>
    match asAtom kw with
    | none => none
    | some k =>
      if k = "format".toList then (rest[0]?.bind asAtom).map fun s => { its with format := s }
      else if k = "theory".toList then (rest[0]?.bind asAtom).map fun s => { its with theory := s }
      else if k = "fun".toList then (parseFun (kw :: rest)).map fun d => { its with locations := insertDecl its.locations d }
      else if k = "entrypoint".toList then (rest[0]?.bind asAtom).map fun s => { its with entrypoint := s }
      else if k = "rule".toList then (parseRule (kw :: rest)).map fun r => { its with rules := its.rules ++ [r] }
      else none

/-- `parseITS` (`src/termination/Frontend.cc:85-94`) on the expressions of the file (C40). -/
def resolveAll (its : Itss) : List SExp → Option Itss
  | [] => some its
  | e :: es =>
    match resolve its e with
    | some its' => resolveAll its' es
    | none => none

/-! ### Terms -/

/-- A term of sort Int or Bool. -/
inductive PT where
  | int (t : Tm ctrTheory)
  | bool (f : Fla ctrTheory)

/-- The value of a numeral: an optional minus sign and digits (`logic.mkConst`, `src/termination/Frontend.cc:245`). -/
def numeral : Str → Option Int
  | '-' :: r => if r ≠ [] ∧ r.all Names.isDigit then (Names.readNat r).map fun n => -(n : Int) else none
  | r => if r ≠ [] ∧ r.all Names.isDigit then (Names.readNat r).map fun n => (n : Int) else none

/-- `logic.mkIntVar` (`src/termination/Frontend.cc:247`). -/
def intVar (s : Str) : Tm ctrTheory := .var (.base (.user (String.ofList s)))

/-- Products of more than two factors are nested; a product with more than one factor that is not a number is refused by the logic
(`LANonLinearException`), which is the service `linear`. -/
def mulTm : List (Tm ctrTheory) → Tm ctrTheory
  | [] => intConst 1
  | [t] => t
  | t :: ts => .ap2 IntSym.times t (mulTm ts)

def asInts : List PT → Option (List (Tm ctrTheory))
  | [] => some []
  | .int t :: l => (asInts l).map (t :: ·)
  | .bool _ :: _ => none

def asBools : List PT → Option (List (Fla ctrTheory))
  | [] => some []
  | .bool f :: l => (asBools l).map (f :: ·)
  | .int _ :: _ => none

def rel (f : Tm ctrTheory → Tm ctrTheory → Fla ctrTheory) : List PT → Res PT
  | [.int a, .int b] => .ok (.bool (f a b))
  | _ => .thrown

/-- The term of an operator (`src/termination/Frontend.cc:248-267`). -/
def mkApp (linear : List (Tm ctrTheory) → Bool) (k : Kind) (args : List PT) : Res PT :=
  match k with
  | .add =>
    match asInts args with
    | some (t :: ts) => .ok (.int (sumTm (t :: ts)))
    | _ => .thrown
  | .sub =>
    match args with
    | [.int a] => .ok (.int (.ap1 IntSym.neg a))
    | [.int a, .int b] => .ok (.int (.ap2 IntSym.minus a b))
    | _ => .thrown
  | .mul =>
    match asInts args with
    | some (t :: ts) => if linear (t :: ts) then .ok (.int (mulTm (t :: ts))) else .nonlinear
    | _ => .thrown
  | .eq =>
    match args with
    | [.int a, .int b] => .ok (.bool (.eq a b))
    | [.bool a, .bool b] => .ok (.bool (.iff a b))
    | _ => .thrown
  | .leq => rel (fun a b => .atom (.ap2 IntSym.geq b a)) args
  | .geq => rel (fun a b => .atom (.ap2 IntSym.geq a b)) args
  | .lt => rel (fun a b => .atom (.ap2 IntSym.lt a b)) args
  | .gt => rel (fun a b => .atom (.ap2 IntSym.gt a b)) args
  | .and =>
    match asBools args with
    | some fs => .ok (.bool (Fla.conj fs))
    | none => .thrown
  | .or =>
    match asBools args with
    | some fs => .ok (.bool (Fla.disj fs))
    | none => .thrown

mutual
/-- `translate` (`src/termination/Frontend.cc:242-270`). -/
def translate (linear : List (Tm ctrTheory) → Bool) : Expr → Res PT
  | .const s => (Res.ofOption (numeral s)).bind fun n => .ok (.int (intConst n))
  | .var s => .ok (.int (intVar s))
  | .app k cs => (translates linear cs).bind (mkApp linear k)
/-- `translate` of the children (`src/termination/Frontend.cc:234-240`). -/
def translates (linear : List (Tm ctrTheory) → Bool) : List Expr → Res (List PT)
  | [] => .ok []
  | e :: es => (translate linear e).bind fun t => (translates linear es).bind fun ts => .ok (t :: ts)
end

/-- The constraint of a rule (`src/termination/Frontend.cc:306`). -/
def guardFla (linear : List (Tm ctrTheory) → Bool) : Option Expr → Res (Fla ctrTheory)
  | none => .ok .tt
  | some e => (translate linear e).bind fun
    | .bool f => .ok f
    | .int _ => .thrown

/-- `locationsToPredicates` (`src/termination/Frontend.cc:277-286`): the position of the declaration gives the symbol. -/
def predOf (m : List (Str × Decl)) (name : Str) : Option (Pred × Nat) :=
  ((m.zipIdx.find? fun q => decide (q.1.1 = name)).map fun q => (.p q.2, q.1.2.argTypes.length))

/-- `logic.mkUninterpFun` (`src/termination/Frontend.cc:296, 305, 322`): the number of arguments must be the declared one. -/
def mkAtom (m : List (Str × Decl)) (name : Str) (args : List (Tm ctrTheory)) : Res (PAtom ctrTheory) :=
  match predOf m name with
  | some (p, n) => if args.length = n then .ok (p, args) else .thrown
  | none => .thrown

/-- The clause of a rule (`src/termination/Frontend.cc:288-309`). -/
def ruleClause (linear : List (Tm ctrTheory) → Bool) (m : List (Str × Decl)) (r : Rule) : Res (Clause ctrTheory) :=
  (mkAtom m r.rhs.name (r.rhs.args.map intVar)).bind fun head =>
  (mkAtom m r.lhs.name (r.lhs.args.map intVar)).bind fun body =>
  (guardFla linear r.guard).bind fun g => .ok ⟨head, g, [body]⟩

def ruleClauses (linear : List (Tm ctrTheory) → Bool) (m : List (Str × Decl)) : List Rule → Res (List (Clause ctrTheory))
  | [] => .ok []
  | r :: rs => (ruleClause linear m r).bind fun c => (ruleClauses linear m rs).bind fun cs => .ok (c :: cs)

/-- The names `e0`, `e1`, ... (`src/termination/Frontend.cc:315-321`). -/
def entryArgs (n : Nat) : List Str := (List.range n).map fun i => 'e' :: Names.showNat i

/-- `ITS::asChcs` (`src/termination/Frontend.cc:273-327`). -/
def asChcs (linear : List (Tm ctrTheory) → Bool) (its : Itss) : Res (List (Clause ctrTheory)) :=
  (ruleClauses linear its.locations its.rules).bind fun cs =>
    match predOf its.locations its.entrypoint with
    | some (p, n) => .ok (cs ++ [⟨(p, (entryArgs n).map intVar), .tt, []⟩])
    | none => .thrown

/-- `run` (`src/termination/Frontend.cc:455-498`) on the expressions of the file: what can have been printed at some moment. -/
def ItsPrint (linear : List (Tm ctrTheory) → Bool) (S : Smt ctrTheory) (rw : Fla ctrTheory → Fla ctrTheory) (E : Elim ctrTheory)
    (order : Graph ctrTheory → List Pred) (fuel : Nat) (N : LGraph ctrTheory → Pred) (B : TBackend) (option : Option (List Char))
    (file : List SExp) (out : List TLine) : Prop :=
  match resolveAll .empty file with
  | none => out = []
  | some its =>
    match asChcs linear its with
    | .ok cs => ClausesPrint S rw E order fuel N B option cs out
    | .nonlinear => out = [] ∨ out = [.maybe]
    | .thrown => out = []

end Its
end Golem
