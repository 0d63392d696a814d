import Verif.Model.SExpr
import Verif.Model.Names

/-!
Integer transition systems in the LCTRS format, as the user of the termination analysis knows them: the text (as
S-expressions) and the runs.
-/

namespace Golem
namespace Its
namespace Spec
open SExpr (SExp)

abbrev Str := List Char

/-- Arithmetic expressions. -/
inductive Tx where
  | num (n : Int)
  | var (s : Str)
  | add (l : List Tx)
  | mul (l : List Tx)
  | neg (a : Tx)
  | sub (a b : Tx)

inductive Cmp where | eq | leq | geq | lt | gt

/-- Guards. -/
inductive Gx where
  | cmp (c : Cmp) (a b : Tx)
  | and (l : List Gx)
  | or (l : List Gx)
  | ex (xs : List Str) (b : Gx)

mutual
/-- The value of an expression. -/
def Tx.val (σ : Str → Int) : Tx → Int
  | .num n => n
  | .var s => σ s
  | .add l => Tx.sum σ l
  | .mul l => Tx.prod σ l
  | .neg a => - Tx.val σ a
  | .sub a b => Tx.val σ a - Tx.val σ b
def Tx.sum (σ : Str → Int) : List Tx → Int
  | [] => 0
  | t :: l => Tx.val σ t + Tx.sum σ l
def Tx.prod (σ : Str → Int) : List Tx → Int
  | [] => 1
  | t :: l => Tx.val σ t * Tx.prod σ l
end

def Cmp.holds : Cmp → Int → Int → Prop
  | .eq, a, b => a = b
  | .leq, a, b => a ≤ b
  | .geq, a, b => a ≥ b
  | .lt, a, b => a < b
  | .gt, a, b => a > b

mutual
/-- The truth of a guard. -/
def Gx.sat (σ : Str → Int) : Gx → Prop
  | .cmp c a b => c.holds (a.val σ) (b.val σ)
  | .and l => Gx.satAll σ l
  | .or l => Gx.satAny σ l
  | .ex xs b => ∃ σ' : Str → Int, (∀ x, x ∉ xs → σ' x = σ x) ∧ Gx.sat σ' b
def Gx.satAll (σ : Str → Int) : List Gx → Prop
  | [] => True
  | g :: l => Gx.sat σ g ∧ Gx.satAll σ l
def Gx.satAny (σ : Str → Int) : List Gx → Prop
  | [] => False
  | g :: l => Gx.sat σ g ∨ Gx.satAny σ l
end

/-- A rule `src(srcArgs) → tgt(tgtArgs) [guard]`. -/
structure SRule where
  src : Str
  srcArgs : List Str
  tgt : Str
  tgtArgs : List Str
  guard : Option Gx

/-- The commands of a file; `fn f n` declares the location `f` with `n` integer arguments. -/
inductive Item where
  | format (s : Str)
  | theory (s : Str)
  | fn (f : Str) (n : Nat)
  | entry (f : Str)
  | rule (r : SRule)

/-! ### Runs -/

abbrev Config := Str × List Int

/-- One step: some rule applies with some values for its variables. -/
def Step (items : List Item) (c d : Config) : Prop := ∃ r, .rule r ∈ items ∧ ∃ σ : Str → Int,
  c = (r.src, r.srcArgs.map σ) ∧ d = (r.tgt, r.tgtArgs.map σ) ∧ ∀ g, r.guard = some g → g.sat σ

/-- A start: the entry location with arbitrary values. -/
def Start (items : List Item) (c : Config) : Prop := ∃ n, .entry c.1 ∈ items ∧ .fn c.1 n ∈ items ∧ c.2.length = n

/-- The program has an infinite run. -/
def NonTerminating (items : List Item) : Prop :=
  ∃ c : Nat → Config, Start items (c 0) ∧ ∀ i, Step items (c i) (c (i + 1))

/-! ### Text -/

def a (s : String) : SExp := .atom s.toList

mutual
def Tx.toS : Tx → SExp
  | .num n => .atom (Names.showInt n)
  | .var s => .atom s
  | .add l => .list (a "+" :: Tx.toSs l)
  | .mul l => .list (a "*" :: Tx.toSs l)
  | .neg t => .list [a "-", Tx.toS t]
  | .sub t u => .list [a "-", Tx.toS t, Tx.toS u]
def Tx.toSs : List Tx → List SExp
  | [] => []
  | t :: l => Tx.toS t :: Tx.toSs l
end

def Cmp.sym : Cmp → String
  | .eq => "="
  | .leq => "<="
  | .geq => ">="
  | .lt => "<"
  | .gt => ">"

mutual
def Gx.toS : Gx → SExp
  | .cmp c t u => .list [a c.sym, t.toS, u.toS]
  | .and l => .list (a "and" :: Gx.toSs l)
  | .or l => .list (a "or" :: Gx.toSs l)
  | .ex xs b => .list [a "exists", .list (xs.map fun x => .list [.atom x, a "Int"]), Gx.toS b]
def Gx.toSs : List Gx → List SExp
  | [] => []
  | g :: l => Gx.toS g :: Gx.toSs l
end

/-- `f`, or `(f x y)`. -/
def locS (f : Str) (args : List Str) : SExp := if args = [] then .atom f else .list (.atom f :: args.map .atom)

/-- `Int`, or `(-> Int Int Int)`. -/
def typeS (n : Nat) : SExp := if n = 0 then a "Int" else .list (a "->" :: List.replicate (n + 1) (a "Int"))

def Item.toS : Item → SExp
  | .format s => .list [a "format", .atom s]
  | .theory s => .list [a "theory", .atom s]
  | .fn f n => .list [a "fun", .atom f, typeS n]
  | .entry f => .list [a "entrypoint", .atom f]
  | .rule r => .list ([a "rule", locS r.src r.srcArgs, locS r.tgt r.tgtArgs] ++
      match r.guard with
      | none => []
      | some g => [a ":guard", g.toS])

/-! ### Well-formed files -/

/-- A name that does not look like a number. -/
def IsName (s : Str) : Prop := s ≠ [] ∧ ∀ c, s.head? = some c → Names.isDigit c = false ∧ c ≠ '-'

mutual
def Tx.vars : Tx → List Str
  | .num _ => []
  | .var s => [s]
  | .add l => Tx.varss l
  | .mul l => Tx.varss l
  | .neg t => Tx.vars t
  | .sub t u => Tx.vars t ++ Tx.vars u
def Tx.varss : List Tx → List Str
  | [] => []
  | t :: l => Tx.vars t ++ Tx.varss l
end

mutual
/-- All variables, free or bound. -/
def Gx.vars : Gx → List Str
  | .cmp _ t u => t.vars ++ u.vars
  | .and l => Gx.varss l
  | .or l => Gx.varss l
  | .ex xs b => xs ++ Gx.vars b
def Gx.varss : List Gx → List Str
  | [] => []
  | g :: l => Gx.vars g ++ Gx.varss l
end

mutual
/-- The bound variables. -/
def Gx.bound : Gx → List Str
  | .cmp _ _ _ => []
  | .and l => Gx.bounds l
  | .or l => Gx.bounds l
  | .ex xs b => xs ++ Gx.bound b
def Gx.bounds : List Gx → List Str
  | [] => []
  | g :: l => Gx.bound g ++ Gx.bounds l
end

mutual
/-- Sums and products are not empty. -/
def Tx.Ok : Tx → Prop
  | .num _ => True
  | .var _ => True
  | .add l => l ≠ [] ∧ Tx.Oks l
  | .mul l => l ≠ [] ∧ Tx.Oks l
  | .neg t => Tx.Ok t
  | .sub t u => Tx.Ok t ∧ Tx.Ok u
def Tx.Oks : List Tx → Prop
  | [] => True
  | t :: l => Tx.Ok t ∧ Tx.Oks l
end

mutual
/-- A name bound by a quantifier does not occur in a sibling of a formula around the quantifier. -/
def Gx.Ok : Gx → Prop
  | .cmp _ t u => t.Ok ∧ u.Ok
  | .and l => Gx.Oks l
  | .or l => Gx.Oks l
  | .ex _ b => Gx.Ok b
def Gx.Oks : List Gx → Prop
  | [] => True
  | g :: l => Gx.Ok g ∧ Gx.Oks l ∧ (∀ x ∈ Gx.bound g, x ∉ Gx.varss l) ∧ ∀ x ∈ Gx.bounds l, x ∉ Gx.vars g
end

/-- The rule uses declared locations with the declared numbers of arguments, names that are names, and does not bind a variable of
a location. -/
structure SRule.Ok (items : List Item) (r : SRule) : Prop where
  src : .fn r.src r.srcArgs.length ∈ items
  tgt : .fn r.tgt r.tgtArgs.length ∈ items
  names : ∀ x ∈ r.srcArgs ++ r.tgtArgs, IsName x
  guard : ∀ g, r.guard = some g → g.Ok ∧ (∀ x ∈ g.vars, IsName x) ∧ ∀ x ∈ g.bound, x ∉ r.srcArgs ++ r.tgtArgs

/-- The declared locations, in the order of the file. -/
def declared (items : List Item) : List Str := items.filterMap fun
  | .fn f _ => some f
  | _ => none

def entries (items : List Item) : List Str := items.filterMap fun
  | .entry f => some f
  | _ => none

/-- A well-formed file: every location is declared once, there is one entry point, it is declared, and the rules are well formed. -/
structure WellFormed (items : List Item) : Prop where
  once : (declared items).Nodup
  entry : ∃ e n, entries items = [e] ∧ .fn e n ∈ items
  rules : ∀ r, .rule r ∈ items → r.Ok items

/-- The operators of guards. -/
def operators : List String := ["and", "or", "=", "<=", ">=", "<", ">", "+", "-", "*", "exists"]

/-- The operator `op` is applied somewhere in the text of a guard; the first argument of `exists` is a list of variables. -/
inductive Uses (op : Str) : SExp → Prop
  | here (args : List SExp) : Uses op (.list (.atom op :: args))
  | under (o : Str) (args : List SExp) (e : SExp) : o ≠ "exists".toList → e ∈ args → Uses op e → Uses op (.list (.atom o :: args))
  | body (xs e : SExp) (rest : List SExp) : Uses op e → Uses op (.list (a "exists" :: xs :: e :: rest))

end Spec
end Its
end Golem
