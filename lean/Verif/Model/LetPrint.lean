import Verif.Model.SExpr
import Verif.Model.Names
/-
Printing terms with let bindings.

Models: `src/TermUtils.cc:154-217` (`TermUtils::printTermWithLets`), used for the definitions of printed models
(`src/Witnesses.cc`).  Terms are hash-consed: a term is identified with its reference number (`PTRef::x`).
-/

namespace Golem
namespace LetPrint

open Names (Str showNat)

/-- A term: a symbol applied to arguments (`Pterm`: `symb()`, children). -/
inductive PT where
  | node (f : Nat) (args : List PT)

/-- The children of a term (iteration over a `Pterm`). -/
def PT.kids : PT → List PT
  | .node _ args => args

/-- The symbol of a term. -/
def PT.sym : PT → Nat
  | .node f _ => f

/-- What the printer asks of the logic: the reference number of a term (`PTRef::x`, hash-consing makes it injective),
the text of a symbol (`printSym`), of a term without arguments (`printSym`, `printTerm` for numbers), and which symbols are
`and`, `or` (`isAnd`, `isOr`). -/
structure PLogic where
  ref : PT → Nat
  symText : Nat → Str
  leafText : Nat → Str
  isAndOr : Nat → Bool

/-- `Entry` (`src/TermUtils.cc:156-159`); terms are compared by their reference numbers. -/
structure Entry where
  node : PT
  treatAsParent : Bool

/-- The depth-first traversal (`src/TermUtils.cc:165-181`): the stack (top first), the visited references and the order
computed so far. `fuel` makes the loop total. -/
def dfs (L : PLogic) : Nat → List Entry → List Nat → List PT → Option (List PT)
  | _, [], _, order => some order
  | 0, _ :: _, _, _ => none
  | n + 1, cur :: stack, visited, order =>
    if cur.treatAsParent then dfs L n stack visited (order ++ [cur.node])
    else
      let visited := L.ref cur.node :: visited
      -- children are pushed one after the other, so the last one is on top
      let pushed := (cur.node.kids.filter fun c => !visited.contains (L.ref c)).map fun c => ⟨c, false⟩
      dfs L n (pushed.reverse ++ ⟨cur.node, true⟩ :: stack) visited order

/-- `toLetId` (`src/TermUtils.cc:161`). -/
def letId (k : Nat) : Str := 'l' :: showNat k

/-- `strRepr.at` (`src/TermUtils.cc:198`): `none` is the exception. -/
def reprAt (strRepr : List (Nat × Str)) (k : Nat) : Option Str := strRepr.lookup k

/-- The texts of the arguments, each followed by a space (`src/TermUtils.cc:197-199`). -/
def argsText (L : PLogic) (strRepr : List (Nat × Str)) : List PT → Option Str
  | [] => some []
  | c :: cs =>
    match reprAt strRepr (L.ref c), argsText L strRepr cs with
    | some s, some r => some (s ++ ' ' :: r)
    | _, _ => none

/-- `toStr` (`src/TermUtils.cc:185-202`). -/
def toStr (L : PLogic) (strRepr : List (Nat × Str)) : PT → Option Str
  | .node f [] => some (L.leafText f)
  | .node f (c :: cs) => (argsText L strRepr (c :: cs)).map fun r => '(' :: (L.symText f ++ ' ' :: (r ++ [')']))

/-- `introduceLet` (`src/TermUtils.cc:207`). -/
def introduceLet (L : PLogic) (t : PT) : Bool := L.isAndOr t.sym

/-- `unordered_map::insert`: an existing entry stays. -/
def insertNew (m : List (Nat × Str)) (k : Nat) (s : Str) : List (Nat × Str) :=
  if (m.lookup k).isSome then m else m ++ [(k, s)]

/-- The printing loop (`src/TermUtils.cc:204-216`): output so far, `strRepr`, `letCount`. -/
def printLoop (L : PLogic) : List PT → Str → List (Nat × Str) → Nat → Option (Str × List (Nat × Str) × Nat)
  | [], out, m, k => some (out, m, k)
  | t :: ts, out, m, k =>
    match toStr L m t with
    | none => none
    | some actual =>
      if introduceLet L t then
        printLoop L ts
          (out ++ (['(', 'l', 'e', 't', ' ', '(', '('] ++ (letId (L.ref t) ++ ' ' :: (actual ++ [')', ')']))))
          (insertNew m (L.ref t) (letId (L.ref t))) (k + 1)
      else printLoop L ts out (insertNew m (L.ref t) actual) k

/-- `TermUtils::printTermWithLets` (`src/TermUtils.cc:154-217`); `none` would be an exception or a loop. -/
def printTermWithLets (L : PLogic) (fuel : Nat) (root : PT) : Option Str :=
  match dfs L fuel [⟨root, false⟩] [] [] with
  | none => none
  | some order =>
    match printLoop L order [] [] 0 with
    | none => none
    | some (out, m, k) =>
      match reprAt m (L.ref root) with
      | none => none
      | some s => some (out ++ (s ++ List.replicate k ')'))

end LetPrint
end Golem
