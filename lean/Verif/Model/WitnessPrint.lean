import Verif.Model.LetPrint

/-!
Printing of witnesses (`src/Witnesses.cc:15-47, 124-161`). The texts of names, sorts and facts (`protectName`, `printSort`, `printTerm`) come
from the term library.
-/

namespace Golem
namespace WitnessPrint

open Names (Str showNat)
open LetPrint (PLogic PT printTermWithLets)

/-- An entry of the model as the printer sees it: whether the symbol is `true` or `false`, the text of its name, the texts of the names and
sorts of the arguments in order, the definition. -/
structure PDef where
  constant : Bool
  name : Str
  args : List (Str × Str)
  body : PT

/-- The arguments (`src/Witnesses.cc:150-153`), a space after each but the last. -/
def argsOut : List (Str × Str) → Str
  | [] => []
  | [a] => '(' :: (a.1 ++ ' ' :: (a.2 ++ [')']))
  | a :: b :: l => '(' :: (a.1 ++ ' ' :: (a.2 ++ ')' :: ' ' :: argsOut (b :: l)))

/-- One definition (`src/Witnesses.cc:146-158`); `boolText` is the text of the sort of predicates. -/
def defOut (L : PLogic) (fuel : Nat) (boolText : Str) (d : PDef) : Option Str :=
  (printTermWithLets L fuel d.body).map fun t =>
    "  (define-fun ".toList ++ (d.name ++ (" (".toList ++ (argsOut d.args ++ (") ".toList ++ (boolText ++ ("\n    ".toList ++ (t ++ ")\n".toList)))))))

/-- The loop over the entries (`src/Witnesses.cc:144-159`). -/
def defsOut (L : PLogic) (fuel : Nat) (boolText : Str) : List PDef → Option Str
  | [] => some []
  | d :: ds =>
    if d.constant then defsOut L fuel boolText ds
    else
      match defOut L fuel boolText d, defsOut L fuel boolText ds with
      | some s, some r => some (s ++ r)
      | _, _ => none

/-- `ValidityWitness::print` (`src/Witnesses.cc:141-161`). -/
def printModel (L : PLogic) (fuel : Nat) (boolText : Str) (ds : List PDef) : Option Str :=
  (defsOut L fuel boolText ds).map fun s => "(\n".toList ++ (s ++ ")\n".toList)

/-- A step of a derivation as the printer sees it: the text of the fact and the numbers of the premises. -/
structure PStep where
  fact : Str
  premises : List Nat

/-- The premises (`src/Witnesses.cc:130-135`). -/
def premisesOut : List Nat → Str
  | [] => []
  | p :: l => ' ' :: (showNat p ++ premisesOut l)

/-- A line (`src/Witnesses.cc:127-136`). -/
def stepOut (i : Nat) (s : PStep) : Str :=
  showNat i ++ (":\t".toList ++ (s.fact ++ ((if s.premises = [] then [] else " -> ".toList ++ premisesOut s.premises) ++ ['\n'])))

/-- The loop (`src/Witnesses.cc:126-137`). -/
def stepsOut : Nat → List PStep → Str
  | _, [] => []
  | i, s :: l => stepOut i s ++ stepsOut (i + 1) l

/-- `InvalidityWitness::print` (`src/Witnesses.cc:124-139`). -/
def printDerivation (l : List PStep) : Str := stepsOut 0 l ++ ['\n']

/-- A result with its witness, if any; `bad` is `UNSAFE`. -/
inductive PResult where
  | safe (w : Option (List PDef))
  | bad (w : Option (List PStep))
  | unknown

/-- `VerificationResult::printWitness` (`src/Witnesses.cc:15-47`); the two formats of proofs are functions here. -/
def printWitness (L : PLogic) (fuel : Nat) (boolText : Str) (alethe intermediate : List PStep → Option Str) (format : Str) :
    PResult → Option Str
  | .safe none => some []
  | .bad none => some []
  | .unknown => some []
  | .safe (some ds) => printModel L fuel boolText ds
  | .bad (some l) =>
    if format = "legacy".toList then some (printDerivation l)
    else if format = "alethe".toList then alethe l
    else if format = "intermediate".toList then intermediate l
    else some []

end WitnessPrint
end Golem
