import Verif.Model.Names
import Verif.Model.Proofs.Simplify

/-!
The text of Alethe proofs (`src/proofs/ProofSteps.cc:35-54, 67-116`, `src/proofs/Term.cc:17-58`). Let terms are left out, as in the model of
proofs; numbers are integers.
-/

namespace Golem
namespace Alethe

open Names (showNat)

/-- The operators, as the parser of the script and `ProofSteps.cc` name them. -/
def opText : OpSym → Str
  | .eq => ['=']
  | .lt => ['<']
  | .le => ['<', '=']
  | .gt => ['>']
  | .ge => ['>', '=']
  | .and => ['a', 'n', 'd']
  | .or => ['o', 'r']
  | .not => ['n', 'o', 't']
  | .ite => ['i', 't', 'e']
  | .add => ['+']
  | .sub => ['-']
  | .mul => ['*']
  | .mod => ['m', 'o', 'd']
  | .div => ['d', 'i', 'v']
  | .imp => ['=', '>']

/-- The names (`src/proofs/ProofSteps.cc:298, 366-370, 704, 740`). -/
def nameText : Name → Str
  | .a n => '@' :: 'a' :: showNat n
  | .i n => '@' :: 'i' :: showNat n
  | .lhs n => '@' :: 'L' :: 'H' :: 'S' :: showNat n
  | .t n => '@' :: 'T' :: showNat n

/-- `numberToString` (`src/proofs/ProofSteps.cc:35-50`). -/
def numText (n : Int) : Str :=
  if n < 0 then '(' :: '-' :: ' ' :: (showNat n.natAbs ++ [')']) else showNat n.natAbs

def boolText : Bool → Str
  | true => ['t', 'r', 'u', 'e']
  | false => ['f', 'a', 'l', 's', 'e']

def sortText : Sort' → Str
  | .int => ['I', 'n', 't']
  | .bool => ['B', 'o', 'o', 'l']

/-- The loops that put a space after each element but the last (`src/proofs/ProofSteps.cc:85-88, 97-100, 106-109`, `src/proofs/Term.cc:47-54`). -/
def joined : List Str → Str
  | [] => []
  | [a] => a
  | a :: b :: l => a ++ ' ' :: joined (b :: l)

/-- A quantified variable (`src/proofs/Term.cc:48-52`). -/
def boundText (x : Str × Sort') : Str := '(' :: (x.1 ++ ' ' :: (sortText x.2 ++ [')']))

mutual
/-- `PrintVisitor` (`src/proofs/Term.cc:23-58`); `(! t :named s)` is an operation whose second argument is a terminal
(`src/proofs/ProofSteps.cc:301, 369, 717, 740`). -/
def termText : Term → Str
  | .num n => numText n
  | .bool b => boolText b
  | .var s _ => s
  | .name s => nameText s
  | .op o args => '(' :: (opText o ++ (argsText args ++ [')']))
  | .app f args => '(' :: (f ++ (argsText args ++ [')']))
  | .named t s => '(' :: '!' :: ' ' :: (termText t ++ ' ' :: (":named".toList ++ ' ' :: (nameText s ++ [')'])))
  | .all xs b => '(' :: ("forall".toList ++ ' ' :: '(' :: (joined (xs.map boundText) ++ ')' :: ' ' :: (termText b ++ [')'])))
def argsText : List Term → Str
  | [] => []
  | t :: l => ' ' :: (termText t ++ argsText l)
end

/-- `t` and the number of a step. -/
def stepId (k : Nat) : Str := 't' :: showNat k

/-- The clause (`src/proofs/ProofSteps.cc:80-92`). -/
def clausePart (s : Step) : Str :=
  (if s.assume then [] else ' ' :: '(' :: ['c', 'l']) ++
    ((if s.clause = [] then [] else ' ' :: joined (s.clause.map termText)) ++ if s.assume then [] else [')'])

/-- `src/proofs/ProofSteps.cc:94`. -/
def rulePart (s : Step) : Str := if s.rule = " " then [] else ' ' :: (":rule".toList ++ ' ' :: s.rule.toList)

/-- `src/proofs/ProofSteps.cc:96-103`. -/
def premisePart (s : Step) : Str :=
  if s.premises = [] then [] else ' ' :: (":premises".toList ++ ' ' :: '(' :: (joined (s.premises.map stepId) ++ [')']))

/-- `src/proofs/ProofSteps.cc:105-111`. -/
def argPart (s : Step) : Str := if s.args = [] then [] else ' ' :: (":args".toList ++ ' ' :: '(' :: (joined (s.args.map termText) ++ [')']))

/-- `Step::printStepAlethe` (`src/proofs/ProofSteps.cc:67-116`). -/
def stepText (k : Nat) (s : Step) : Str :=
  '(' :: ((if s.assume then "assume".toList else "step".toList) ++ ' ' :: (stepId k ++ (clausePart s ++ (rulePart s ++ (premisePart s ++
    (argPart s ++ [')', '\n']))))))

/-- The lines in order, each printed when its step is recorded (`src/proofs/ProofSteps.cc:154-164`); the number is the position. -/
def proofText : Nat → List Step → Str
  | _, [] => []
  | k, s :: l => stepText k s ++ proofText (k + 1) l

end Alethe
end Golem
