import Verif.Model.Proofs.Intermediate
import Verif.Model.Proofs.ProofText

/-!
The text of proofs in the intermediate format (`src/proofs/ProofSteps.cc:118-152, 195-212`).
-/

namespace Golem
namespace Alethe

open Names (showNat)

/-- The term of a line; the premises of an implication are one terminal with blanks between them (`src/proofs/ProofSteps.cc:195-205`). -/
def iTermText : IStep → Str
  | .clause t _ => termText t
  | .ground t => termText t
  | .implies ps f => '(' :: '=' :: '>' :: ' ' :: (joined (ps.map termText) ++ ' ' :: (termText f ++ [')']))
  | .fact f _ => termText f

def IStep.args : IStep → List Term
  | .clause _ as => as
  | _ => []

def IStep.premises : IStep → List Nat
  | .fact _ ps => ps
  | _ => []

/-- The numbers, a blank after each (`src/proofs/ProofSteps.cc:144-146`). -/
def numbersText : List Nat → Str
  | [] => []
  | p :: l => showNat p ++ ' ' :: numbersText l

/-- `Step::printStepIntermediate` (`src/proofs/ProofSteps.cc:118-152`). -/
def lineText (k : Nat) (s : IStep) : Str :=
  showNat k ++ '\t' :: ' ' :: (iTermText s ++ ' ' ::
    ((if s.args = [] then [] else ' ' :: (":args".toList ++ ' ' :: '(' :: (joined (s.args.map termText) ++ [')']))) ++
    ((if s.premises = [] then [] else ' ' :: (":premises".toList ++ ' ' :: numbersText s.premises)) ++ ['\n'])))

/-- The lines in order; the number is the position. -/
def intermediateText : Nat → List IStep → Str
  | _, [] => []
  | k, s :: l => lineText k s ++ intermediateText (k + 1) l

end Alethe
end Golem
