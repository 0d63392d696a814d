import Verif.Spec.AletheProof

/-!
Proofs in the intermediate format. This file does not depend on the model of the code.
-/

namespace Golem
namespace Alethe

/-- A line: a clause of the input with values for its variables; an instance; an implication from facts to a fact; a derived fact with the
numbers of the lines it needs. -/
inductive IStep where
  | clause (t : Term) (args : List Term)
  | ground (t : Term)
  | implies (premises : List Term) (fact : Term)
  | fact (f : Term) (premises : List Nat)

def IsTrue (I : Interp) (t : Term) : Prop := (eval I t).toBool = true

/-- The interpretation with values for variables; of several for a variable the first counts. -/
def assign (I : Interp) : List (Str × Val) → Interp
  | [] => I
  | (s, .int n) :: l => { assign I l with varI := fun x => if x = s then n else (assign I l).varI x }
  | (s, .bool b) :: l => { assign I l with varB := fun x => if x = s then b else (assign I l).varB x }

/-- Line `k` is justified by the lines before it. -/
def Justified (assertions : List Term) (ss : List IStep) (k : Nat) : IStep → Prop
  | .clause t _ => t ∈ assertions
  | .ground t =>
    t ∈ assertions ∨
    -- the body of the clause just before, at the values listed there
    ∃ j xs b vs, k = j + 1 ∧ ss[j]? = some (.clause (.all xs b) (vs.map lit)) ∧ vs.length = xs.length ∧
      (∀ I, Std I → eval I t = eval (assign I ((xs.map Prod.fst).zip vs)) b) ∧ ∀ I, Std I → IsTrue I (.all xs b) → IsTrue I t
  | .implies ps f => ∃ j t, k = j + 1 ∧ ss[j]? = some (.ground t) ∧ ∀ I, Std I → IsTrue I t → (∀ p ∈ ps, IsTrue I p) → IsTrue I f
  | .fact f prem => ∃ j ps, k = j + 1 ∧ ss[j]? = some (.implies ps f) ∧
    (∀ p ∈ ps, p = .bool true ∨ ∃ q ∈ prem, ∃ pr, ss[q]? = some (.fact p pr)) ∧
    ∀ q ∈ prem, q < k ∧ ∃ p ∈ ps, ∃ pr, ss[q]? = some (.fact p pr)

/-- All variables of a clause have values, or there are none to give. -/
def FullValues (assertions : List Term) (d : Coarse) : Prop :=
  d.σ = [] ∨ ∀ xs b, assertions[d.clause]? = some (.all xs b) → ∀ x ∈ xs, (d.σ.lookup x.1).isSome = true

end Alethe
end Golem
