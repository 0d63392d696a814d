import Verif.Spec.Reach

/-! Independent specification of termination of transition systems. -/

namespace Golem
namespace STS
variable {σ : Type} (M : STS σ)

/-- An infinite run from an initial state: the system does not terminate. -/
def InfiniteRun : Prop := ∃ r : Nat → σ, M.Init (r 0) ∧ ∀ i, M.Step (r i) (r (i + 1))

/-- Every run from an initial state is finite. -/
def Terminates : Prop := ¬ M.InfiniteRun

/-- A reachable state that can be reached again from itself in one or more steps. -/
def Lasso : Prop := ∃ s n, M.Reachable s ∧ M.Path (n + 1) s s

/-- Runs from an initial state `s` have at most `b s` steps. -/
def BoundedBy (b : σ → Nat) : Prop := ∀ s, M.Init s → ∀ n t, M.Path n s t → n ≤ b s

end STS

/-- The measure of the step counter: the sum of the absolute values of the integer components of a state, or one when
the state has no integer component. -/
def sizeOfState (isInt : List Bool) (s : List Int) : Nat :=
  if isInt.any id then (((isInt.zip s).filter Prod.fst).map fun p => p.2.natAbs).sum else 1

end Golem
