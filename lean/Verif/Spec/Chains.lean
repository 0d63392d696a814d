import Verif.Spec.Chc

/-! Infinite runs of a system of linear clauses, as a program. -/

namespace Golem
variable {T : Theory}

/-- An infinite run: it starts with an instance of a fact, and every fact of the run follows from the one before by an instance
of a clause. -/
def ClausesDiverge (cs : List (Clause T)) : Prop := ∃ f : Nat → Fact T, clauseRules cs ⟨[], f 0⟩ ∧
  ∀ i, clauseRules cs ⟨[f i], f (i + 1)⟩

/-- No clause has the goal as its head. -/
def NoGoals (cs : List (Clause T)) : Prop := ∀ c ∈ cs, c.head.1 ≠ .fls

end Golem
