import Verif.Lemmas.Logic

/-!
The SMT backend as an oracle: `src/utils/SmtSolver.h:14-63`, `src/utils/SmtSolver.cc`.
-/

namespace Golem
variable {T : Theory}

/-- `SMTSolver::Answer` (`src/utils/SmtSolver.h:20`). -/
inductive Answer where
  | sat | unsat | unknown | error
deriving DecidableEq, Repr

/-- `SMTSolver` (`src/utils/SmtSolver.h`): the answer, model and interpolants for the assertion list on the stack.
Simplification: the answer is a function of the list of asserted formulas (a fixed backend without timeouts). -/
structure Smt (T : Theory) where
  /-- `check` after asserting the formulas in order. -/
  check : List (Fla T) → Answer
  /-- `getModel` + `evaluate` after `SAT`. -/
  model : List (Fla T) → Valuation T
  /-- `getInterpolationContext()->getSingleInterpolant(mask)` after `UNSAT`; A-part and B-part. -/
  itp : List (Fla T) → List (Fla T) → Fla T

/-- All formulas of a list hold. -/
def AllHold (ρ : Valuation T) (fs : List (Fla T)) : Prop := ∀ f ∈ fs, f.holds ρ

def SatList (fs : List (Fla T)) : Prop := ∃ ρ : Valuation T, AllHold ρ fs

/-- `I` is an interpolant of `A` and `B`. -/
structure IsItp (A B : List (Fla T)) (I : Fla T) : Prop where
  fromA : ∀ ρ, AllHold ρ A → I.holds ρ
  refuteB : ∀ ρ, I.holds ρ → ¬ AllHold ρ B
  shared : ∀ x ∈ I.vars, x ∈ (Fla.conj A).vars ∧ x ∈ (Fla.conj B).vars

/-- The contract assumed of OpenSMT. -/
structure Smt.Sound (S : Smt T) : Prop where
  sat : ∀ fs, S.check fs = .sat → AllHold (S.model fs) fs
  unsat : ∀ fs, S.check fs = .unsat → ¬ SatList fs
  /-- any split of a refuted assertion list into an A- and a B-part (the bit mask of partitions) has its interpolant -/
  itp : ∀ fs A B, S.check fs = .unsat → (∀ f, f ∈ fs ↔ f ∈ A ∨ f ∈ B) → IsItp A B (S.itp A B)
  /-- interpolants of one refutation for growing A-parts form an inductive sequence (path interpolation) -/
  path : ∀ fs A C B, S.check fs = .unsat → (∀ f, f ∈ fs ↔ f ∈ A ∨ f ∈ C ∨ f ∈ B) →
    ∀ ρ, (S.itp A (C ++ B)).holds ρ → AllHold ρ C → (S.itp (A ++ C) B).holds ρ

/-- The part of the contract about answers and models only. -/
structure Smt.Correct (S : Smt T) : Prop where
  sat : ∀ fs, S.check fs = .sat → AllHold (S.model fs) fs
  unsat : ∀ fs, S.check fs = .unsat → ¬ SatList fs

theorem Smt.Sound.correct {S : Smt T} (h : S.Sound) : S.Correct := ⟨h.sat, h.unsat⟩

/-- `getPathInterpolants` for the sequence of partitions `fs`: the `i`-th interpolant separates `fs[0..i]` from the rest
(`src/TransitionSystem.cc:340-349`, `src/transformers/SimpleChainSummarizer.cc:110-120`). -/
def Smt.pathItp (S : Smt T) (fs : List (Fla T)) : List (Fla T) :=
  (List.range (fs.length - 1)).map fun i => S.itp (fs.take (i + 1)) (fs.drop (i + 1))

/-- The backend always decides (used only for completeness statements). -/
def Smt.Complete (S : Smt T) : Prop := ∀ fs, S.check fs = .sat ∨ S.check fs = .unsat

/-- The backend always decides single formulas. Unlike `Complete`, this does not ask for interpolants between formulas that are
apart: over the integers with multiplication no solver is both `Sound` and `Complete`. -/
def Smt.DecidesOne (S : Smt T) : Prop := ∀ f, S.check [f] = .sat ∨ S.check [f] = .unsat

theorem Smt.Complete.one {S : Smt T} (h : S.Complete) : S.DecidesOne := fun f => h [f]

end Golem
