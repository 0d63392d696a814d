import Verif.Model.NormalForms
import Verif.Model.Smt
import Verif.Model.Entailment
import Verif.Model.KTo1

/-!
Quantifier elimination by model-based projection: `src/QuantifierElimination.cc`.
-/

namespace Golem
variable {T : Theory}

/-- `ModelBasedProjection::project(fla, vars, model)` as used by quantifier elimination; `none` is an exception. -/
abbrev Mbp (T : Theory) := Fla T → List Var → Valuation T → Option (Fla T)

/-- The contract of projection (C35): in a model of the formula the projection is true, it has no eliminated variable, and
it implies the existential quantification. -/
def Mbp.SoundAt (M : Mbp T) (f : Fla T) (vs : List Var) : Prop := ∀ ρ p, f.holds ρ → M f vs ρ = some p →
  p.holds ρ ∧ (∀ x ∈ p.vars, x ∈ f.vars ∧ x ∉ vs) ∧
  ∀ ρ', p.holds ρ' → ∃ ρ'', (∀ x, x ∉ vs → ρ'' x = ρ' x) ∧ f.holds ρ''

/-- The contract for all formulas. -/
def Mbp.Sound (M : Mbp T) : Prop := ∀ f vs, M.SoundAt f vs

/-- The loop of `eliminate` (`src/QuantifierElimination.cc:19-33`), bounded by fuel: `ps` are the projections so far. -/
def qeLoop (S : Smt T) (M : Mbp T) (f : Fla T) (vs : List Var) : Nat → List (Fla T) → Outcome (List (Fla T))
  | 0, _ => .outOfFuel
  | n + 1, ps =>
    let stack := f :: ps.map Fla.not
    match S.check stack with
    | .unsat => .done ps
    | .sat =>
      match M f vs (S.model stack) with
      | some p => qeLoop S M f vs n (ps ++ [p])
      | none => .thrown
    | _ => .thrown

/-- `QuantifierElimination::eliminate(fla, vars)` (`src/QuantifierElimination.cc:15-41, 63-72`): negation normal form, the
loop, and the disjunction of the projections. `simp` stands for OpenSMT's `rewriteMaxArityAggresive` and
`simplifyUnderAssignment_Aggressive`. -/
def qeEliminate (S : Smt T) (M : Mbp T) (simp : Fla T → Fla T) (fuel : Nat) (f : Fla T) (vs : List Var) :
    Outcome (Fla T) :=
  match toNNF f with
  | none => .thrown
  | some f' =>
    match qeLoop S M f' vs fuel [] with
    | .done ps => .done (simp (Fla.disj ps))
    | .thrown => .thrown
    | .outOfFuel => .outOfFuel

/-- `QuantifierElimination::keepOnly(fla, varsToKeep)` (`src/QuantifierElimination.cc:46-54`). -/
def qeKeepOnly (S : Smt T) (M : Mbp T) (simp : Fla T → Fla T) (fuel : Nat) (f : Fla T) (keep : List Var) :
    Outcome (Fla T) :=
  qeEliminate S M simp fuel f (f.vars.filter fun x => decide (x ∉ keep))

end Golem
