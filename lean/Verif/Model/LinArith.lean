import Mathlib.Algebra.Order.Field.Rat
import Verif.Model.NormalForms

/-!
Linear arithmetic utilities: `LATermUtils` (`src/TermUtils.cc:130-162, 507-687`).
-/

namespace Golem

/-- A linear term in OpenSMT's canonical form: a sum of factors `coefficient * variable`, `none` being the constant
factor (`logic.splitTermToVarAndConst`). A single factor is `isLinearFactor`, several are `isPlus`. -/
structure LinTerm where
  factors : List (Rat × Option Var)
deriving DecidableEq

namespace LinTerm

def factorEval (ρ : Var → Rat) (f : Rat × Option Var) : Rat :=
  match f.2 with
  | some x => f.1 * ρ x
  | none => f.1

def eval (ρ : Var → Rat) (t : LinTerm) : Rat := (t.factors.map (factorEval ρ)).sum

/-- `logic.mkTimes(term, constant)` on linear terms. -/
def scale (c : Rat) (t : LinTerm) : LinTerm := ⟨t.factors.map fun f => (f.1 * c, f.2)⟩

def vars (t : LinTerm) : List Var := t.factors.filterMap Prod.snd

end LinTerm

/-- `LATermUtils::termContainsVar` (`src/TermUtils.cc:508-526`). -/
def termContainsVar (t : LinTerm) (v : Var) : Bool := t.factors.any fun f => decide (f.2 = some v)

/-- The loop of `expressZeroTermFor` (`src/TermUtils.cc:144-154`): the coefficient of `v` (the last one seen) and the
other factors. -/
def splitFactors (v : Var) : List (Rat × Option Var) → Option Rat × List (Rat × Option Var)
  | [] => (none, [])
  | f :: fs =>
    let (c, others) := splitFactors v fs
    if f.2 = some v then (some (c.getD f.1), others) else (c, f :: others)

/-- `LATermUtils::expressZeroTermFor` (`src/TermUtils.cc:130-162`); `none` is the failing assertion `varCoeff` undefined. -/
def expressZeroTermFor (t : LinTerm) (v : Var) : Option LinTerm :=
  match t.factors with
  | [_] => some ⟨[]⟩
  | fs =>
    match splitFactors v fs with
    | (none, _) => none
    | (some c, others) => some (LinTerm.scale (-1 / c) ⟨others⟩)

/-- Atoms seen by `simplifyJunction`: inequalities `constant <= term` and everything else. -/
inductive LAtom (α : Type) where
  | leq (c : Rat) (t : LinTerm)
  | other (a : α)
deriving DecidableEq

/-- `PtAsgn` over such atoms. -/
abbrev LLit (α : Type) := LAtom α × Bool

/-- `bounds` (`src/TermUtils.cc:628`): insertion ordered map from (term, sign) to the bound. -/
abbrev Bounds := List ((LinTerm × Bool) × Rat)

/-- `JunctionTraits` (`src/TermUtils.cc:602-622`): `isBetterLowerBound` for positive literals, `isBetterUpperBound` for
negative ones; `first` is the new constant, `second` the stored one. -/
def isBetter (J : Junction) (sign : Bool) (first second : Rat) : Bool :=
  match J, sign with
  | .conj, true => decide (first > second)
  | .conj, false => decide (first < second)
  | .disj, true => decide (first < second)
  | .disj, false => decide (first > second)

/-- Lookup or insertion of one bound (`src/TermUtils.cc:640-660`). -/
def updateBound (J : Junction) (t : LinTerm) (sign : Bool) (c : Rat) : Bounds → Bounds
  | [] => [((t, sign), c)]
  | (k, c') :: bs =>
    if k = (t, sign) then (k, if isBetter J sign c c' then c else c') :: bs else (k, c') :: updateBound J t sign c bs

/-- The loop of `simplifyJunction` (`src/TermUtils.cc:629-661`). -/
def collectBounds {α : Type} (J : Junction) : List (LLit α) → List (LLit α) × Bounds → List (LLit α) × Bounds
  | [], st => st
  | (.leq c t, s) :: ls, (tmp, bs) => collectBounds J ls (tmp, updateBound J t s c bs)
  | (.other a, s) :: ls, (tmp, bs) => collectBounds J ls (tmp ++ [(.other a, s)], bs)

/-- `simplifyJunction` (`src/TermUtils.cc:625-670`). -/
def simplifyJunction {α : Type} (J : Junction) (juncts : List (LLit α)) : List (LLit α) :=
  let (tmp, bs) := collectBounds J juncts ([], [])
  if bs.length + tmp.length < juncts.length then tmp ++ bs.map fun b => (.leq b.2 b.1.1, b.1.2) else juncts

end Golem
