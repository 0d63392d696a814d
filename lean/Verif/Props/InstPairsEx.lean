import Verif.Props.InstPairs
import Verif.Props.Normalizer

/-! Concrete cases for C79. -/

namespace Golem
namespace InstEx
open NormEx (P v)

/-- `p(c, e) ∧ p(e, c) ∧ d ∧ ¬ c → p(true, c)`. -/
def c : Clause P :=
  ⟨(.p 0, [.const true, v "c"]), .and (.atom (v "d")) (.not (.atom (v "c"))), [(.p 0, [v "c", v "e"]), (.p 0, [v "e", v "c"])]⟩

def R : PRepr := ⟨fun p => match p with | .p 0 => [.pr 0, .pr 1] | _ => []⟩

def facts : List (Fact P) := [(.p 0, [false, true]), (.p 0, [true, false])]
def fact : Fact P := (.p 0, [true, false])

theorem R_wf : R.WF where
  tru := rfl
  fls := rfl
  nodup p := by
    simp only [R]
    split <;> decide
  disjoint p q hpq n hn := by
    simp only [R] at hn ⊢
    split at hn
    · split
      · exact absurd rfl hpq
      · simp
    · cases hn

theorem c_user : c.User := by
  intro x hx
  simp [c, Clause.vars, Fla.vars, Tm.vars, v] at hx
  rcases hx with rfl | rfl | rfl | rfl | rfl | rfl | rfl <;> trivial

theorem c_arity : c.ArityOk R := by
  refine ⟨rfl, fun a ha => ?_⟩
  simp [c] at ha
  rcases ha with rfl | rfl <;> rfl

def ρ : Valuation P := fun x => decide (x ≠ .base (.user "c"))

theorem c_instance : InstanceOf c ρ facts fact := by
  refine ⟨?_, by decide +kernel, by decide +kernel⟩
  simp [c, Fla.holds, Tm.eval, v, ρ]
  exact ⟨rfl, rfl⟩

theorem solver_exists (T : Theory) : ∃ solve : Fla T → Option (Valuation T), FindsModels solve := by
  classical
  refine ⟨fun f => if h : ∃ ρ, f.holds ρ then some h.choose else none, fun f h => ⟨h.choose, ?_, h.choose_spec⟩⟩
  simp only [dif_pos h]

/-- The hypotheses of C79 are met. -/
example : ∃ solve, FindsModels solve ∧ ∃ σ, getInstPairs solve R (normalizingEqs R 2 c) (normClauseWith R 2 c).constraint facts fact = some σ ∧
    ∀ ρ : Valuation P, (∀ p ∈ σ, ρ p.1 = p.2) → InstanceOf c ρ facts fact := by
  obtain ⟨solve, hs⟩ := solver_exists P
  exact ⟨solve, hs, C79_instantiation solve hs R R_wf 2 c c_user c_arity _ (fun _ => Iff.rfl) (fun _ h => h) facts fact ⟨ρ, c_instance⟩⟩

/-- The values: `c` and `e` from the facts, `d` from the solver. -/
theorem C79_example : getInstPairs (fun _ => some fun _ => true) R (normalizingEqs R 2 c) (normClauseWith R 2 c).constraint facts fact =
    some [(.base (.user "c"), false), (.base (.user "e"), true), (.base (.user "d"), true)] := by rfl

/-- `p(y, y) ∧ (x ↔ x) → p(y, y)`. -/
def idle : Clause P := ⟨(.p 0, [v "y", v "y"]), .iff (.atom (v "x")) (.atom (v "x")), [(.p 0, [v "y", v "y"])]⟩

/-- Finding: a variable that occurs in the clause but not in the simplified constraint gets no value. The constraint without `x` is equivalent
to the normalized one. -/
theorem C79_dropped : ∃ label : Fla P, (∀ ρ, label.holds ρ ↔ (normClauseWith R 2 idle).constraint.holds ρ) ∧
    (∀ x ∈ label.vars, x ∈ (normClauseWith R 2 idle).constraint.vars) ∧ Var.base (.user "x") ∈ idle.vars ∧
    ∀ solve, getInstPairs solve R (normalizingEqs R 2 idle) label [(.p 0, [true, true])] (.p 0, [true, true]) =
      some [(.base (.user "y"), true)] := by
  refine ⟨.and (.eq (.var (.tgt (.pr 1))) (.var (.tgt (.pr 0)))) (.and (.eq (.var (.src (.pr 0) 0)) (.var (.tgt (.pr 0))))
    (.eq (.var (.src (.pr 1) 0)) (.var (.tgt (.pr 0))))), fun ρ => ?_, by decide +kernel, by decide +kernel, fun solve => ?_⟩
  · rw [show (normClauseWith R 2 idle).constraint = .and (.iff (.atom (.var (.ver (.aux 2) 0))) (.atom (.var (.ver (.aux 2) 0))))
      (.and (.eq (.var (.tgt (.pr 1))) (.var (.tgt (.pr 0)))) (.and (.eq (.var (.src (.pr 0) 0)) (.var (.tgt (.pr 0))))
      (.and (.eq (.var (.src (.pr 1) 0)) (.var (.tgt (.pr 0)))) .tt))) from by decide +kernel]
    simp [Fla.holds]
  · rfl

end InstEx
end Golem
