import Verif.Lemmas.Smt
import Verif.Model.ToTS

/-! Propositional quantifier elimination by cases, used only to give examples an exact eliminator. -/

namespace Golem

/-- `∃ x. f` by cases on `x`. -/
def shannon (f : Fla propTheory) (x : Var) : Fla propTheory :=
  .or (f.subst fun y => if y = x then .const true else .var y) (f.subst fun y => if y = x then .const false else .var y)

def propQ : QElim propTheory := fun f vs => some (vs.foldl shannon f)

theorem shannon_vars {f : Fla propTheory} {x y : Var} (h : y ∈ (shannon f x).vars) : y ∈ f.vars ∧ y ≠ x := by
  simp only [shannon, Fla.vars, List.mem_append, Fla.mem_vars_subst] at h
  rcases h with ⟨z, hz, h⟩ | ⟨z, hz, h⟩ <;>
  · split at h
    · simp [Tm.vars] at h
    · simp only [Tm.vars, List.mem_singleton] at h
      subst h
      exact ⟨hz, by assumption⟩

theorem shannon_holds {f : Fla propTheory} {x : Var} {ρ : Valuation propTheory} :
    (shannon f x).holds ρ ↔ ∃ ρ' : Valuation propTheory, (∀ y, y ≠ x → ρ' y = ρ y) ∧ f.holds ρ' := by
  have key : ∀ v : Bool, (fun y => (if y = x then (.const v : Tm propTheory) else .var y).eval ρ) = ρ.set x v := by
    intro v; funext y
    simp only [Valuation.set]
    by_cases h : y = x
    · simp only [h, if_true, Tm.eval]; rfl
    · simp [h, Tm.eval]
  simp only [shannon, Fla.holds, Fla.holds_subst, key]
  constructor
  · rintro (h | h)
    · exact ⟨_, fun y hy => by simp [Valuation.set, hy], h⟩
    · exact ⟨_, fun y hy => by simp [Valuation.set, hy], h⟩
  · rintro ⟨ρ', h, hf⟩
    have : ρ' = ρ.set x (ρ' x) := by
      funext y
      by_cases hy : y = x
      · subst hy; simp [Valuation.set]
      · simp [Valuation.set, hy, h y hy]
    rw [this] at hf
    cases hv : (ρ' x : Bool) with
    | true => rw [hv] at hf; exact .inl hf
    | false => rw [hv] at hf; exact .inr hf

theorem propQ_exact : propQ.Exact := by
  intro f vs g h
  cases h
  induction vs generalizing f with
  | nil =>
    refine ⟨fun x hx => ⟨hx, by simp⟩, fun ρ => ⟨fun h => ⟨ρ, fun _ _ => rfl, h⟩, ?_⟩⟩
    rintro ⟨ρ', h, hf⟩
    rwa [← funext fun x => h x (by simp)]
  | cons x vs ih =>
    obtain ⟨h1, h2⟩ := ih (shannon f x)
    refine ⟨fun y hy => ?_, fun ρ => ?_⟩
    · obtain ⟨a, b⟩ := h1 y hy
      obtain ⟨c, d⟩ := shannon_vars a
      exact ⟨c, by simp [d, b]⟩
    · rw [List.foldl_cons, h2 ρ]
      constructor
      · rintro ⟨ρ', ha, hb⟩
        obtain ⟨ρ'', hc, hd⟩ := shannon_holds.1 hb
        refine ⟨ρ'', fun y hy => ?_, hd⟩
        simp only [List.mem_cons, not_or] at hy
        rw [hc y hy.1, ha y hy.2]
      · rintro ⟨ρ', ha, hb⟩
        refine ⟨fun y => if y = x then ρ x else ρ' y, fun y hy => ?_, shannon_holds.2 ⟨ρ', fun y hy => by simp [hy], hb⟩⟩
        by_cases hyx : y = x
        · simp [hyx]
        · simp only [hyx, if_false]
          exact ha y (by simp [hyx, hy])

end Golem
