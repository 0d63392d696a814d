import Verif.Lemmas.AletheTotal

/-!
C77: the evaluation steps of an Alethe proof.
-/

namespace Golem
namespace Alethe

/-- C77: whatever ground term is simplified, and after whatever steps, every step that is added cites only earlier steps and follows from the steps
that it cites (congruence and transitivity using nothing but equality, the others, which cite nothing, by the meaning of the operators); and
if there is a result, then the step named for it says that the term equals the result, and so it does. -/
theorem C77_simplify_steps (t : Term) (st : St) (r : Result) (st' : St) (h : simplify t none st = some (r, st')) :
    (∃ more, st'.steps = st.steps ++ more) ∧ (∀ k, st.steps.length ≤ k → StepOk st'.steps k) ∧
    ∀ t' k, r = some (t', k) →
      (∃ s x, st'.steps[k]? = some s ∧ s.clause = [.op .eq [x, t']] ∧ ∀ I, Respects I st'.steps → eval I x = eval I t) ∧
      ∀ I, Std I → eval I t = eval I t' := by
  obtain ⟨⟨more, e, ok, -⟩, h2, -, -⟩ := simplify_ok t none st (NameOk.none _ _) r st' h
  exact ⟨⟨more, e⟩, ok, fun t' k he => h2 t' k he⟩

/-- C77: a closed term without predicates that has a value (it is well-sorted, and nothing is divided by zero) is always simplified, without a failed
assertion, to the constant for that value. -/
theorem C77_simplify_total (t : Term) (st : St) (v : Val) (h : value t = some v) :
    (∀ I, Std I → eval I t = v) ∧ ∃ r st', simplify t none st = some (r, st') ∧
      (r = none ∧ t = lit v ∨ ∃ k, r = some (lit v, k)) := by
  obtain ⟨r, st', h1, h2⟩ := simplify_total t none st v h
  refine ⟨fun I hI => ?_, r, st', h1, ?_⟩
  · have h3 := (simplify_ok t none st (NameOk.none _ _) r st' h1).2.1
    cases r with
    | none => rw [show t = lit v from h2]; exact eval_lit I v
    | some q =>
      rw [(h3 q.1 q.2 rfl).2 I hI, show q.1 = lit v from h2]
      exact eval_lit I v
  · cases r with
    | none => exact .inl ⟨rfl, h2⟩
    | some q => exact .inr ⟨q.2, by rw [← show q.1 = lit v from h2]⟩

/-- C77: a predicate over such terms is simplified to the predicate over their values. -/
theorem C77_simplify_predicate (f : Str) (args : List Term) (vs : List Val) (st : St) (h : values args = some vs) :
    ∃ r st', simplify (.app f args) none st = some (r, st') ∧
      (r = none ∧ args = vs.map lit ∨ ∃ k, r = some (.app f (vs.map lit), k)) := by
  obtain ⟨r, st', h1, h2⟩ := simplify_app (f := f) h none st
  refine ⟨r, st', h1, ?_⟩
  cases r with
  | none => exact .inl ⟨rfl, by simpa using h2⟩
  | some q => exact .inr ⟨q.2, by rw [← show q.1 = _ from h2]⟩

/-! ### A case -/

/-- `(and (> (+ 1 2) (mod (- 7) 2)) (not (>= (ite (= 1 2) 5 (div (- 7) 2)) 0)))`. -/
def exTerm : Term :=
  .op .and [.op .gt [.op .add [.num 1, .num 2], .op .mod [.num (-7), .num 2]],
    .op .not [.op .ge [.op .ite [.op .eq [.num 1, .num 2], .num 5, .op .div [.num (-7), .num 2]], .num 0]]]

example : value exTerm = some (.bool true) := by decide +kernel

example : value (.op .and [.op .eq [.op .mod [.num (-7), .num (-2)], .num 1], .op .eq [.op .div [.num (-7), .num (-2)], .num 4]]) = some (.bool true) := by
  decide +kernel

/-- The steps for it. -/
example : ((simplify exTerm none ⟨[], 0, 0⟩).map fun p => p.2.steps.map fun s => (s.rule, s.premises)) =
    some [("sum_simplify", []), ("mod_simplify", []), ("cong", [0, 1]), ("comp_simplify", []), ("comp_simplify", []), ("cong", [4]),
      ("not_simplify", []), ("trans", [3, 5, 6]), ("trans", [2, 7]), ("eq_simplify", []), ("cong", [9]), ("ite_simplify", []),
      ("div_simplify", []), ("trans", [10, 11, 12]), ("cong", [13]), ("comp_simplify", []), ("comp_simplify", []), ("trans", [15, 16]),
      ("trans", [14, 17]), ("cong", [18]), ("not_simplify", []), ("trans", [19, 20]), ("cong", [8, 21]), ("and_simplify", []),
      ("trans", [22, 23])] := by decide +kernel

end Alethe
end Golem
