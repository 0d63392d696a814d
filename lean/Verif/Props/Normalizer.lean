import Verif.Lemmas.Normalizer
import Verif.Props.Validator

/-! Properties C03, C04, and the end-to-end reading of C01/C02 on the input clauses. -/

namespace Golem
variable {T : Theory}

/-- C03. The normalized clauses have exactly the same ground instances as the input clauses; in particular they derive
the same facts and have the same satisfiability status. -/
theorem C03_normalize_same_instances (ar : Pred → Nat) (cs : List (Clause T)) (har : ArityConsistent ar cs)
    (hu : ∀ c ∈ cs, c.User) :
    (∀ r, clauseRules cs r ↔ clauseRules (normalize cs).2 r) ∧
    (∀ f, Derivable (clauseRules cs) f ↔ Derivable (clauseRules (normalize cs).2) f) ∧
    (Satisfiable (clauseRules cs) ↔ Satisfiable (clauseRules (normalize cs).2)) := by
  have h := normalizeFrom_spec (NState.init_inv har.1 har.2.1) cs hu har.2.2
  have hr : ∀ r, clauseRules cs r ↔ clauseRules (normalize cs).2 r := (h.2.2 _ (NState.Ext.refl _)).rules
  have he : clauseRules cs = clauseRules (normalize cs).2 := funext fun r => propext (hr r)
  exact ⟨hr, fun f => by rw [he], by rw [he]⟩

/-- C03, shape: the result is in normal form with respect to the canonical representation (distinct fresh variables per
predicate position), every variable of a constraint is an argument variable of its own clause or an auxiliary one, and
auxiliary variables are never shared between clauses. -/
theorem C03_normal_form (ar : Pred → Nat) (cs : List (Clause T)) (har : ArityConsistent ar cs)
    (hu : ∀ c ∈ cs, c.User) :
    (normalize cs).1.repr.WF ∧
    (∀ c ∈ (normalize cs).2, c.Normal (normalize cs).1.repr ∧
      ∀ x ∈ c.constraint.vars, x ∈ predicateVars (normalize cs).1.repr c ∨ ∃ k, x = .ver (.aux k) 0) ∧
    (∀ (i j : Nat) (c d : Clause T), (normalize cs).2[i]? = some c → (normalize cs).2[j]? = some d → i ≠ j →
      ∀ k v, Var.ver k v ∈ c.constraint.vars → Var.ver k v ∉ d.constraint.vars) := by
  have h := normalizeFrom_spec (NState.init_inv har.1 har.2.1) cs hu har.2.2
  have hn := h.2.2 _ (NState.Ext.refl _)
  refine ⟨h.1.wf, ?_, hn.aux.2⟩
  intro c hc
  refine ⟨hn.normal c hc, ?_⟩
  intro x hx
  rcases hn.aux.1 c hc x hx with h | ⟨k, _, e⟩
  · exact Or.inl h
  · exact Or.inr ⟨k, e⟩

/-- C04. The graph built from normalized clauses derives exactly the facts the clauses derive; the `i`-th clause becomes
the edge with id `i`, with the body predicates as sources (the entry node for a clause without body predicates). -/
theorem C04_buildGraph_exact (R : PRepr) (hR : R.WF) (cs : List (Clause T)) (hn : ∀ c ∈ cs, c.Normal R) :
    (∀ f, Derivable (graphRules R (buildGraph cs)) f ↔ Derivable (clauseRules cs) f) ∧
    (Satisfiable (graphRules R (buildGraph cs)) ↔ Satisfiable (clauseRules cs)) ∧
    (∀ (i : Nat) (c : Clause T), cs[i]? = some c → ∃ e, (buildGraph cs)[i]? = some e ∧ e.id = i ∧
      e.tgt = c.head.1 ∧ e.fla = c.constraint ∧
      e.src = (if c.body = [] then [Pred.tru] else c.body.map Prod.fst)) := by
  refine ⟨buildGraph_derivable hR hn, ?_, ?_⟩
  · rw [satisfiable_iff, satisfiable_iff, buildGraph_derivable hR hn]
  · intro i c hc
    refine ⟨clauseEdge (0 + i) c, ?_, by simp [clauseEdge], rfl, rfl, ?_⟩
    · rw [buildGraph, buildFrom_get, hc]; rfl
    · simp [clauseEdge]

/-- C03+C04: from the input clauses to the graph. -/
theorem C04_input_to_graph (ar : Pred → Nat) (cs : List (Clause T)) (har : ArityConsistent ar cs)
    (hu : ∀ c ∈ cs, c.User) (f : Fact T) :
    Derivable (graphRules (normalize cs).1.repr (buildGraph (normalize cs).2)) f ↔ Derivable (clauseRules cs) f := by
  have h1 := C03_normal_form ar cs har hu
  rw [(C04_buildGraph_exact _ h1.1 _ (fun c hc => (h1.2.1 c hc).1)).1 f,
    (C03_normalize_same_instances ar cs har hu).2.1 f]

/-- C01 on the input: a validated SAFE witness for the graph of the input clauses proves the clauses satisfiable. -/
theorem C01_input_clauses (S : Smt T) (hS : S.Sound) (ar : Pred → Nat) (cs : List (Clause T))
    (har : ArityConsistent ar cs) (hu : ∀ c ∈ cs, c.User) (D : Defs T)
    (htrue : D.get .tru = some .tt) (hfalse : D.get .fls = some .ff)
    (h : validate S (normalize cs).1.repr (buildGraph (normalize cs).2) ⟨.safe, .validity D⟩ = .validated) :
    Satisfiable (clauseRules cs) := by
  have hw := (C03_normal_form ar cs har hu).1
  have := (C01_validated_safe_is_model S hS _ hw _ D htrue hfalse h).2
  rw [C04_input_to_graph ar cs har hu] at this
  exact (satisfiable_iff _).2 this

/-- C02 on the input: a validated, well-founded derivation proves the input clauses unsatisfiable. -/
theorem C02_input_clauses (S : Smt T) (hS : S.Sound) (ar : Pred → Nat) (cs : List (Clause T))
    (har : ArityConsistent ar cs) (hu : ∀ c ∈ cs, c.User) (ds : List (DStep T))
    (hearlier : ∀ (i : Nat) (d : DStep T), 0 < i → ds[i]? = some d → ∀ j ∈ d.premises, j < i)
    (hfits : ∀ (i : Nat) (d : DStep T), 0 < i → ds[i]? = some d →
      StepFits (normalize cs).1.repr (buildGraph (normalize cs).2) ds d)
    (h : validate S (normalize cs).1.repr (buildGraph (normalize cs).2) ⟨.unsafeAns, .invalidity ds⟩ = .validated) :
    ¬ Satisfiable (clauseRules cs) := by
  have hw := (C03_normal_form ar cs har hu).1
  have := (C02_validated_unsafe_is_refutation S hS _ hw _ ds hearlier hfits h).2.1
  rw [C04_input_to_graph ar cs har hu] at this
  exact fun hs => (satisfiable_iff _).1 hs this

/-! Non-vacuity: a nonlinear clause with a repeated variable, a constant argument and a local variable, and a fact. -/
namespace NormEx
abbrev P := propTheory
def v (s : String) : Tm P := .var (.base (.user s))
def cs : List (Clause P) :=
  [⟨(.p 0, [v "a", v "a"]), .atom (v "b"), []⟩,
   ⟨(.p 0, [.const true, v "c"]), .and (.atom (v "d")) (.not (.atom (v "c"))), [(.p 0, [v "c", v "e"]), (.p 0, [v "e", v "c"])]⟩,
   ⟨(.fls, []), .atom (v "x"), [(.p 0, [v "x", .const false])]⟩]
def ar : Pred → Nat | .p _ => 2 | _ => 0

example : ArityConsistent ar cs ∧ ∀ c ∈ cs, c.User := by
  refine ⟨⟨rfl, rfl, ?_⟩, ?_⟩
  · intro c hc
    simp [cs] at hc
    rcases hc with rfl | rfl | rfl <;> simp [ar]
  · intro c hc x hx
    simp [cs] at hc
    rcases hc with rfl | rfl | rfl <;> simp [Clause.vars, Fla.vars, Tm.vars, v] at hx
    · rcases hx with rfl | rfl <;> trivial
    · rcases hx with rfl | rfl | rfl | rfl | rfl | rfl | rfl <;> trivial
    · rcases hx with rfl | rfl <;> trivial

/-- The normalized first clause is `x#0' = x#1', b` with `b` renamed: the repeated variable became an equality. -/
example : ((normalize cs).2[0]?).map (fun c => c.constraint) = some (Fla.and (.atom (.var (.ver (.aux 2) 0)))
    (.and (.eq (.var (.tgt (.pr 1))) (.var (.tgt (.pr 0)))) .tt)) := by decide +kernel
end NormEx

end Golem
