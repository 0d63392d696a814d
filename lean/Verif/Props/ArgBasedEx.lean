import Verif.Props.ArgBased
import Verif.Props.CheckSatEx

/-! C67: the hypotheses are met by concrete clauses, and what the engine prints for them; and what goes wrong with a solver that
does not decide every query. -/

namespace Golem

/-- The propositional backend has tree interpolants. -/
theorem propSmt_treeItp : propSmt.TreeItp := by
  intro fs ms n f m _ hn hna hp hm ρ hf hall
  have hex : ∀ a, ∃ ρ' : Valuation propTheory, a ∈ ms → (∀ y ∈ (Fla.conj (maskPart fs a false)).vars, ρ' y = ρ y) ∧ AllHold ρ' (maskPart fs a true) := by
    intro a
    by_cases ha : a ∈ ms
    · obtain ⟨ρ', h⟩ := propItp_holds.1 (hall a ha)
      exact ⟨ρ', fun _ => h⟩
    · exact ⟨ρ, fun h => absurd h ha⟩
  choose F hF using hex
  have hsame : ∀ a ∈ ms, ∀ b ∈ ms, ∀ j, j ∈ a → j ∈ b → a = b := by
    intro a ha b hb j hja hjb
    refine Classical.byContradiction fun hne => ?_
    have := @List.Pairwise.forall _ (fun a b : List Nat => ∀ j ∈ a, j ∉ b) _ ⟨fun a b h j hj hj' => h j hj' hj⟩ hp _ ha _ hb hne
    exact this j hja hjb
  -- the private variables of a part
  let Priv : List Nat → Var → Prop := fun a y => a ∈ ms ∧ y ∉ (Fla.conj (maskPart fs a false)).vars
  have hpriv : ∀ a y, Priv a y → ∀ (j : Nat) (g : Fla propTheory), fs[j]? = some g → y ∈ g.vars → j ∈ a := by
    intro a y ⟨_, hy⟩ j g hj hg
    refine Classical.byContradiction fun hja => hy ?_
    exact Fla.mem_vars_conj.2 ⟨g, mem_maskPart.2 ⟨j, hj, by simp [hja]⟩, hg⟩
  classical
  let τ : Valuation propTheory := fun y => if h : ∃ a, Priv a y ∧ ∃ j ∈ a, ∃ g, fs[j]? = some g ∧ y ∈ g.vars then F h.choose y else ρ y
  have hτρ : ∀ (j : Nat) (g : Fla propTheory) (y : Var), fs[j]? = some g → y ∈ g.vars → (∀ a, j ∈ a → ¬ Priv a y) → τ y = ρ y := by
    intro j g y hj hy hno
    have : ¬ ∃ a, Priv a y ∧ ∃ j ∈ a, ∃ g, fs[j]? = some g ∧ y ∈ g.vars := by
      rintro ⟨a, ha, _⟩
      exact hno a (hpriv a y ha j g hj hy) ha
    simp only [τ, dif_neg this]
  refine propItp_holds.2 ⟨τ, ?_, ?_⟩
  · intro y hy
    obtain ⟨g, hg, hy⟩ := Fla.mem_vars_conj.1 hy
    obtain ⟨j, hj, hjm⟩ := mem_maskPart.1 hg
    have hjm : j ∉ m := by simpa using hjm
    refine hτρ j g y hj hy fun a hja hpa => hjm ((hm j).2 (.inr ⟨a, hpa.1, hja⟩))
  · intro g hg
    obtain ⟨j, hj, hjm⟩ := mem_maskPart.1 hg
    have hjm : j ∈ m := by simpa using hjm
    rcases (hm j).1 hjm with rfl | ⟨a, ha, hja⟩
    · obtain rfl : f = g := Option.some.inj (hn.symm.trans hj)
      refine (Fla.holds_congr fun y hy => ?_).2 hf
      exact hτρ j f y hj hy fun a hja hpa => hna a hpa.1 hja
    · obtain ⟨h1, h2⟩ := hF a ha
      refine (Fla.holds_congr fun y hy => ?_).2 (h2 g (mem_maskPart.2 ⟨j, hj, by simp [hja]⟩))
      by_cases hb : y ∈ (Fla.conj (maskPart fs a false)).vars
      · rw [h1 y hb]
        refine hτρ j g y hj hy fun b hjb hpb => ?_
        obtain rfl := hsame a ha b hpb.1 j hja hjb
        exact hpb.2 hb
      · have hex : ∃ a, Priv a y ∧ ∃ j ∈ a, ∃ g, fs[j]? = some g ∧ y ∈ g.vars := ⟨a, ⟨ha, hb⟩, j, hja, g, hj, hy⟩
        have hc := hex.choose_spec
        have : hex.choose = a := hsame _ hc.1.1 a ha j (hpriv _ y hc.1 j g hj hy) hja
        simp only [τ, dif_pos hex, this]

namespace ArgEx
open CheckEx (P v ar order order_ok nameIff nameIff_exact)
open NodeElimEx (keepE keepE_exact)

/-- `p(a) ← a`;  `p(z) ← p(x), p(y), l`;  `false ← p(x), ¬x`. -/
def cs (l : Fla P) : List (Clause P) :=
  [⟨(.p 0, [v "a"]), .atom (v "a"), []⟩,
   ⟨(.p 0, [v "z"]), l, [(.p 0, [v "x"]), (.p 0, [v "y"])]⟩,
   ⟨(.fls, []), .not (.atom (v "x")), [(.p 0, [v "x"])]⟩]

def safeCs : List (Clause P) := cs (.or (.not (.atom (v "x"))) (.or (.not (.atom (v "y"))) (.atom (v "z"))))
def unsCs : List (Clause P) := cs (.and (.atom (v "x")) (.and (.atom (v "y")) (.not (.atom (v "z")))))

def eng (S : Smt P) (n : Nat) : PRepr → GS P → Outcome (VerificationResult P) := paSolve S propSmt keepE.except id id order true false n

theorem legal (l : Fla P) (hl : ∀ x ∈ l.vars, x = .base (.user "x") ∨ x = .base (.user "y") ∨ x = .base (.user "z")) : LegalInput ar (cs l) := by
  refine ⟨⟨rfl, rfl, ?_⟩, ?_, ?_⟩
  · intro c hc
    simp [cs] at hc
    rcases hc with rfl | rfl | rfl <;> simp [ar]
  · intro c hc x hx
    simp [cs] at hc
    rcases hc with rfl | rfl | rfl <;> simp [Clause.vars, Fla.vars, Tm.vars, v] at hx
    · subst hx; trivial
    · rcases hx with hx | rfl | rfl | rfl
      · rcases hl x hx with rfl | rfl | rfl <;> trivial
      · trivial
      · trivial
      · trivial
    · subst hx; trivial
  · intro c hc
    simp [cs] at hc
    rcases hc with rfl | rfl | rfl <;> constructor <;> simp

theorem orders : PaOrders (T := P) id id order := ⟨fun _ _ => Iff.rfl, fun _ _ => Iff.rfl, fun G p => order_ok G p⟩

/-- The hypotheses of C67. -/
theorem hyps : propSmt.Sound ∧ propSmt.Correct ∧ propSmt.Complete ∧ propSmt.TreeItp ∧ keepE.except.Exact ∧ PaOrders (T := P) id id order ∧
    LegalInput ar safeCs ∧ LegalInput ar unsCs ∧ RewritesApart nameIff safeCs ∧ RewritesApart nameIff unsCs := by
  refine ⟨propSmt_sound, propSmt_sound.correct, propSmt_complete, propSmt_treeItp, keepE_exact.except, orders, legal _ ?_, legal _ ?_, ?_, ?_⟩
  · intro x hx; simp [Fla.vars, Tm.vars, v] at hx; grind
  · intro x hx; simp [Fla.vars, Tm.vars, v] at hx; grind
  · have : ∀ e ∈ (initialGraph safeCs).edges, ∀ e' ∈ (initialGraph safeCs).edges, e ≠ e' →
        ∀ x ∈ (nameIff e.fla).vars, CheckEx.isBase x = true → x ∉ (nameIff e'.fla).vars := by decide +kernel
    intro e he e' he' hne n hn
    exact this e he e' he' hne _ hn rfl
  · have : ∀ e ∈ (initialGraph unsCs).edges, ∀ e' ∈ (initialGraph unsCs).edges, e ≠ e' →
        ∀ x ∈ (nameIff e.fla).vars, CheckEx.isBase x = true → x ∉ (nameIff e'.fla).vars := by decide +kernel
    intro e he e' he' hne n hn
    exact this e he e' he' hne _ hn rfl

/-- Nonlinear clauses with a model: the abstraction is refined, `sat` is printed with a model that passes validation. -/
theorem C67_example_safe : (∃ r, (checkSat propSmt nameIff keepE order 3 (eng propSmt 20) true true safeCs).1 =
    [.answer .safe, .witness r, .validation true]) ∧ Satisfiable (clauseRules safeCs) := by
  have h : (match (checkSat propSmt nameIff keepE order 3 (eng propSmt 20) true true safeCs).1 with
    | [.answer a, .witness _, .validation b] => decide (a = .safe) && b | _ => false) = true := by decide +kernel
  have hx : ∃ r, (checkSat propSmt nameIff keepE order 3 (eng propSmt 20) true true safeCs).1 = [.answer .safe, .witness r, .validation true] := by
    split at h
    · rename_i a r b he
      simp only [Bool.and_eq_true, decide_eq_true_eq] at h
      obtain ⟨rfl, rfl⟩ := h
      exact ⟨r, he⟩
    · cases h
  refine ⟨hx, ?_⟩
  obtain ⟨r, hr⟩ := hx
  obtain ⟨a1, a2, a3, a4, a5, a6, a7, -, a9, -⟩ := hyps
  exact (C67_check (pfuel := 3) (w := true) (hasArrays := false) (fuel := 20) (printW := true) (validateW := true) a1 nameIff_exact keepE_exact a5
    order_ok a2 a3 a1 a4 a6 a7 a9).1 (by rw [show paSolve propSmt propSmt keepE.except id id order true false 20 = eng propSmt 20 from rfl, hr]; simp)

/-- Nonlinear clauses without model: `unsat` is printed with a derivation of `false` from the input clauses. -/
theorem C67_example_unsafe : (∃ ds, ds ≠ [] ∧ (checkSat propSmt nameIff keepE order 3 (eng propSmt 20) true true unsCs).1 =
    [.answer .unsafeAns, .witness ⟨.unsafeAns, .invalidity ds⟩, .validation true] ∧
    UnsafeWitness (normalize unsCs).1.repr (initialGraph unsCs).edges ds) ∧ ¬ Satisfiable (clauseRules unsCs) := by
  have h : (match (checkSat propSmt nameIff keepE order 3 (eng propSmt 20) true true unsCs).1 with
    | [.answer .unsafeAns, .witness ⟨.unsafeAns, .invalidity (_ :: _)⟩, .validation true] => true | _ => false) = true := by
    decide +kernel
  have hx : ∃ ds, ds ≠ [] ∧ (checkSat propSmt nameIff keepE order 3 (eng propSmt 20) true true unsCs).1 =
      [.answer .unsafeAns, .witness ⟨.unsafeAns, .invalidity ds⟩, .validation true] := by
    split at h
    · rename_i hr; exact ⟨_, List.cons_ne_nil _ _, hr⟩
    · cases h
  obtain ⟨ds, h0, hr⟩ := hx
  obtain ⟨a1, a2, a3, a4, a5, a6, -, a8, -, a10⟩ := hyps
  obtain ⟨-, c2, c3⟩ := C67_check (pfuel := 3) (w := true) (hasArrays := false) (fuel := 20) (printW := true) (validateW := true) a1 nameIff_exact
    keepE_exact a5 order_ok a2 a3 a1 a4 a6 a8 a10
  rw [show paSolve propSmt propSmt keepE.except id id order true false 20 = eng propSmt 20 from rfl, hr] at c2 c3
  exact ⟨⟨ds, h0, hr, ((c3 .unsafeAns ds (by simp)).resolve_left h0).2⟩, c2 (by simp)⟩

/-- A refinement really happens in the run for the safe clauses, so `C67_refinement` is about something: after the first node was made,
the query is taken from the queue with sources that still allow it, and the run goes on. -/
def refines (E : PaEnv P) : Nat → PaState P → Bool
  | 0, _ => false
  | n + 1, s =>
    match s.queue with
    | [] => false
    | q :: rest =>
      (decide (q.edge.tgt = .fls) && E.feasible { s with queue := rest } q && (match E.step true { s with queue := rest } q with | .done (.inr _) => true | _ => false)) ||
      match E.step true { s with queue := rest } q with
      | .done (.inr s') => refines E n s'
      | _ => false

theorem refines_reach {E : PaEnv P} : ∀ (n : Nat) (s : PaState P), PaReach E true s → refines E n s = true →
    ∃ s s' q rest, PaReach E true s ∧ s.queue = q :: rest ∧ q.edge.tgt = .fls ∧ E.feasible { s with queue := rest } q = true ∧
      E.step true { s with queue := rest } q = .done (.inr s') := by
  intro n
  induction n with
  | zero => intro s _ h; cases h
  | succ n ih =>
    intro s hs h
    rw [refines] at h
    cases hq : s.queue with
    | nil => rw [hq] at h; cases h
    | cons q rest =>
      rw [hq] at h
      simp only [Bool.or_eq_true, Bool.and_eq_true, decide_eq_true_eq] at h
      rcases h with ⟨⟨h1, h2⟩, h3⟩ | h
      · split at h3
        · rename_i s' he; exact ⟨s, s', q, rest, hs, hq, h1, h2, he⟩
        · cases h3
      · split at h
        · rename_i s' he; exact ih s' (.step hs hq he) h
        · cases h

open ValidatorEx (R R_wf safeG)

/-- The hypotheses of `C67_refinement` are met in the run for `ValidatorEx.safeG`. -/
theorem C67_example_refinement : ∃ E : PaEnv P, E.S = propSmt ∧ E.I = propSmt ∧ E.R = R ∧ ∃ s s' q rest, PaReach E true s ∧ s.queue = q :: rest ∧
    q.edge.tgt = .fls ∧ E.feasible { s with queue := rest } q = true ∧ E.step true { s with queue := rest } q = .done (.inr s') :=
  ⟨⟨propSmt, propSmt, R, pauxPass R keepE.except 0 safeG, id, id, order safeG⟩, rfl, rfl, rfl,
    refines_reach 5 _ .init (by decide +kernel)⟩

/-! ### A solver that does not decide -/

/-- A solver that answers `unknown` to every query: it never says anything wrong. -/
def unkSmt : Smt P := ⟨fun _ => .unknown, fun _ _ => false, fun _ _ => .tt⟩

/-- `p(a) ← ¬a`;  `p(y) ← p(x), y`;  `false ← p(x), x`. -/
def missCs : List (Clause P) :=
  [⟨(.p 0, [v "a"]), .not (.atom (v "a")), []⟩,
   ⟨(.p 0, [v "y"]), .atom (v "y"), [(.p 0, [v "x"])]⟩,
   ⟨(.fls, []), .atom (v "x"), [(.p 0, [v "x"])]⟩]

theorem miss_legal : LegalInput ar missCs := by
  refine ⟨⟨rfl, rfl, ?_⟩, ?_, ?_⟩
  · intro c hc
    simp [missCs] at hc
    rcases hc with rfl | rfl | rfl <;> simp [ar]
  · intro c hc x hx
    simp [missCs] at hc
    rcases hc with rfl | rfl | rfl <;> simp [Clause.vars, Fla.vars, Tm.vars, v] at hx
    · subst hx; trivial
    · rcases hx with rfl | rfl <;> trivial
    · subst hx; trivial
  · intro c hc
    simp [missCs] at hc
    rcases hc with rfl | rfl | rfl <;> constructor <;> simp

/-- The finding: UNKNOWN from the solver of the abstraction is not harmless. With a correct solver for the abstraction that answers UNKNOWN,
and a complete solver with tree interpolants for the rest, `check-sat` prints `sat` for clauses that have no model (and the
validator rejects the witness): the refuted query was dropped although the predicates could not be propagated. -/
theorem C67_unknown_unsound : unkSmt.Correct ∧ propSmt.Sound ∧ propSmt.Complete ∧ propSmt.TreeItp ∧ LegalInput ar missCs ∧
    (∃ r, (checkSat propSmt nameIff keepE order 3 (eng unkSmt 20) true true missCs).1 = [.answer .safe, .witness r, .validation false]) ∧
    ¬ Satisfiable (clauseRules missCs) := by
  obtain ⟨a1, a2, a3, a4, a5, a6, -⟩ := hyps
  refine ⟨⟨fun fs h => (by cases h), fun fs h => (by cases h)⟩, a1, a3, a4, miss_legal, ?_, ?_⟩
  · have h : (match (checkSat propSmt nameIff keepE order 3 (eng unkSmt 20) true true missCs).1 with
      | [.answer .safe, .witness _, .validation false] => true | _ => false) = true := by decide +kernel
    split at h
    · rename_i r he; exact ⟨r, he⟩
    · cases h
  · have h : (match (checkSat propSmt nameIff keepE order 3 (eng propSmt 20) false false missCs).1 with
      | [.answer .unsafeAns] => true | _ => false) = true := by decide +kernel
    have ha : RewritesApart nameIff missCs := by
      have : ∀ e ∈ (initialGraph missCs).edges, ∀ e' ∈ (initialGraph missCs).edges, e ≠ e' →
          ∀ x ∈ (nameIff e.fla).vars, CheckEx.isBase x = true → x ∉ (nameIff e'.fla).vars := by decide +kernel
      intro e he e' he' hne n hn
      exact this e he e' he' hne _ hn rfl
    have := (C67_check (pfuel := 3) (w := true) (hasArrays := false) (fuel := 20) (printW := false) (validateW := false) a1 nameIff_exact keepE_exact a5
      order_ok a2 a3 a1 a4 a6 miss_legal ha).2.1
    rw [show paSolve propSmt propSmt keepE.except id id order true false 20 = eng propSmt 20 from rfl] at this
    split at h
    · rename_i he; rw [he] at this; exact this (by simp)
    · cases h

end ArgEx
end Golem
