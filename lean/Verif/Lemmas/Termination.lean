import Verif.Spec.Termination
import Verif.Model.Termination.Common
import Verif.Props.Normalizer
import Verif.Props.Pipeline
import Verif.Lemmas.TransitionSystem

/-! Lemmas shared by the termination back ends. -/

namespace Golem
variable {T : Theory}

/-- The state and auxiliary variables of the system are current versions `n##0` (what `TimeMachine` makes of them). -/
structure TS.Versioned (ts : TS T) : Prop where
  state : ∀ x ∈ ts.stateVars, ∃ n, x = .ver n 0
  aux : ∀ x ∈ ts.auxVars, ∃ n, x = .ver n 0

/-- The answer of a result is right for the graph. -/
structure AnswersRight (R : PRepr) (G : Graph T) (r : VerificationResult T) : Prop where
  unsafeAns : r.answer = .unsafeAns → G.Unsafe R
  safe : r.answer = .safe → ¬ G.Unsafe R

theorem HyperResultOk.answers {R : PRepr} {G : Graph T} {r : VerificationResult T} (h : HyperResultOk R G r) :
    AnswersRight R G r := ⟨h.unsafeAns, h.safe⟩

/-- On the graph of these clauses the engine gives right answers. -/
def Engine.RightOn (E : Engine T) (cs : List (Clause T)) : Prop :=
  ∀ r, solveClauses E cs = .done r → AnswersRight (normalize cs).1.repr (buildGraph (normalize cs).2) r

/-- On the graph of these clauses the engine gives right answers and right witnesses. -/
def Engine.GoodOn (E : Engine T) (cs : List (Clause T)) : Prop :=
  ∀ r, solveClauses E cs = .done r → HyperResultOk (normalize cs).1.repr (buildGraph (normalize cs).2) r

theorem Engine.GoodOn.right {E : Engine T} {cs : List (Clause T)} (h : E.GoodOn cs) : E.RightOn cs :=
  fun r hr => (h r hr).answers

theorem solveClauses_right {E : Engine T} {cs : List (Clause T)} {ar : Pred → Nat} (har : ArityConsistent ar cs)
    (hu : ∀ c ∈ cs, c.User) (hE : E.RightOn cs) {r : VerificationResult T} (h : solveClauses E cs = .done r) :
    (r.answer = .unsafeAns → Derivable (clauseRules cs) falseFact) ∧
    (r.answer = .safe → ¬ Derivable (clauseRules cs) falseFact) := by
  have hr := hE r h
  constructor
  · intro ha
    exact (C04_input_to_graph ar cs har hu _).1 (hr.unsafeAns ha)
  · intro ha hd
    exact hr.safe ha ((C04_input_to_graph ar cs har hu _).2 hd)

theorem STS.Lasso.infiniteRun {σ : Type} {M : STS σ} (h : M.Lasso) : M.InfiniteRun := by
  obtain ⟨s, n, ⟨m, s0, hi, hp⟩, hl⟩ := h
  obtain ⟨f, f0, fm, -, fs⟩ := hp.toSeq
  obtain ⟨g, g0, gn, -, gs⟩ := hl.toSeq
  refine ⟨fun i => if i < m then f i else g ((i - m) % (n + 1)), ?_, ?_⟩
  · by_cases h0 : 0 < m
    · simpa [h0, f0] using hi
    · have : m = 0 := by omega
      subst this
      have e : s0 = s := by rw [← f0, fm]
      simpa [g0, ← e] using hi
  · intro i
    by_cases h1 : i + 1 < m
    · have h2 : i < m := by omega
      simpa [h1, h2] using fs i h2
    · by_cases h2 : i < m
      · have e : i + 1 = m := by omega
        have h3 := fs i h2
        rw [e, fm] at h3
        simp only [h2, if_true, e, Nat.lt_irrefl, if_false, Nat.sub_self, Nat.zero_mod, g0]
        exact h3
      · simp only [h1, h2, if_false]
        have e : i + 1 - m = (i - m) + 1 := by omega
        rw [e]
        have hlt : (i - m) % (n + 1) < n + 1 := Nat.mod_lt _ (by omega)
        have h3 := gs _ hlt
        by_cases h4 : (i - m) % (n + 1) = n
        · have h5 : (i - m + 1) % (n + 1) = 0 := by
            rw [Nat.add_mod, h4]
            by_cases hn0 : n = 0
            · subst hn0; rfl
            · rw [Nat.mod_eq_of_lt (a := 1) (by omega), Nat.mod_self]
          rw [h5, g0]
          rw [h4] at h3 ⊢
          rw [gn] at h3
          exact h3
        · have h5 : (i - m + 1) % (n + 1) = (i - m) % (n + 1) + 1 := by
            rw [Nat.add_mod]
            by_cases hn0 : n = 0
            · omega
            · rw [Nat.mod_eq_of_lt (a := 1) (by omega), Nat.mod_eq_of_lt (by omega)]
          rw [h5]
          exact h3

theorem STS.BoundedBy.terminates {σ : Type} {M : STS σ} {b : σ → Nat} (h : M.BoundedBy b) : M.Terminates := by
  rintro ⟨r, hi, hs⟩
  have hp : ∀ n, M.Path n (r 0) (r n) := fun n => by
    induction n with
    | zero => exact .refl _
    | succ n ih => exact .snoc ih (hs n)
  have := h _ hi _ _ (hp (b (r 0) + 1))
  omega

/-! ### The clauses of a transition system -/

/-- A system given by its variables and formulas. -/
def mkTS (vars : List Var) (init trans query : Fla T) : TS T := ⟨vars, [], init, trans, query⟩

theorem systemClauses_rules {k : Nat} {vars : List Var} {i t q : Fla T} {r : GRule T} :
    clauseRules (systemClauses k vars i t q) r ↔
      (∃ s, (mkTS vars i t q).sem.Init s ∧ r = ⟨[], (.p k, s)⟩) ∨
      (∃ s u, (mkTS vars i t q).sem.Step s u ∧ r = ⟨[(.p k, s)], (.p k, u)⟩) ∨
      (∃ s, (mkTS vars i t q).sem.Bad s ∧ r = ⟨[(.p k, s)], falseFact⟩) := by
  constructor
  · rintro ⟨c, hc, ρ, hh, rfl⟩
    simp only [systemClauses, List.mem_cons, List.not_mem_nil, or_false] at hc
    rcases hc with rfl | rfl | rfl
    · exact Or.inl ⟨vars.map ρ, ⟨ρ, hh, rfl⟩, by simp [PAtom.ground, Function.comp_def, Tm.eval]⟩
    · exact Or.inr (Or.inl ⟨vars.map ρ, vars.map fun x => ρ (shift 1 x),
        ⟨ρ, hh, rfl, by simp [mkTS, TS.nextVars, Function.comp_def]⟩, by simp [PAtom.ground, Function.comp_def, Tm.eval]⟩)
    · exact Or.inr (Or.inr ⟨vars.map ρ, ⟨ρ, hh, rfl⟩, by simp [PAtom.ground, Function.comp_def, Tm.eval, falseFact]⟩)
  · rintro (⟨s, ⟨ρ, hh, rfl⟩, rfl⟩ | ⟨s, u, ⟨ρ, hh, rfl, rfl⟩, rfl⟩ | ⟨s, ⟨ρ, hh, rfl⟩, rfl⟩)
    · exact ⟨_, by simp [systemClauses]; left; rfl, ρ, hh, by simp [PAtom.ground, Function.comp_def, Tm.eval, mkTS]⟩
    · exact ⟨_, by simp [systemClauses]; right; left; rfl, ρ, hh,
        by simp [PAtom.ground, Function.comp_def, Tm.eval, mkTS, TS.nextVars]⟩
    · exact ⟨_, by simp [systemClauses]; right; right; rfl, ρ, hh,
        by simp [PAtom.ground, Function.comp_def, Tm.eval, falseFact, mkTS]⟩

theorem systemClauses_reach {k : Nat} {vars : List Var} {i t q : Fla T} {s : List T.Val} :
    Derivable (clauseRules (systemClauses k vars i t q)) (.p k, s) ↔ (mkTS vars i t q).sem.Reachable s := by
  constructor
  · intro h
    let M : Fact T → Prop := fun f => match f.1 with
      | .p _ => (mkTS vars i t q).sem.Reachable f.2
      | _ => True
    have hM : SatisfiesRules (clauseRules (systemClauses k vars i t q)) M := by
      refine ⟨trivial, ?_⟩
      intro r hr hb
      rcases systemClauses_rules.1 hr with ⟨s, hs, rfl⟩ | ⟨s, u, hs, rfl⟩ | ⟨s, hs, rfl⟩
      · exact ⟨0, s, hs, .refl s⟩
      · obtain ⟨n, s0, hi, hp⟩ := hb _ (List.mem_singleton.2 rfl)
        exact ⟨n + 1, s0, hi, .snoc hp hs⟩
      · trivial
    exact h.sound hM
  · rintro ⟨n, s0, hi, hp⟩
    induction hp with
    | refl => exact Derivable.step ⟨[], _⟩ (systemClauses_rules.2 (Or.inl ⟨_, hi, rfl⟩)) (by simp)
    | snoc hp st ih =>
      exact Derivable.step ⟨[_], _⟩ (systemClauses_rules.2 (Or.inr (Or.inl ⟨_, _, st, rfl⟩))) (by simpa using ih hi)

theorem systemClauses_unsafe {k : Nat} {vars : List Var} {i t q : Fla T} :
    Derivable (clauseRules (systemClauses k vars i t q)) falseFact ↔ (mkTS vars i t q).sem.Unsafe := by
  constructor
  · intro h
    let M : Fact T → Prop := fun f => match f.1 with
      | .p _ => (mkTS vars i t q).sem.Reachable f.2
      | .fls => (mkTS vars i t q).sem.Unsafe
      | _ => True
    have hM : SatisfiesRules (clauseRules (systemClauses k vars i t q)) M := by
      refine ⟨trivial, ?_⟩
      intro r hr hb
      rcases systemClauses_rules.1 hr with ⟨s, hs, rfl⟩ | ⟨s, u, hs, rfl⟩ | ⟨s, hs, rfl⟩
      · exact ⟨0, s, hs, .refl s⟩
      · obtain ⟨n, s0, hi, hp⟩ := hb _ (List.mem_singleton.2 rfl)
        exact ⟨n + 1, s0, hi, .snoc hp hs⟩
      · obtain ⟨n, hn⟩ := hb _ (List.mem_singleton.2 rfl)
        exact ⟨n, s, hn, hs⟩
    exact h.sound hM
  · rintro ⟨n, s, hn, hs⟩
    exact Derivable.step ⟨[_], _⟩ (systemClauses_rules.2 (Or.inr (Or.inr ⟨s, hs, rfl⟩)))
      (by simpa using systemClauses_reach.2 ⟨n, hn⟩)

theorem systemClauses_user {k : Nat} {vars : List Var} {i t q : Fla T} (hs : ∀ x ∈ vars, ∃ n, x = .ver n 0)
    (hi : ∀ x ∈ i.vars, x.Untagged) (ht : ∀ x ∈ t.vars, x.Untagged) (hq : ∀ x ∈ q.vars, x.Untagged) :
    ∀ c ∈ systemClauses k vars i t q, c.User := by
  have h0 : ∀ x ∈ (vars.map (Tm.var (T := T))).flatMap Tm.vars, x.Untagged := by
    intro x hx
    simp only [List.mem_flatMap, List.mem_map] at hx
    obtain ⟨_, ⟨y, hy, rfl⟩, hx⟩ := hx
    simp only [Tm.vars, List.mem_singleton] at hx; subst hx
    obtain ⟨n, rfl⟩ := hs _ hy; trivial
  have h1 : ∀ x ∈ (vars.map fun x => Tm.var (T := T) (shift 1 x)).flatMap Tm.vars, x.Untagged := by
    intro x hx
    simp only [List.mem_flatMap, List.mem_map] at hx
    obtain ⟨_, ⟨y, hy, rfl⟩, hx⟩ := hx
    simp only [Tm.vars, List.mem_singleton] at hx; subst hx
    obtain ⟨n, rfl⟩ := hs _ hy; trivial
  intro c hc x hx
  simp only [systemClauses, List.mem_cons, List.not_mem_nil, or_false] at hc
  rcases hc with rfl | rfl | rfl <;>
    simp only [Clause.vars, List.flatMap_cons, List.flatMap_nil, List.append_nil, List.mem_append,
      List.not_mem_nil, false_or] at hx
  · exact hx.elim (hi x) (h0 x)
  · exact hx.elim (ht x) fun h => h.elim (h1 x) (h0 x)
  · exact hx.elim (hq x) (h0 x)

theorem systemClauses_arity {k : Nat} {vars : List Var} {i t q : Fla T} : ArityConsistent (fun p => match p with
    | .p _ => vars.length
    | _ => 0) (systemClauses k vars i t q) := by
  refine ⟨rfl, rfl, ?_⟩
  intro c hc
  simp only [systemClauses, List.mem_cons, List.not_mem_nil, or_false] at hc
  rcases hc with rfl | rfl | rfl <;> simp

end Golem
