import Verif.Props.DefaultPipeline
import Verif.Props.InitialGraph
import Verif.Props.SpacerClauses
import Verif.Props.SymbolicExecution
import Verif.Props.SingleLoopEngines
import Verif.Props.ValidatorComplete

/-! C57: the `check-sat` command, from the clauses to what is printed. -/

namespace Golem
variable {T : Theory}

/-- The engine's answers are right on the graph of `st`. -/
def AnswerOk (R : PRepr) (G : Graph T) (r : VerificationResult T) : Prop :=
  (r.answer = .unsafeAns → G.Unsafe R) ∧ (r.answer = .safe → ¬ G.Unsafe R)

/-- The engine gives right answers on the graphs the preprocessing hands to it. -/
def CheckEngine.Right (engine : PRepr → GS T → Outcome (VerificationResult T)) : Prop :=
  ∀ R st r, R.WF → R.FreshNames → st.Inv R → st.edges.NoStray → engine R st = .done r → AnswerOk R st.edges r

/-- The engine gives right answers and right witnesses on the graphs the preprocessing hands to it. -/
def CheckEngine.Good (engine : PRepr → GS T → Outcome (VerificationResult T)) : Prop :=
  ∀ R st r, R.WF → R.FreshNames → st.Inv R → st.edges.NoStray → engine R st = .done r → HyperResultOk R st.edges r

theorem CheckEngine.Good.right {engine : PRepr → GS T → Outcome (VerificationResult T)} (h : CheckEngine.Good engine) :
    CheckEngine.Right engine := fun R st r a b c d e => ⟨(h R st r a b c d e).unsafeAns, (h R st r a b c d e).safe⟩

/-- A legal list of input clauses: predicates are used with one arity, variables have user names, and heads and body atoms
are predicates (or, for heads, `false`). -/
structure LegalInput (ar : Pred → Nat) (cs : List (Clause T)) : Prop where
  arity : ArityConsistent ar cs
  user : ∀ c ∈ cs, c.User
  shape : ∀ c ∈ cs, c.Shape

/-- The rewriters give different variables to different clauses (see `NoClash`). -/
def RewritesApart (rw : Fla T → Fla T) (cs : List (Clause T)) : Prop :=
  ∀ e ∈ (initialGraph cs).edges, ∀ e' ∈ (initialGraph cs).edges, e ≠ e' → ∀ n, .base n ∈ (rw e.fla).vars →
    .base n ∉ (rw e'.fla).vars

section
variable {S : Smt T} {rw : Fla T → Fla T} {E : Elim T} {order : Graph T → List Pred} {fuel : Nat}
  {engine : PRepr → GS T → Outcome (VerificationResult T)} {printW validateW : Bool} {ar : Pred → Nat} {cs : List (Clause T)}

theorem checkSat_cases {l : CheckLine T}
    (h : l ∈ (checkSat S rw E order fuel engine printW validateW cs).1) :
    ∃ st b r, pipeline (defaultStages S (normalize cs).1.repr rw E order fuel) (initialGraph cs) = .done (st, b) ∧
      engine (normalize cs).1.repr st = .done r ∧
      (l = .answer r.answer ∨
        l ∈ (afterAnswer S (normalize cs).1.repr (initialGraph cs).edges b printW validateW r).1 ∧ r.answer ≠ .unknown) := by
  unfold checkSat at h
  simp only at h
  split at h
  · rename_i st b hp
    split at h
    · rename_i r hr
      refine ⟨st, b, r, hp, hr, ?_⟩
      split at h
      · simp only [List.mem_singleton] at h
        exact .inl h
      · rename_i hu
        simp only [List.mem_cons] at h
        exact h.imp_right fun h => ⟨h, hu⟩
    · simp at h
    · simp at h
  · simp at h
  · simp at h

/-- What `doWorkAfterAnswer` prints. -/
theorem afterAnswer_mem {R : PRepr} {G : Graph T} {b : OBack T} {r : VerificationResult T} {l : CheckLine T}
    (h : l ∈ (afterAnswer S R G b printW validateW r).1) :
    (∃ r', b.result r = .done r' ∧ l = .witness r' ∧ printW = true) ∨
    (∃ r', b.result r = .done r' ∧ l = .validation true ∧ validate S R G r' = .validated) ∨ l = .validation false := by
  unfold afterAnswer at h
  split at h
  · split at h
    · rename_i r' hr
      split at h
      · split at h <;> simp_all
      · simp only at h
        split at h
        · split at h
          · rename_i hv
            simp only [List.mem_append, List.mem_singleton] at h
            rcases h with h | rfl
            · split at h
              · rename_i hp; simp at h; exact .inl ⟨r', hr, h, hp⟩
              · simp at h
            · exact .inr (.inl ⟨r', hr, rfl, hv⟩)
          · simp only [List.mem_append, List.mem_singleton] at h
            rcases h with h | rfl
            · split at h
              · rename_i hp; simp at h; exact .inl ⟨r', hr, h, hp⟩
              · simp at h
            · exact .inr (.inr rfl)
          · split at h
            · rename_i hp; simp at h; exact .inl ⟨r', hr, h, hp⟩
            · simp at h
        · split at h
          · rename_i hp; simp at h; exact .inl ⟨r', hr, h, hp⟩
          · simp at h
    · simp at h
    · simp at h
  · simp at h

theorem LegalInput.noClash (hin : LegalInput ar cs) (ha : RewritesApart rw cs) :
    NoClash (normalize cs).1.repr rw (initialGraph cs).edges := by
  obtain ⟨h1, h2⟩ := initialGraph_names ar cs hin.arity hin.user
  exact ⟨h1, h2, ha⟩

/-- `C57_check_sat` for an engine that is right on the one graph it gets. -/
theorem C57_check_sat_at (hS : S.Sound) (hrw : RewriteExact rw) (hE : E.Exact) (ho : IsOrder order)
    (hin : LegalInput ar cs) (ha : RewritesApart rw cs)
    (he : ∀ st b r, pipeline (defaultStages S (normalize cs).1.repr rw E order fuel) (initialGraph cs) = .done (st, b) →
      engine (normalize cs).1.repr st = .done r → AnswerOk (normalize cs).1.repr st.edges r) :
    (.answer .safe ∈ (checkSat S rw E order fuel engine printW validateW cs).1 → Satisfiable (clauseRules cs)) ∧
    (.answer .unsafeAns ∈ (checkSat S rw E order fuel engine printW validateW cs).1 → ¬ Satisfiable (clauseRules cs)) := by
  obtain ⟨hR, hF, hI⟩ := C04_initial_graph ar cs hin.arity hin.user hin.shape
  have hgr := C04_input_to_graph ar cs hin.arity hin.user falseFact
  have key : ∀ a, .answer a ∈ (checkSat S rw E order fuel engine printW validateW cs).1 →
      ∃ r : VerificationResult T, r.answer = a ∧ AnswerOk (normalize cs).1.repr (initialGraph cs).edges r := by
    intro a h
    obtain ⟨st, b, r, hp, hr, hl⟩ := checkSat_cases h
    obtain ⟨i1, v1, -⟩ := C56_default_pipeline hS hR hF hrw hE ho hI (hin.noClash ha) hp
    have hA := he st b r hp hr
    rcases hl with hl | ⟨hl, -⟩
    · cases hl
      exact ⟨r, rfl, fun h => v1.2 (hA.1 h), fun h hu => hA.2 h (v1.1 hu)⟩
    · rcases afterAnswer_mem hl with ⟨_, _, h, _⟩ | ⟨_, _, h, _⟩ | h <;> cases h
  constructor
  · intro h
    obtain ⟨r, h1, h2⟩ := key _ h
    exact (C05_sat_iff_not_derivable _).2 fun hd => h2.2 h1 (hgr.2 hd)
  · intro h hsat
    obtain ⟨r, h1, h2⟩ := key _ h
    exact (C05_sat_iff_not_derivable _).1 hsat (hgr.1 (h2.1 h1))

/-- **C57**: `sat` is printed only if the clauses have a model, `unsat` only if they have none. -/
theorem C57_check_sat (hS : S.Sound) (hrw : RewriteExact rw) (hE : E.Exact) (ho : IsOrder order)
    (he : CheckEngine.Right engine) (hin : LegalInput ar cs) (ha : RewritesApart rw cs) :
    (.answer .safe ∈ (checkSat S rw E order fuel engine printW validateW cs).1 → Satisfiable (clauseRules cs)) ∧
    (.answer .unsafeAns ∈ (checkSat S rw E order fuel engine printW validateW cs).1 → ¬ Satisfiable (clauseRules cs)) := by
  obtain ⟨hR, hF, hI⟩ := C04_initial_graph ar cs hin.arity hin.user hin.shape
  exact C57_check_sat_at hS hrw hE ho hin ha fun st b r hp hr =>
    he _ st r hR hF (C56_default_pipeline hS hR hF hrw hE ho hI (hin.noClash ha) hp).1
      (default_noStray hS hR hF hrw hE ho hI (hin.noClash ha) hp) hr

/-- `C57_unsafe_witness` for an engine that is right on the one graph it gets. -/
theorem C57_unsafe_witness_at (hS : S.Sound) (hrw : RewriteExact rw) (hE : E.Exact) (ho : IsOrder order)
    (hin : LegalInput ar cs) (ha : RewritesApart rw cs)
    (he : ∀ st b r, pipeline (defaultStages S (normalize cs).1.repr rw E order fuel) (initialGraph cs) = .done (st, b) →
      engine (normalize cs).1.repr st = .done r → HyperResultOk (normalize cs).1.repr st.edges r) {a : VAnswer} {ds : List (DStep T)}
    (h : .witness ⟨a, .invalidity ds⟩ ∈ (checkSat S rw E order fuel engine printW validateW cs).1) :
    ds = [] ∨ (a = .unsafeAns ∧ UnsafeWitness (normalize cs).1.repr (initialGraph cs).edges ds) := by
  obtain ⟨hR, hF, hI⟩ := C04_initial_graph ar cs hin.arity hin.user hin.shape
  obtain ⟨st, b, r, hp, hr, hl⟩ := checkSat_cases h
  obtain ⟨i1, v1, u1, un⟩ := C56_default_pipeline hS hR hF hrw hE ho hI (hin.noClash ha) hp
  have hG := he st b r hp hr
  rcases hl with hl | ⟨hl, hnu⟩
  · cases hl
  · rcases afterAnswer_mem hl with ⟨r', hb, hw, -⟩ | ⟨_, _, h, _⟩ | h
    · cases hw
      obtain ⟨ra, rw'⟩ := r
      cases rw' with
      | none => simp [OBack.result] at hb
      | validity D =>
        cases ra <;> simp only [OBack.result] at hb
        · split at hb <;> simp at hb
        · simp at hb
        · exact absurd rfl hnu
      | invalidity ds0 =>
        cases ra <;> simp only [OBack.result] at hb
        · simp at hb
        · split at hb
          · rename_i ds1 hd
            simp only [Outcome.done.injEq, VerificationResult.mk.injEq, Witness.invalidity.injEq] at hb
            obtain ⟨rfl, rfl⟩ := hb
            by_cases h0 : ds0 = []
            · subst h0
              rw [un] at hd; cases hd; exact .inl rfl
            · obtain ⟨-, hw, hsh⟩ := hG.invalidity ds0 rfl h0
              exact (u1 ds0 _ hw hsh hd).imp_right fun h => ⟨rfl, h⟩
          · simp at hb
          · simp at hb
        · exact absurd rfl hnu
    · cases h
    · cases h

/-- **C57**, UNSAFE witnesses: a refutation printed after `unsat` is empty, or it is a derivation of `false` in the graph of
the input clauses. -/
theorem C57_unsafe_witness (hS : S.Sound) (hrw : RewriteExact rw) (hE : E.Exact) (ho : IsOrder order)
    (he : CheckEngine.Good engine) (hin : LegalInput ar cs) (ha : RewritesApart rw cs) {a : VAnswer} {ds : List (DStep T)}
    (h : .witness ⟨a, .invalidity ds⟩ ∈ (checkSat S rw E order fuel engine printW validateW cs).1) :
    ds = [] ∨ (a = .unsafeAns ∧ UnsafeWitness (normalize cs).1.repr (initialGraph cs).edges ds) := by
  obtain ⟨hR, hF, hI⟩ := C04_initial_graph ar cs hin.arity hin.user hin.shape
  exact C57_unsafe_witness_at hS hrw hE ho hin ha (fun st b r hp hr =>
    he _ st r hR hF (C56_default_pipeline hS hR hF hrw hE ho hI (hin.noClash ha) hp).1
      (default_noStray hS hR hF hrw hE ho hI (hin.noClash ha) hp) hr) h

/-- **C57**, completeness of the output: with a complete solver, under the conditions `DefaultReady` on the preprocessing and
with an engine that returns a complete witness, `check-sat` prints the answer, a witness that is one for the graph of the
input clauses, and (if the definitions are a map) `validation successful`. -/
theorem C57_complete (hS : S.Sound) (hSC : S.Complete) (hrw : RewriteExact rw) (hE : E.Exact) (ho : IsOrder order)
    (hin : LegalInput ar cs) (ha : RewritesApart rw cs)
    (hready : ∀ pre post st1 bs1, defaultStages S (normalize cs).1.repr rw E order fuel = pre ++ post →
      runStages pre (initialGraph cs) = .done (st1, bs1) → DefaultReady (normalize cs).1.repr E fuel st1 pre.length) :
    ∃ st, (∃ b, pipeline (defaultStages S (normalize cs).1.repr rw E order fuel) (initialGraph cs) = .done (st, b)) ∧
    (∀ D, engine (normalize cs).1.repr st = .done ⟨.safe, .validity D⟩ → SafeWitness (normalize cs).1.repr st.edges D →
      ∃ D', SafeWitness (normalize cs).1.repr (initialGraph cs).edges D' ∧
        (checkSat S rw E order fuel engine true false cs) = ([.answer .safe, .witness ⟨.safe, .validity D'⟩], .done ()) ∧
        ((D'.map Prod.fst).Nodup → checkSat S rw E order fuel engine true true cs =
          ([.answer .safe, .witness ⟨.safe, .validity D'⟩, .validation true], .done ()))) ∧
    (∀ ds, engine (normalize cs).1.repr st = .done ⟨.unsafeAns, .invalidity ds⟩ →
      UnsafeWitness (normalize cs).1.repr st.edges ds → ShortFor st.edges ds →
      ∃ ds', UnsafeWitness (normalize cs).1.repr (initialGraph cs).edges ds' ∧
        checkSat S rw E order fuel engine true true cs =
          ([.answer .unsafeAns, .witness ⟨.unsafeAns, .invalidity ds'⟩, .validation true], .done ())) := by
  obtain ⟨hR, hF, hI⟩ := C04_initial_graph ar cs hin.arity hin.user hin.shape
  obtain ⟨st, b, hp, hi, h1, h2⟩ := C56_default_pipeline_total hS hSC hR hF hrw hE ho hI (hin.noClash ha) hready
  refine ⟨st, ⟨b, hp⟩, ?_, ?_⟩
  · intro D hD hw
    obtain ⟨D', hb, hw'⟩ := h1 D hw
    refine ⟨D', hw', ?_, fun hn => ?_⟩
    · simp [checkSat, hp, hD, afterAnswer, OBack.result, hb]
    · have hv := C43_genuine_safe_accepted S hS hSC _ _ D' hn hw'
      simp [checkSat, hp, hD, afterAnswer, OBack.result, hb, hv]
  · intro ds hD hw hsh
    obtain ⟨ds', hb, hw', -⟩ := h2 ds hw hsh
    have hv := C43_genuine_unsafe_accepted S hS hSC _ _ hI.ok.ids ds' hw'
    exact ⟨ds', hw', by simp [checkSat, hp, hD, afterAnswer, OBack.result, hb, hv]⟩

end

/-! ### The engines -/

/-- Spacer, the default engine. -/
def spacerCheck (S : Smt T) (M : Mbp T) (simp : Fla T → Fla T) (logProof : Bool) (ord : List (Fla T) → List (Fla T))
    (pick : Nat → Nat → List (Pob T) → Nat) (hasArrays : Bool) (fuel : Nat) : PRepr → GS T → Outcome (VerificationResult T) :=
  fun R st => spacerEngine S M simp logProof ord pick hasArrays fuel R st.edges

theorem C57_spacer {S : Smt T} {M : Mbp T} {simp : Fla T → Fla T} {logProof : Bool} {ord : List (Fla T) → List (Fla T)}
    {pick : Nat → Nat → List (Pob T) → Nat} {hasArrays : Bool} {fuel : Nat} (hS : S.Sound) (hM : M.Sound)
    (hsimp : SimpOk simp) (hord : ∀ l f, f ∈ ord l ↔ f ∈ l) (hc : S.Complete ∨ logProof = true) :
    CheckEngine.Good (spacerCheck S M simp logProof ord pick hasArrays fuel) := by
  intro R st r hR hF hI _ hr
  refine C48_hyper (E := ⟨S, M, R, st.edges, simp, logProof, ord, graphVerts st.edges, pick⟩) ⟨hR, hS, hM, hsimp, hord,
    fun p => mem_graphVerts, hI.ok.srcNe, hI.ok.ids, ?_⟩ hI.ends (hc.elim .inl fun h => .inr (.inr h)) hr
  intro e he k hk
  exact hI.ok.noBase he _ hk

/-- Bounded model checking. -/
theorem C57_bmc {S : Smt T} (hS : S.Sound) {Ex : ElimExcept T} (hEx : Ex.Exact) (w : Bool) (fuel : Nat) :
    CheckEngine.Good fun R st => normalSolve R (fun G => bmcGraph S R Ex w false (fun _ => .thrown) G fuel) st.edges :=
  fun _ _ _ hR _ hI hns hr => C47_bmc hS hR hEx w false (fun _ _ _ _ _ _ h => by cases h) fuel hI hns hr

/-- Symbolic execution. -/
theorem C57_se {S : Smt T} (hS : S.Sound) {Ex : ElimExcept T} (hEx : Ex.Exact) {Q : KeepOnly T} (hQ : Q.Exact)
    {simp : Fla T → Fla T} (hsi : SimplifierOk simp) (w : Bool) (fuel : Nat) :
    CheckEngine.Good fun R st => normalSolve R (fun G => symbolicExecution S R Ex Q simp w G fuel) st.edges :=
  fun _ _ _ hR _ hI hns hr => C51_hyper hS hR hEx hQ hsi w fuel hI hns hr

/-- `k`-induction. -/
theorem C57_kind {S : Smt T} (hS : S.Sound) (hc : S.Complete) {E : Elim T} (hE : E.Exact) {Ex : ElimExcept T} (hEx : Ex.Exact)
    {Q : QElim T} (hQ : Q.Exact) (w hasArrays : Bool) (fuel : Nat) :
    CheckEngine.Right fun R st => tsEngineSolve S R E w (fun G => kindGraph S R Ex Q w hasArrays G fuel) st := by
  intro R st r hR hF hI _ hr
  obtain ⟨h1, h2, -⟩ := C47_kind hS hc hR hF hE hEx hQ w hasArrays fuel hI hr
  exact ⟨h1, h2⟩

end Golem
