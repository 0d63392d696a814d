import Verif.Lemmas.InlineDeriv
import Verif.Lemmas.InlineBack
import Verif.Props.NodeElim
import Verif.Props.Pipeline

/-! Property C14: the edge inliner. -/

namespace Golem
variable {T : Theory}

/-- C14: after edge inlining exactly the same facts are derivable; no vertex is added, and the result meets the invariant of
graphs again. -/
theorem C14_edge_inliner {R : PRepr} (hR : R.WF) (hF : R.FreshNames) {E : Elim T} (hE : E.Exact) {st st' : GS T}
    (hst : st.Inv R) {fuel : Nat} {es : List (InlineEntry T)} (h : inlineLoop R E fuel st = .done (st', es)) :
    st'.Inv R ∧ (∀ p, st'.edges.Vertex p → st.edges.Vertex p) ∧
      ∀ f : Fact T, Derivable (graphRules R st.edges) f ↔ Derivable (graphRules R st'.edges) f := by
  have hr := inlineLoop_run hR hF hE fuel st hst st' es h
  exact ⟨hr.last, fun p hp => hr.vertex hp, hr.derivable hR⟩

/-- C14: in particular `false` is derivable after edge inlining iff it was before. -/
theorem C14_unsafe {R : PRepr} (hR : R.WF) (hF : R.FreshNames) {E : Elim T} (hE : E.Exact) {st st' : GS T}
    (hst : st.Inv R) {fuel : Nat} {es : List (InlineEntry T)} (h : inlineLoop R E fuel st = .done (st', es)) :
    st.edges.Unsafe R ↔ st'.edges.Unsafe R := (C14_edge_inliner hR hF hE hst h).2.2 falseFact

/-- C14: translating an UNSAFE witness gives an UNSAFE witness; with a complete solver the translation succeeds. -/
theorem C14_edge_inliner_unsafe {S : Smt T} (hS : S.Sound) {R : PRepr} (hR : R.WF) (hF : R.FreshNames) {E : Elim T}
    (hE : E.Exact) {st st' : GS T} (hst : st.Inv R) {fuel : Nat} {es : List (InlineEntry T)}
    (h : inlineLoop R E fuel st = .done (st', es)) {ds : List (DStep T)} (hw : UnsafeWitness R st'.edges ds) :
    inlineUns S R es ds ≠ .outOfFuel ∧
      (∀ ds', inlineUns S R es ds = .done ds' → UnsafeWitness R st.edges ds') ∧
      (S.Complete → ∃ ds', inlineUns S R es ds = .done ds') :=
  (inlineLoop_run hR hF hE fuel st hst st' es h).uns hS hR hw

/-- C14: translating a SAFE witness that is a model of the reduced graph however the predicates without a definition are
interpreted gives up (the empty witness) or gives such a witness of the input; a complete witness becomes a complete witness.
The edges removed may be self-loops only if their labels have no auxiliary variables. -/
theorem C14_edge_inliner_safe {S : Smt T} (hS : S.Sound) {R : PRepr} (hR : R.WF) (hF : R.FreshNames) {E : Elim T}
    (hE : E.Exact) {st st' : GS T} (hst : st.Inv R) {fuel : Nat} {es : List (InlineEntry T)}
    (h : inlineLoop R E fuel st = .done (st', es)) (hplain : ∀ en ∈ es, PlainLoop R en.removed) {D D' : Defs T}
    (hD : SafeFlex R st'.edges D) (hr : inlineSafe S R es D = .done D') :
    D' = [] ∨ (SafeFlex R st.edges D' ∧ (SafeWitness R st'.edges D → SafeWitness R st.edges D')) := by
  have hrun := inlineLoop_run hR hF hE fuel st hst st' es h
  unfold inlineSafe at hr
  split at hr
  · rename_i r hr'
    cases r with
    | none => simp at hr; exact .inl hr
    | some D1 =>
      simp at hr
      subst hr
      exact .inr (hrun.safeLoop hS hR hplain hD hr')
  · cases hr
  · cases hr

/-- C14: with a complete solver, a complete SAFE witness is translated to a complete SAFE witness. -/
theorem C14_edge_inliner_safe_total {S : Smt T} (hS : S.Sound) (hSC : S.Complete) {R : PRepr} (hR : R.WF) (hF : R.FreshNames)
    {E : Elim T} (hE : E.Exact) {st st' : GS T} (hst : st.Inv R) {fuel : Nat} {es : List (InlineEntry T)}
    (h : inlineLoop R E fuel st = .done (st', es)) (hplain : ∀ en ∈ es, PlainLoop R en.removed) {D : Defs T}
    (hD : SafeWitness R st'.edges D) : ∃ D', inlineSafe S R es D = .done D' ∧ SafeWitness R st.edges D' := by
  have hrun := inlineLoop_run hR hF hE fuel st hst st' es h
  obtain ⟨D', hD'⟩ := hrun.safeLoop_total hS hSC hR hplain hD
  exact ⟨D', by unfold inlineSafe; rw [hD']; rfl, (hrun.safeLoop hS hR hplain hD.flex hD').2 hD⟩

/-! ### Nothing is left to inline -/

theorem inlineOne_done {R : PRepr} {E : Elim T} {e : Edge T} {st : GS T} (h : (inlineOne R E e st).2 = []) :
    (inlineOne R E e st).1 = st ∧ ∀ v, e.src = [v] → v ≠ .tru →
      (∃ p ∈ st.edges.inEdges v, p.fla ≠ .ff) ∧
      (∀ p, st.edges.inEdges v = [p] → p.src.length = 1 → p.src = [v]) := by
  have hfe : ∀ v, feasibleTransitions R v (st.edges.inEdges v) e ≠ [] → ∃ p ∈ st.edges.inEdges v, p.fla ≠ .ff := by
    intro v hne
    generalize st.edges.inEdges v = l at hne
    unfold feasibleTransitions at hne
    split at hne
    · exact absurd rfl hne
    · rename_i i
      by_cases hi : i.fla = .ff
      · rw [if_pos hi] at hne; exact absurd rfl hne
      · exact ⟨i, by simp, hi⟩
    · rename_i l
      obtain ⟨p, hp⟩ := List.exists_mem_of_ne_nil _ hne
      rw [List.mem_filter] at hp
      simp only [Bool.and_eq_true, decide_eq_true_eq] at hp
      exact ⟨p, hp.1, hp.2.1⟩
  have hone : ∀ v p, st.edges.inEdges v = [p] → ∀ l, feasibleTransitions R v (st.edges.inEdges v) e = l → l ≠ [] → l = [p] := by
    intro v p hp l hl hne
    rw [hp] at hl
    unfold feasibleTransitions at hl
    simp only at hl
    split at hl
    · exact absurd hl.symm hne
    · exact hl.symm
  unfold inlineOne at h ⊢
  split at h
  · rename_i v hs
    split at h
    · rename_i hv
      rw [if_pos hv]
      refine ⟨rfl, fun w hw hwt => ?_⟩
      rw [hs] at hw
      simp at hw
      exact absurd (hw ▸ hv) hwt
    · rename_i hv
      rw [if_neg hv]
      split at h
      · cases h
      · rename_i p hf
        split at h
        · rename_i u hu
          split at h
          · rename_i hut
            refine ⟨by rw [if_pos hut], fun w hw _ => ?_⟩
            rw [hs] at hw
            simp at hw
            subst hw
            have hpm := (mem_inEdges.1 (feasible_sub (R := R) (e := e) (show p ∈ feasibleTransitions R v (st.edges.inEdges v) e by
              rw [hf]; simp))).2
            refine ⟨hfe v (by rw [hf]; simp), fun q hq _ => ?_⟩
            have := hone v q hq _ hf (by simp)
            simp at this
            subst this
            rw [hu, hut, hpm]
          · cases h
        · rename_i hnu
          refine ⟨rfl, fun w hw _ => ?_⟩
          rw [hs] at hw
          simp at hw
          subst hw
          refine ⟨hfe v (by rw [hf]; simp), fun q hq hlen => ?_⟩
          have := hone v q hq _ hf (by simp)
          simp at this
          subst this
          obtain ⟨u, hu⟩ := List.length_eq_one_iff.1 hlen
          exact absurd hu (hnu u)
      · rename_i h1 h2
        refine ⟨rfl, fun w hw _ => ?_⟩
        rw [hs] at hw
        simp at hw
        subst hw
        refine ⟨hfe v (fun hf => h1 hf), fun q hq _ => ?_⟩
        exact absurd (hone v q hq _ rfl (fun hf => h1 hf)) (h2 q)
  · rename_i hs
    exact ⟨rfl, fun w hw _ => absurd hw (hs w)⟩

theorem inlineRound_done {R : PRepr} {E : Elim T} {l : List (Edge T)} {st : GS T} (h : (inlineRound R E l st).2 = []) :
    (inlineRound R E l st).1 = st ∧ ∀ e ∈ l, (inlineOne R E e st).2 = [] := by
  induction l with
  | nil => exact ⟨rfl, by simp⟩
  | cons e l ih =>
    unfold inlineRound at h ⊢
    simp only [List.append_eq_nil_iff] at h ⊢
    have h1 := (inlineOne_done h.1).1
    rw [h1] at h ⊢
    obtain ⟨h2, h3⟩ := ih h.2
    refine ⟨h2, fun x hx => ?_⟩
    rcases List.mem_cons.1 hx with rfl | hx
    · exact h.1
    · exact h3 x hx

/-- C14: when edge inlining ends, every edge with one source other than `true` has an incoming edge whose label is not `false`
at its source; and if there is only one incoming edge, and it has one source, then it is a self-loop. -/
theorem C14_fixpoint {R : PRepr} {E : Elim T} {st st' : GS T} {fuel : Nat} {es : List (InlineEntry T)}
    (h : inlineLoop R E fuel st = .done (st', es)) {e : Edge T} (he : e ∈ st'.edges) {v : Pred} (hs : e.src = [v])
    (hv : v ≠ .tru) : (∃ p ∈ st'.edges, p.tgt = v ∧ p.fla ≠ .ff) ∧
      (∀ p, st'.edges.inEdges v = [p] → p.src.length = 1 → p.src = [v]) := by
  induction fuel generalizing st es with
  | zero => simp [inlineLoop] at h
  | succ fuel ih =>
    unfold inlineLoop at h
    split at h
    · rename_i st1 heq
      cases h
      have h2 : (inlineRound R E st.edges st).2 = [] := by rw [heq]
      obtain ⟨h3, h4⟩ := inlineRound_done h2
      rw [heq] at h3
      simp only at h3
      subst h3
      obtain ⟨⟨p, hp, hpf⟩, h6⟩ := (inlineOne_done (h4 e he)).2 v hs hv
      obtain ⟨hp, hpt⟩ := mem_inEdges.1 hp
      exact ⟨⟨p, hp, hpt, hpf⟩, h6⟩
    · split at h
      · rename_i h2
        cases h
        exact ih h2
      · rename_i hnd
        exact absurd h (hnd _ _)

/-! ### The hypotheses are met by a concrete case -/

namespace EdgeInlinerEx
open ValidatorEx (P R R_wf a)
open NodeElimEx (s t k keepE keepE_exact fresh)

/-- true → p0(x'): x';  p0(x) → p0(x'): x ∧ x';  p0(x) → p3(x'): ¬x ∧ x';  p3(x) → false: x;  true → p1(x'): ¬x';
p0(x) → p1(x'): x ∧ x';  p1(x) → p2(x'): x ∧ x';  p2(x) → p2(x'): x ↔ x';  p2(x) → false: ¬x. -/
def G : Graph P :=
  [⟨[.tru], .p 0, t 0, 0⟩, ⟨[.p 0], .p 0, .and (s 0) (t 0), 1⟩, ⟨[.p 0], .p 3, .and (.not (s 0)) (t 3), 2⟩,
   ⟨[.p 3], .fls, s 3, 3⟩, ⟨[.tru], .p 1, .not (t 1), 4⟩, ⟨[.p 0], .p 1, .and (s 0) (t 1), 5⟩,
   ⟨[.p 1], .p 2, .and (s 1) (t 2), 6⟩, ⟨[.p 2], .p 2, .iff (s 2) (t 2), 7⟩, ⟨[.p 2], .fls, .not (s 2), 8⟩]

def st : GS P := ⟨G, 9, 0, 0⟩

theorem inv : st.Inv R := by
  have hv : ∀ e ∈ G, ∀ x ∈ e.fla.vars, x ∈ R.own e.src e.tgt := by decide +kernel
  refine ⟨⟨by unfold Graph.IdsNodup; decide +kernel, by decide +kernel, by decide +kernel, by decide +kernel,
    fun e he x hx => .inl (hv e he x hx), fun e he e' he' hne x hx ha => ?_, fun e he i hx => ?_, fun e he i hx => ?_⟩,
    by unfold Graph.Ends; decide +kernel⟩
  · exact absurd ha (own_not_aux R_wf (fun _ hs => vertex_src he hs) (hv e he x hx))
  · exact absurd (hv e he _ hx) own_not_ver
  · exact absurd (hv e he _ hx) own_not_ver

def summary : InlineEntry P → Nat × List Nat × Option (Nat × Nat)
  | .deletion e ps => (e.id, ps.map Edge.id, none)
  | .replacement n e p ps => (e.id, ps.map Edge.id, some (n.id, p.id))

def D : Defs P := [(.tru, .tt), (.fls, .ff), (.p 0, .tt), (.p 1, .tt), (.p 2, a (.base (.pr 2)))]

/-- Two edges are deleted and one is replaced; a model of the result is accepted, and so is its translation. -/
theorem C14_example : propSmt.Sound ∧ propSmt.Complete ∧ R.WF ∧ R.FreshNames ∧ keepE.Exact ∧ st.Inv R ∧
    ∃ st' es, inlineLoop R keepE 3 st = .done (st', es) ∧ (∀ en ∈ es, PlainLoop R en.removed) ∧
      es.map summary = [(2, [0, 1], none), (3, [], none), (6, [4, 5], some (9, 5))] ∧
      validate propSmt R st'.edges ⟨.safe, .validity D⟩ = .validated ∧
      ∃ D', inlineSafe propSmt R es D = .done D' ∧ validate propSmt R G ⟨.safe, .validity D'⟩ = .validated := by
  refine ⟨propSmt_sound, propSmt_complete, R_wf, fresh, keepE_exact, inv, ?_⟩
  have h : (match inlineLoop R keepE 3 st with
    | .done (st', es) => es.all (fun en => decide (en.removed.tgt ∉ en.removed.src)) &&
        decide (es.map summary = [(2, [0, 1], none), (3, [], none), (6, [4, 5], some (9, 5))]) &&
        decide (validate propSmt R st'.edges ⟨.safe, .validity D⟩ = .validated) &&
        (match inlineSafe propSmt R es D with
          | .done D' => decide (validate propSmt R G ⟨.safe, .validity D'⟩ = .validated)
          | _ => false)
    | _ => false) = true := by decide +kernel
  split at h
  · rename_i st' es hl
    simp only [Bool.and_eq_true, decide_eq_true_eq, List.all_eq_true] at h
    refine ⟨st', es, hl, fun en hen hin => absurd hin (h.1.1.1 en hen), h.1.1.2, h.1.2, ?_⟩
    have h2 := h.2
    split at h2
    · rename_i D' hD'
      exact ⟨D', hD', by simpa using h2⟩
    · cases h2
  · cases h

/-- true → p0(x'): ¬x';  p0(x) → p0(x'): x ∧ ¬x' ∧ k, with an auxiliary variable `k`. -/
def badG : Graph P := [⟨[.tru], .p 0, .not (t 0), 0⟩, ⟨[.p 0], .p 0, .and (s 0) (.and (.not (t 0)) k), 1⟩]

def badSt : GS P := ⟨badG, 2, 1, 0⟩

def badD : Defs P := [(.tru, .tt), (.fls, .ff), (.p 0, .tt)]

/-- The restriction on self-loops is needed: here the second edge is deleted, both sides of the interpolation query have its
auxiliary variable, and the definition in the translated witness has it too. -/
theorem C14_self_loop_needed : badSt.Inv R ∧ ∃ st' es, inlineLoop R keepE 2 badSt = .done (st', es) ∧
    SafeWitness R st'.edges badD ∧ ∃ D', inlineSafe propSmt R es badD = .done D' ∧ D' ≠ [] ∧ ¬ D'.Closed R := by
  have hv : ∀ e ∈ badG, ∀ x ∈ e.fla.vars, x ∈ R.own e.src e.tgt ∨ (e.id = 1 ∧ x = .ver (.gaux 0) 0) := by decide +kernel
  have hn : ∀ x, badG.Aux R x → ∀ e ∈ badG, x ∈ e.fla.vars → e.id = 1 := by
    intro x hx e he hxe
    rcases hv e he x hxe with h | h
    · exact absurd hx (own_not_aux R_wf (fun _ hs => vertex_src he hs) h)
    · exact h.1
  refine ⟨⟨⟨by unfold Graph.IdsNodup; decide +kernel, by decide +kernel, by decide +kernel, by decide +kernel,
    fun e he x hx => (hv e he x hx).imp_right ?_, fun e he e' he' hne x hx ha hx' => ?_, fun e he i hx => ?_,
    fun e he i hx => ?_⟩, by unfold Graph.Ends; decide +kernel⟩, ?_⟩
  · rintro ⟨_, rfl⟩
    exact .inl ⟨_, rfl, (fresh 0).1⟩
  · have : ∀ e ∈ badG, ∀ e' ∈ badG, e.id = 1 → e'.id = 1 → e = e' := by decide +kernel
    exact hne (this e he e' he' (hn x ha e he hx) (hn x ha e' he' hx'))
  · rcases hv e he _ hx with h | ⟨_, h⟩
    · exact absurd h own_not_ver
    · cases h; decide
  · rcases hv e he _ hx with h | ⟨_, h⟩
    · exact absurd h own_not_ver
    · cases h
  · have h : (match inlineLoop R keepE 2 badSt with
      | .done (st', es) => decide (st'.edges = [⟨[.tru], .p 0, .not (t 0), 0⟩]) &&
        (match inlineSafe propSmt R es badD with
          | .done D' => (D'.get (.p 0)).any fun d => decide (Var.ver (.gaux 0) 0 ∈ d.vars)
          | _ => false)
      | _ => false) = true := by decide +kernel
    split at h
    · rename_i st' es hl
      simp only [Bool.and_eq_true, decide_eq_true_eq] at h
      refine ⟨st', es, hl, ?_, ?_⟩
      · rw [h.1]
        have hget : ∀ p d, Defs.get badD p = some d → p = .tru ∨ p = .fls ∨ p = .p 0 := by
          intro p d hp
          simp only [badD, Defs.get_cons] at hp
          repeat' split at hp
          all_goals first | (subst_vars; simp) | cases hp
        refine ⟨⟨?_, rfl, rfl, ⟨interp_tt R_wf rfl rfl, ?_⟩, interp_ff rfl⟩, ?_, ?_⟩
        · intro p d hp x hx
          rcases hget p d hp with rfl | rfl | rfl <;> cases hp <;> simp [Fla.vars] at hx
        · rintro ⟨b, f⟩ hr hb
          obtain ⟨e, he, ρ, _, _, rfl⟩ := graphRules_iff.1 hr
          simp at he
          subst he
          exact interp_tt R_wf rfl (by simp [Edge.tgtFact, PRepr.tgtVars])
        · rintro p ⟨e, he, hp⟩
          simp at he
          subst he
          simp at hp
          rcases hp with rfl | rfl <;> rfl
        · intro p hp
          obtain ⟨d, hd⟩ := Option.isSome_iff_exists.1 hp
          rcases hget p d hd with rfl | rfl | rfl
          · exact .inr (.inl rfl)
          · exact .inr (.inr rfl)
          · exact .inl ⟨_, List.mem_singleton_self _, .inl rfl⟩
      · have h2 := h.2
        split at h2
        · rename_i D' hD'
          refine ⟨D', hD', ?_, ?_⟩
          · rintro rfl; cases h2
          · intro hc
            cases hd : D'.get (.p 0) with
            | none => rw [hd] at h2; cases h2
            | some d =>
              rw [hd] at h2
              have := hc (.p 0) d hd _ (by simpa using h2)
              simp [PRepr.baseVars, R] at this
        · cases h2
    · cases h

end EdgeInlinerEx

end Golem
