import Verif.Props.SingleLoopComplete
import Verif.Props.Bse

/-! C17: engines that work on the single-loop system. -/

namespace Golem
variable {T : Theory}

section
variable {R : PRepr} {N : Pred} {G : LGraph T}

/-- **C17** An engine run on the single-loop system of a graph, its answer translated back. -/
theorem C17_solve {S : Smt T} (hS : S.Sound) (h : SLOk R N G) {E : ElimExcept T} (hE : E.Exact)
    (hin : ∃ e ∈ G, e.src = .tru) (hout : ∃ e ∈ G, e.tgt = .fls) {Q : KeepOnly T} (hQ : Q.Exact) {simp : Fla T → Fla T}
    (hsi : SimplifierOk simp) {solve : TS T → Outcome (TSResult T)} {w : Bool}
    (hsolve : ∀ ts r, singleLoop S R E N G = some ts → ts.WF → ts.AuxSep → solve ts = .done r →
      (r.answer = .unsafeAns → ts.sem.Unsafe) ∧ (r.answer = .safe → ts.sem.Safe) ∧ (w = true → TSAnswerOk ts r))
    {res : VerificationResult T} (hres : solveSingleLoop S R E Q simp N solve w G = .done res) : GraphResultOk R G res := by
  obtain ⟨ts, hts, hwf, hsep, _⟩ := C16_single_loop h S hE hin hout
  have hu := C16_unsafe h S hE hin hout hts
  simp only [solveSingleLoop, hts] at hres
  split at hres
  · rename_i r hr
    obtain ⟨h1, h2, h3⟩ := hsolve ts r hts hwf hsep hr
    split at hres
    · rename_i hw
      exact (C17_translate hS h hE hin hout hts hQ hsi (h3 hw) hres).2
    · cases hres
      exact ⟨fun e => hu.1 (h1 e), fun e hg => h2 e (hu.2 hg), fun _ e => (by cases e), fun _ e => (by cases e)⟩
  · cases hres
  · cases hres

/-- **C17** Transition-system engines on an arbitrary linear graph. -/
theorem C17_ts_engine {S : Smt T} (hS : S.Sound) (h : SLOk R N G) (hn : G.NoStray) {E : ElimExcept T} (hE : E.Exact)
    (hin : ∃ e ∈ G, e.src = .tru) (hout : ∃ e ∈ G, e.tgt = .fls) {Q : KeepOnly T} (hQ : Q.Exact) {simp : Fla T → Fla T}
    (hsi : SimplifierOk simp) {prep : TS T → Option (TS T)} {solve : TS T → Outcome (TSResult T)} {w : Bool}
    (hprep : ∀ ts ts', ts.WF → ts.AuxSep → prep ts = some ts' → ts'.Same ts)
    (hsolve : ∀ ts ts' r, ts.WF → ts.AuxSep → prep ts = some ts' ∨
        (isTransitionSystem G = false ∧ singleLoop S R E N G = some ts ∧ ts' = ts) → solve ts' = .done r →
      (r.answer = .unsafeAns → ts'.sem.Unsafe) ∧ (r.answer = .safe → ts'.sem.Safe) ∧ (w = true → TSAnswerOk ts' r))
    {res : VerificationResult T} (hres : tsEngineGraph S R E Q simp N prep solve w G = .done res) : GraphResultOk R G res := by
  unfold tsEngineGraph at hres
  split at hres
  · rename_i ht; cases hres; exact solveTrivial_ok hS h.wf ht
  · split at hres
    · rename_i hts
      exact (solveTSGraph_ok hS h.wf hE hts hn h.label h.aux h.ids hprep
        (fun ts ts' r h1 h2 h3 h4 => hsolve ts ts' r h1 h2 (.inl h3) h4) hres).1
    · rename_i hts
      exact C17_solve hS h hE hin hout hQ hsi
        (fun ts r h1 h2 h3 h4 => hsolve ts ts r h2 h3 (.inr ⟨by simpa using hts, h1, rfl⟩) h4) hres

/-- **C17** Bounded model checking with `forceTransitionSystem`. -/
theorem C17_bmc_forced {S : Smt T} (hS : S.Sound) (h : SLOk R N G) (hn : G.NoStray) {E : ElimExcept T} (hE : E.Exact)
    (hin : ∃ e ∈ G, e.src = .tru) (hout : ∃ e ∈ G, e.tgt = .fls) {Q : KeepOnly T} (hQ : Q.Exact) {simp : Fla T → Fla T}
    (hsi : SimplifierOk simp) (w force : Bool) (fuel : Nat) {res : VerificationResult T}
    (hres : bmcGraph S R E w force (solveSingleLoop S R E Q simp N (fun ts => bmcSolve S ts fuel) w) G fuel = .done res) :
    GraphResultOk R G res := by
  refine C46_bmc hS h.wf hE hn h.label h.aux h.ids w force (fun res' hr => ?_) fuel hres
  refine C17_solve hS h hE hin hout hQ hsi (fun ts r _ _ _ hs => ?_) hr
  rcases C22_bmc_sound S hS ts fuel r hs with ⟨k, rfl, hb⟩ | ⟨rfl, _, hi⟩
  · exact ⟨fun _ => ⟨k, hb⟩, fun e => (by cases e), fun _ => hb⟩
  · exact ⟨fun e => (by cases e), fun _ => hi.isSafe, fun _ => ⟨fun x hx => (by simp [Fla.vars] at hx), hi⟩⟩

/-- **C17** Interpolation-based model checking on an arbitrary linear graph. The single-loop system, if it is used, must have no
auxiliary variables in its initial states and query: the code does not eliminate them there (see `C17_imc_needs_noAux`). -/
theorem C17_imc {S : Smt T} (hS : S.Sound) (hc : S.Complete) (h : SLOk R N G) (hn : G.NoStray) {E : ElimExcept T} (hE : E.Exact)
    (hin : ∃ e ∈ G, e.src = .tru) (hout : ∃ e ∈ G, e.tgt = .fls) {Q : KeepOnly T} (hQ : Q.Exact) {Q' : QElim T} (hQ' : Q'.Exact)
    {simp : Fla T → Fla T} (hsi : SimplifierOk simp) (w hasArrays : Bool) (inner fuel : Nat)
    (hna : isTransitionSystem G = false → ∀ ts, singleLoop S R E N G = some ts → ts.NoAux) {res : VerificationResult T}
    (hres : tsEngineGraph S R E Q simp N (ensureNoAux Q') (fun ts => imcSolve S w hasArrays ts inner fuel) w G = .done res) :
    GraphResultOk R G res := by
  refine C17_ts_engine hS h hn hE hin hout hQ hsi (fun ts ts' hw _ e => (C18_ensureNoAux hQ' hw e).2.2)
    (fun ts ts' r hw _ hor hr => ?_) hres
  obtain ⟨hwf, hna⟩ : ts'.WF ∧ ts'.NoAux := by
    rcases hor with e | ⟨hts, e, rfl⟩
    · exact ⟨(C18_ensureNoAux hQ' hw e).1, (C18_ensureNoAux hQ' hw e).2.1⟩
    · exact ⟨hw, hna hts _ e⟩
  cases r with
  | safeInv I =>
    obtain ⟨h1, h2⟩ := C25_imc_safe S hS w hasArrays ts' hwf hna (hc _) inner fuel I hr
    exact ⟨fun e => (by cases e), fun _ => h1, h2⟩
  | unsafeAt k =>
    obtain ⟨h1, h2⟩ := C25_imc_unsafe S hS w hasArrays ts' hwf hna inner fuel k hr
    exact ⟨fun _ => ⟨_, h1⟩, fun e => (by cases e), fun _ => h1⟩
  | unknown => exact ⟨fun e => (by cases e), fun e => (by cases e), fun _ => trivial⟩

end

/-! ### Examples -/

/-- Quantifier elimination for the examples. -/
def propKeep : KeepOnly propTheory := fun f keep => propQ f (f.vars.filter fun x => decide (x ∉ keep))

theorem propKeep_exact : propKeep.Exact := by
  intro f vs g hg
  obtain ⟨h1, h2⟩ := propQ_exact f _ g hg
  refine ⟨fun x hx => ?_, fun ρ => ?_⟩
  · obtain ⟨ha, hb⟩ := h1 x hx
    simpa [List.mem_filter, ha] using hb
  · rw [h2 ρ]
    constructor
    · rintro ⟨ρ', ha, hb⟩
      refine ⟨fun x => if x ∈ vs then ρ x else ρ' x, fun x hx => by simp [hx], (Fla.holds_congr fun x hx => ?_).1 hb⟩
      by_cases hv : x ∈ vs
      · simp only [hv, if_true]; exact ha x (by simp [List.mem_filter, hv])
      · simp [hv]
    · rintro ⟨ρ', ha, hb⟩
      refine ⟨fun x => if x ∈ f.vars then ρ' x else ρ x, fun x hx => ?_, (Fla.holds_congr fun x hx => by simp [hx]).1 hb⟩
      by_cases hv : x ∈ f.vars
      · simp only [hv, if_true]
        apply ha
        simpa [List.mem_filter, hv] using hx
      · simp [hv]

theorem simplifierOk_id : SimplifierOk (T := T) id := ⟨fun _ => fun _ => Iff.rfl, fun _ _ h => h⟩

namespace SingleLoopEx
open ValidatorEx (P R R_wf a)
open LinearEx (keep keep_exact y z)

/-- true → p0(x): ¬x;  p0(x) → p1(y): y ≠ x;  p1(y) → false: y. -/
def G1 : LGraph P :=
  [⟨.tru, .p 0, .not (a (z 1)), 0⟩, ⟨.p 0, .p 1, .iff (.not (a (z 0))) (a (y 1)), 1⟩, ⟨.p 1, .fls, a (y 0), 2⟩]

theorem G1_ok : SLOk R (.p 7) G1 where
  wf := R_wf
  argNames p n hn := by cases p <;> simp [R] at hn; subst hn; rfl
  labelNames e he x hx := by
    have : ∀ e ∈ G1, ∀ x ∈ e.fla.vars, x.nm.isPlain = true := by decide +kernel
    exact this e he x hx
  label e he x hx := by
    have : ∀ e ∈ G1, ∀ x ∈ e.fla.vars, x ∈ R.stateVars e.src ∨ x ∈ R.nextVars e.tgt := by decide +kernel
    rcases this e he x hx with h | h
    · exact .inl h
    · exact .inr (.inl h)
  aux e he e' he' hne x hx h := by
    have : ∀ e ∈ G1, ∀ x ∈ e.fla.vars, x = z 0 ∨ x = z 1 ∨ x = y 0 ∨ x = y 1 := by decide +kernel
    rcases this e he x h with rfl | rfl | rfl | rfl <;> rcases hx with ⟨n, h1, h2⟩ | ⟨n, h1, _⟩ <;> simp [z, y] at h1 <;>
      (subst h1; first | exact absurd (show Name.pr 0 ∈ R.args (.p 0) by decide) (h2 (.p 0)) |
        exact absurd (show Name.pr 1 ∈ R.args (.p 1) by decide) (h2 (.p 1)))
  ids := by decide +kernel
  new := by decide +kernel
  newNe := by decide +kernel
  ends := by decide +kernel
  noDirect := by decide +kernel

/-- C16, C17. Both engines find the error of `G1` through its single-loop system; the derivation is one of `G1`. -/
theorem C17_example : SLOk R (.p 7) G1 ∧ (∃ e ∈ G1, e.src = .tru) ∧ (∃ e ∈ G1, e.tgt = .fls) ∧ G1.NoParallel ∧ keep.Exact ∧
    propKeep.Exact ∧ SimplifierOk (T := P) id ∧ propSmt.Sound ∧ propSmt.Complete ∧ isTransitionSystem G1 = false ∧
    (∃ ts, singleLoop propSmt R keep (.p 7) G1 = some ts ∧ ts.sem.BadIn 1) ∧
    (∃ res ds, solveSingleLoop propSmt R keep propKeep id (.p 7) (fun ts => bmcSolve propSmt ts 5) true G1 = .done res ∧
      res.witness = .invalidity ds ∧ ds.map DStep.clauseId = [none, some 0, some 1, some 2]) := by
  have hin : ∃ e ∈ G1, e.src = .tru := ⟨_, .head _, rfl⟩
  have hout : ∃ e ∈ G1, e.tgt = .fls := ⟨_, .tail _ (.tail _ (.head _)), rfl⟩
  refine ⟨G1_ok, hin, hout, ?_, keep_exact, propKeep_exact, simplifierOk_id, propSmt_sound, propSmt_complete, by decide +kernel,
    ?_, ?_⟩
  · have : ∀ e ∈ G1, ∀ e' ∈ G1, e.src = e'.src → e.tgt = e'.tgt → e.id = e'.id := by decide +kernel
    intro e he e' he' h1 h2
    have h := LGraph.find_of_mem G1_ok.ids he
    rw [this e he e' he' h1 h2, LGraph.find_of_mem G1_ok.ids he'] at h
    cases h; rfl
  · obtain ⟨ts, hts, _, _, hk⟩ := C16_single_loop G1_ok propSmt keep_exact hin hout
    refine ⟨ts, hts, (hk 1).2 ⟨G1, fun _ h => h, rfl, ?_⟩⟩
    have h0 : LEdge.Fires R (⟨.tru, .p 0, .not (a (z 1)), 0⟩ : LEdge P) trueFact (.p 0, [false]) :=
      ⟨fun _ => false, by simp [Fla.holds, a, Tm.eval, P, propTheory, z, y], rfl, rfl⟩
    have h1 : LEdge.Fires R (⟨.p 0, .p 1, .iff (.not (a (z 0))) (a (y 1)), 1⟩ : LEdge P) (.p 0, [false]) (.p 1, [true]) :=
      ⟨fun x => decide (x = y 1), by simp [Fla.holds, a, Tm.eval, P, propTheory, z, y], rfl, rfl⟩
    have h2 : LEdge.Fires R (⟨.p 1, .fls, a (y 0), 2⟩ : LEdge P) (.p 1, [true]) falseFact :=
      ⟨fun _ => true, by simp [Fla.holds, a, Tm.eval, P, propTheory, z, y], rfl, rfl⟩
    exact .cons h0 (.cons h1 (.cons h2 (.nil _)))
  · have : (match solveSingleLoop propSmt R keep propKeep id (.p 7) (fun ts => bmcSolve propSmt ts 5) true G1 with
      | .done ⟨_, .invalidity ds⟩ => ds.map DStep.clauseId == [none, some 0, some 1, some 2]
      | _ => false) = true := by decide +kernel
    split at this
    · rename_i a ds h
      exact ⟨_, ds, h, rfl, by simpa using this⟩
    · cases this

/-- Two ways from `p1` to the exit. -/
def G1par : LGraph P := G1 ++ [⟨.p 1, .fls, .and (a (y 0)) (a (y 0)), 3⟩]

/-- Parallel edges: the answer is UNSAFE, but without a witness (`src/transformers/SingleLoopTransformation.cc:101-104`). -/
theorem C17_parallel_no_witness : solveSingleLoop propSmt R keep propKeep id (.p 7) (fun ts => bmcSolve propSmt ts 5) true G1par =
    .done ⟨.unsafeAns, .none⟩ := by
  have : (match solveSingleLoop propSmt R keep propKeep id (.p 7) (fun ts => bmcSolve propSmt ts 5) true G1par with
      | .done ⟨.unsafeAns, .none⟩ => true
      | _ => false) = true := by decide +kernel
  split at this
  · assumption
  · cases this

/-- The way to the exit removed. -/
def G1safe : LGraph P := G1.filter fun e => decide (e.tgt ≠ .fls)

/-- Without an edge to the exit the system has the query `true` (`src/TransformationUtils.cc:80-85`): a safe graph is called
UNSAFE. (Preprocessing removes all edges of such a graph.) -/
theorem C16_needs_exit_edge : ¬ G1safe.Unsafe R ∧ (∃ e ∈ G1safe, e.src = .tru) ∧
    ∃ res, solveSingleLoop propSmt R keep propKeep id (.p 7) (fun ts => bmcSolve propSmt ts 5) false G1safe = .done res ∧
      res.answer = .unsafeAns := by
  refine ⟨?_, ⟨_, .head _, rfl⟩, ?_⟩
  · rintro ⟨es, hes, hf⟩
    have hno : ∀ e ∈ G1safe, e.tgt ≠ .fls := by decide +kernel
    have : ∀ {es : List (LEdge P)} {f g : Fact P}, LFeasible R es f g → (∀ e ∈ es, e ∈ G1safe) → g.1 = .fls → f.1 = .fls := by
      intro es f g h
      induction h with
      | nil => intro _ h; exact h
      | cons hF _ ih =>
        intro he hg
        have := ih (fun e h => he e (by simp [h])) hg
        rw [hF.tgt] at this
        exact absurd this (hno _ (he _ (by simp)))
    exact absurd (this hf hes rfl) (by decide)
  · have : (match solveSingleLoop propSmt R keep propKeep id (.p 7) (fun ts => bmcSolve propSmt ts 5) false G1safe with
      | .done ⟨.unsafeAns, _⟩ => true
      | _ => false) = true := by decide +kernel
    split at this
    · rename_i h; exact ⟨_, h, rfl⟩
    · cases this

/-! #### Auxiliary variables in the initial states -/

def b : Var := .ver (.aux 0) 0

/-- `p0` has one argument, other predicates have none. -/
def R0 : PRepr := ⟨fun q => match q with | .p 0 => [.pr 0] | _ => []⟩

/-- true → p0(x): (x ∧ b) ∨ (¬x ∧ ¬b);  true → p1;  p0(x) → p1;  p1 → false: never. -/
def G2 : LGraph P :=
  [⟨.tru, .p 0, .or (.and (a (z 1)) (a b)) (.and (.not (a (z 1))) (.not (a b))), 0⟩, ⟨.tru, .p 1, .tt, 1⟩,
   ⟨.p 0, .p 1, .tt, 2⟩, ⟨.p 1, .fls, .ff, 3⟩]

theorem R0_args {p : Pred} {n : Name} (h : n ∈ R0.args p) : p = .p 0 ∧ n = .pr 0 := by
  unfold R0 at h
  simp only at h
  split at h
  · exact ⟨rfl, by simpa using h⟩
  · simp at h

theorem G2_ok : SLOk R0 (.p 7) G2 where
  wf :=
    { tru := rfl
      fls := rfl
      nodup := by
        intro p
        by_cases hp : p = .p 0
        · subst hp; decide
        · have : R0.args p = [] := by
            apply List.eq_nil_iff_forall_not_mem.2
            intro n hn; exact hp (R0_args hn).1
          rw [this]; exact List.Pairwise.nil
      disjoint := by intro p q hne n h1 h2; exact hne ((R0_args h1).1.trans (R0_args h2).1.symm) }
  argNames p n hn := by rw [(R0_args hn).2]; rfl
  labelNames e he x hx := by
    have : ∀ e ∈ G2, ∀ x ∈ e.fla.vars, x.nm.isPlain = true := by decide +kernel
    exact this e he x hx
  label e he x hx := by
    have : ∀ e ∈ G2, ∀ x ∈ e.fla.vars, x ∈ R0.stateVars e.src ∨ x ∈ R0.nextVars e.tgt ∨ x = b := by decide +kernel
    rcases this e he x hx with h | h | rfl
    · exact .inl h
    · exact .inr (.inl h)
    · exact .inr (.inr (.inl ⟨_, rfl, fun p hp => by have := (R0_args hp).2; cases this⟩))
  aux e he e' he' hne x _ h h' := by
    have : ∀ e ∈ G2, ∀ x ∈ e.fla.vars, e.id = 0 := by decide +kernel
    refine hne ?_
    have hids : (G2.map LEdge.id).Nodup := by decide +kernel
    have hf := LGraph.find_of_mem hids he
    rw [this e he x h, ← this e' he' x h', LGraph.find_of_mem hids he'] at hf
    cases hf; rfl
  ids := by decide +kernel
  new := by decide +kernel
  newNe := by decide +kernel
  ends := by decide +kernel
  noDirect := by decide +kernel

/-- **C17** The single-loop system is not rid of auxiliary variables in its initial states (`dealWithAuxiliaryVariables` is
called in the other branch only, `src/engine/TransitionSystemEngine.cc:33-43`); interpolation-based model checking returns an
invariant that mentions them, and its translation quantifies them universally: the SAFE witness of this (safe) graph is wrong. -/
theorem C17_imc_needs_noAux : SLOk R0 (.p 7) G2 ∧ propSmt.Sound ∧ propSmt.Complete ∧ keep.Exact ∧ propKeep.Exact ∧ propQ.Exact ∧
    SimplifierOk (T := P) id ∧ ¬ G2.Unsafe R0 ∧
    ∃ D, tsEngineGraph propSmt R0 keep propKeep id (.p 7) (ensureNoAux propQ) (fun ts => imcSolve propSmt true false ts 5 5) true G2 =
      .done ⟨.safe, .validity D⟩ ∧ ¬ LSafeWitness R0 G2 D := by
  refine ⟨G2_ok, propSmt_sound, propSmt_complete, keep_exact, propKeep_exact, propQ_exact, simplifierOk_id, ?_, ?_⟩
  · rintro ⟨es, hes, hf⟩
    have hno : ∀ e ∈ G2, e.tgt = .fls → e.fla = .ff := by decide +kernel
    have : ∀ {es : List (LEdge P)} {f g : Fact P}, LFeasible R0 es f g → (∀ e ∈ es, e ∈ G2) → g.1 = .fls → f.1 = .fls := by
      intro es f g h
      induction h with
      | nil => intro _ h; exact h
      | cons hF _ ih =>
        intro he hg
        have := ih (fun e h => he e (by simp [h])) hg
        rw [hF.tgt] at this
        have hff := hno _ (he _ (by simp)) this
        obtain ⟨ρ, hρ, _, _⟩ := hF
        rw [hff] at hρ
        exact absurd hρ (by simp [Fla.holds])
    exact absurd (this hf hes rfl) (by decide)
  · have : (match tsEngineGraph propSmt R0 keep propKeep id (.p 7) (ensureNoAux propQ)
        (fun ts => imcSolve propSmt true false ts 5 5) true G2 with
      | .done ⟨.safe, .validity D⟩ => (match Defs.get D (.p 0) with
        | some d => d.vars.all (fun x => decide (x = .base (.pr 0))) && !decide (d.holds fun _ => true) &&
            !decide (d.holds fun _ => false)
        | none => false)
      | _ => false) = true := by decide +kernel
    split at this
    · rename_i D h
      refine ⟨D, h, fun hw => ?_⟩
      split at this
      · rename_i d hd
        simp only [Bool.and_eq_true, List.all_eq_true, decide_eq_true_eq, Bool.not_eq_true', decide_eq_false_iff_not] at this
        obtain ⟨⟨h1, h2⟩, h3⟩ := this
        have hF : LEdge.Fires R0 (⟨.tru, .p 0, .or (.and (a (z 1)) (a b)) (.and (.not (a (z 1))) (.not (a b))), 0⟩ : LEdge P)
            trueFact (.p 0, [true]) := ⟨fun _ => true, by simp [Fla.holds, a, Tm.eval, P, propTheory, z, y], rfl, rfl⟩
        obtain ⟨d', hd', ρ, hr, hh⟩ := hw.model _ (.head _) _ _ hF ⟨.tt, hw.tru, fun _ => true, rfl, trivial⟩
        simp only [hd, Option.some.injEq] at hd'
        subst hd'
        cases hb : (ρ (.base (.pr 0)) : Bool) with
        | true => exact h2 ((Fla.holds_congr fun x hx => by rw [h1 x hx]; exact hb).1 hh)
        | false => exact h3 ((Fla.holds_congr fun x hx => by rw [h1 x hx]; exact hb).1 hh)
      · cases this
    · cases this

/-! #### A hyperedge into the exit -/

open NodeElimEx (keepE keepE_exact fresh)

/-- true → p0;  p0 → p1;  p1 → p0;  p0 ∧ p2 → false, and nothing derives p2. -/
def G3 : Graph P := [⟨[.tru], .p 0, .tt, 0⟩, ⟨[.p 0], .p 1, .tt, 1⟩, ⟨[.p 1], .p 0, .tt, 2⟩, ⟨[.p 0, .p 2], .fls, .tt, 3⟩]

def st3 : GS P := ⟨G3, 4, 0, 0⟩

theorem st3_inv : st3.Inv R := by
  have hv : ∀ e ∈ G3, ∀ x ∈ e.fla.vars, x ∈ R.own e.src e.tgt := by decide +kernel
  refine ⟨⟨by unfold Graph.IdsNodup; decide +kernel, by decide +kernel, by decide +kernel, by decide +kernel,
    fun e he x hx => .inl (hv e he x hx), fun e he e' he' hne x hx ha => ?_, fun e he i hx => ?_, fun e he i hx => ?_⟩,
    by unfold Graph.Ends; decide +kernel⟩
  · exact absurd ha (own_not_aux R_wf (fun _ hs => vertex_src he hs) (hv e he x hx))
  · exact absurd (hv e he _ hx) own_not_ver
  · exact absurd (hv e he _ hx) own_not_ver

/-- **C47** A transition-system engine calls this safe graph UNSAFE: `RemoveUnreachableNodes` keeps `p0`, which reached the exit
through the hyperedge it removes; what is left is linear and has no edge to the exit, and the single-loop transformation gives
it the query `true` (`src/transformers/RemoveUnreachableNodes.cc:89-98`, `src/TransformationUtils.cc:113`). -/
theorem C47_no_exit_edge_unsound : st3.Inv R ∧ ¬ st3.edges.Unsafe R ∧
    ∃ res, tsEngineSolve propSmt R keepE false (tsEngineGraph propSmt R keep propKeep id (.p 7) (ensureNoAux propQ)
      (fun ts => imcSolve propSmt false false ts 5 5) false) st3 = .done res ∧ res.answer = .unsafeAns := by
  refine ⟨st3_inv, fun hu => ?_, ?_⟩
  · have : SatisfiesRules (graphRules R st3.edges) fun f => f.1 ≠ .fls ∧ f.1 ≠ .p 2 := by
      refine ⟨by decide, fun r hr hb => ?_⟩
      obtain ⟨e, he, hF⟩ := graphRules_iff.1 hr
      have h1 : ∀ e ∈ G3, .p 2 ∉ e.src → e.tgt ≠ .fls ∧ e.tgt ≠ .p 2 := by decide +kernel
      rw [hF.tgt]
      refine h1 e he fun hm => ?_
      rw [← hF.src] at hm
      obtain ⟨f, hf, h2⟩ := List.mem_map.1 hm
      exact (hb f hf).2 h2
    exact (Derivable.sound this hu).1 rfl
  · have : (match tsEngineSolve propSmt R keepE false (tsEngineGraph propSmt R keep propKeep id (.p 7) (ensureNoAux propQ)
        (fun ts => imcSolve propSmt false false ts 5 5) false) st3 with
      | .done ⟨.unsafeAns, _⟩ => true
      | _ => false) = true := by decide +kernel
    split at this
    · rename_i h; exact ⟨_, h, rfl⟩
    · cases this

end SingleLoopEx

end Golem
