import Verif.Props.TPANetwork
import Verif.Props.DetectLoop

/-! C64: the TPA engine on a linear graph, from the graph to the answer and its witness. -/

namespace Golem
variable {T : Theory} {X : NetEnv T} {R : PRepr} {N : Pred} {G : LGraph T}

/-- Some clause without body atoms can be applied. -/
def LGraph.Starts (R : PRepr) (G : LGraph T) : Prop := ∃ e ∈ G, ∃ g, e.Fires R trueFact g

theorem tpaPrepare_vars {simpT : Fla T → Fla T} {ts ts' : TS T} (h : tpaPrepare simpT ts = some ts') : ts'.stateVars = ts.stateVars := by
  unfold tpaPrepare at h
  simp only [Option.bind_eq_bind, Option.bind_eq_some_iff] at h
  obtain ⟨i, _, q, _, t, _, h⟩ := h
  split at h
  · cases h; rfl
  · cases h

/-- One run of a fresh solver object. -/
theorem tpaRun_ok (hX : X.Ok) {ts : TS T} (hw : ts.WF) (hne : X.core = .split → ∃ s, ts.sem.Init s)
    {r : TS T × TpaState T × TpaAnswer T} (h : tpaRun X ts = .done r) :
    r.1.Same ts ∧
    (∀ g n, r.2.2 = .reached g n → ts.sem.Unsafe ∧ (X.core = .split → ts.sem.BadIn n)) ∧
    ∀ e, r.2.2 = .safe e → X.V.S.Complete → ts.sem.Safe ∧ (X.V.K.Exact → X.V.Q.Exact →
      ∀ I, tpaInvariant X.V r.1 r.2.1 e = .done (some I) → ts.Over I ∧ ts.sem.SafeInductive (ts.den I)) := by
  simp only [tpaRun, Outcome.andThen_done, Outcome.orThrow_done, Outcome.done.injEq] at h
  obtain ⟨start, h0, ⟨a, st⟩, hs, rfl⟩ := h
  have hsame : start.1.Same ts := by
    have h0' := h0
    unfold tpaStart at h0'
    simp only [Option.bind_eq_bind, Option.bind_eq_some_iff] at h0'
    obtain ⟨tp, hp, st0, hr, h0'⟩ := h0'
    simp only [Option.pure_def, Option.some.injEq] at h0'
    subst h0'
    obtain ⟨_, _, h1, h2, h3⟩ := C58_prepare hX.simpT hw hp
    exact ⟨tpaPrepare_vars hp, h1, h2, h3⟩
  have hrun : tpaOps X.V X.core X.fuel [.solve] start = .done [(start.1, st, a)] := by
    obtain ⟨t1, t2⟩ := start
    simp only [tpaOps] at hs ⊢
    simp [hs, Outcome.andThen]
  have hg : TpaGuard X.core [(start.1, st, a)] := by
    intro y hy hcore _ _
    simp only [List.mem_singleton] at hy
    subst hy
    obtain ⟨s, hs⟩ := hne hcore
    exact ⟨s, (hsame.init s).2 hs⟩
  have hbi : ∀ n, start.1.sem.BadIn n ↔ ts.sem.BadIn n := fun n => by rw [hsame.sem]
  refine ⟨hsame, ?_, ?_⟩
  · rintro g n rfl
    obtain ⟨⟨m, hm⟩, h2, _⟩ := C58_unsafe hX.V hX.simpT hw h0 hrun hg (by simp : (start.1, st, TpaAnswer.reached g n) ∈ _)
    exact ⟨⟨m, (hbi m).1 hm⟩, fun e => (hbi n).1 (h2 e)⟩
  · rintro e rfl hc
    have h1 := C58_safe hX.V hc hX.simpT hw h0 hrun hg (by simp : (start.1, st, TpaAnswer.safe e) ∈ _)
    refine ⟨fun ⟨n, hn⟩ => h1 ⟨n, (hbi n).2 hn⟩, fun hK hQ I hI => ?_⟩
    obtain ⟨h2, h3⟩ := C59_invariant hX.V hc hK hQ hX.simpT hw h0 hrun hg (by simp : (start.1, st, TpaAnswer.safe e) ∈ _) hI
    have hd : start.1.den I = ts.den I := by
      funext s; simp only [TS.den, hsame.vars]
    refine ⟨fun x hx => hsame.vars ▸ h2 x hx, ?_⟩
    rw [← hsame.sem, ← hd]; exact h3

/-- The initial states of the extracted system. -/
theorem shape_starts {R : PRepr} (hR : R.WF) {E : ElimExcept T} (hE : E.Exact) {G : LGraph T} (hG : isTransitionSystem G = true) (hn : G.NoStray)
    (hl : ∀ e ∈ G, e.LabelOk R) {ts : TS T} (hts : toTransitionSystem R E G = some ts) (h : G.Starts R) : ∃ s, ts.sem.Init s := by
  obtain ⟨v, eI, eL, eQ, hs⟩ := isTransitionSystem_shape hG
  rw [toTransitionSystem_eq hs hn] at hts
  cases hts
  obtain ⟨e, he, g, hF⟩ := h
  have hsrc := hF.src
  rcases hs.all hn he with rfl | rfl | rfl
  · have ht := hF.tgt
    refine ⟨g.2, (shape_init hR hE hs (hl _ hs.mI) g.2).2 ?_⟩
    rw [← hs.tI, ← fact_eta hF.tgt]
    exact hF
  · rw [hs.sL] at hsrc; exact absurd hsrc.symm hs.ne.1
  · rw [hs.sQ] at hsrc; exact absurd hsrc.symm hs.ne.1

/-- The initial states of the single-loop system. -/
theorem singleLoop_starts (h : SLOk R N G) (S : Smt T) {E : ElimExcept T} (hE : E.Exact) (hin : ∃ e ∈ G, e.src = .tru)
    (hout : ∃ e ∈ G, e.tgt = .fls) {ts : TS T} (hts : singleLoop S R E N G = some ts) (hst : G.Starts R) : ∃ s, ts.sem.Init s := by
  obtain ⟨eI, eL, eQ, hs, hall, hl, hd, hr, hts'⟩ := singleLoop_shape h S E hin hout
  rw [hts] at hts'; cases hts'
  have hR' := contract_wf h.contr
  obtain ⟨e, he, g, hF⟩ := hst
  have hsrc : e.src = .tru := hF.src.symm
  have h2 : e.tgt ∈ loopVertices G := by
    rcases h.cases he with hc | hc | hc
    · exact hc.2
    · rw [hsrc] at hc; exact absurd hc.1 h.contr.tru
    · rw [hsrc] at hc; exact absurd hc.1 h.contr.tru
  obtain ⟨τ, hτ⟩ := exists_atLoc R (loopVertices G) e.tgt g.2 (fires_length hF)
  have hc : (crossEdge R N (loopVertices G) e).Fires (R.contract N (loopVertices G)) trueFact
      (encFact R N (loopVertices G) τ) := (cross_in_fires h.contr (h.labelFresh e he) (by rw [hsrc]; exact h.contr.tru)
        (h.new e he).1 h2).2 ⟨τ, g.2, rfl, hτ, by rw [← fact_eta hF.tgt]; exact hF⟩
  obtain ⟨l', hl', f', hb, hF'⟩ := lgraphRules_iff.1 ((hr ⟨[trueFact], encFact R N (loopVertices G) τ⟩).2
    (lgraphRules_iff.2 ⟨_, (mem_contracted h).2 (.inr ⟨e, he, rfl, .inl ⟨hsrc, h2⟩⟩), _, rfl, hc⟩))
  simp only [List.cons.injEq, and_true] at hb
  subst hb
  have hsr := hF'.src
  rcases hall l' hl' with rfl | rfl | rfl
  · exact ⟨_, (shape_init hR' hE hs (hl _ hs.mI) _).2 hF'⟩
  · rw [hs.sL] at hsr; exact absurd hsr.symm h.newNe.1
  · rw [hs.sQ] at hsr; exact absurd hsr.symm h.newNe.1

/-- An UNSAFE result carries a right witness, whatever the number of steps reported. -/
theorem translate_unsafeAt {S : Smt T} (hS : S.Sound) {R : PRepr} (hR : R.WF) {G : LGraph T}
    (hG : isTransitionSystem G = true) (hn : G.NoStray) (hid : (G.map LEdge.id).Nodup) {ts : TS T} {k : Nat}
    (hun : G.Unsafe R) {res : VerificationResult T} (h : translateTSResult S R G ts (.unsafeAt k) = .done res) : GraphResultOk R G res := by
  obtain ⟨v, eI, eL, eQ, hs⟩ := isTransitionSystem_shape hG
  obtain ⟨path, hp, hne, hm, hc⟩ := shape_errorPath hG hs hn hid k
  simp only [translateTSResult, hp] at h
  split at h
  · rename_i ds hds
    cases h
    refine ⟨fun _ => hun, fun e => (by cases e), fun _ e => (by cases e), fun ds' e => ?_⟩
    cases e
    exact ⟨rfl, (C27_fromErrorPath_sound hS hR hm hne hc hds).1⟩
  · cases h
  · cases h

theorem slTranslate_unsafeAt {S : Smt T} (hS : S.Sound) (hsl : SLOk R N G) {Q : KeepOnly T} {simp : Fla T → Fla T} {k : Nat}
    (hun : G.Unsafe R) {res : VerificationResult T} (h : slTranslate S Q simp R N G (.unsafeAt k) = .done res) : GraphResultOk R G res := by
  simp only [slTranslate] at h
  split at h
  · rename_i ds hds
    cases h
    refine ⟨fun _ => hun, fun e => (by cases e), fun _ e => (by cases e), fun ds' e => ?_⟩
    cases e; exact ⟨rfl, (C17_errorPath hS hsl hds).1⟩
  · cases h
    exact ⟨fun _ => hun, fun e => (by cases e), fun _ e => (by cases e), fun _ e => (by cases e)⟩
  · cases h
  · cases h

/-- The answer for one system, given what its translation does. -/
theorem tpaAnswerResult_ok (hX : X.Ok) (hc : X.V.S.Complete) (hQ : X.V.Q.Exact) (hK : X.V.K.Exact) {ts : TS T} (hw : ts.WF)
    (hne : X.core = .split → ∃ s, ts.sem.Init s) (hu : ts.sem.Unsafe ↔ G.Unsafe R) {w : Bool}
    {translate : TSResult T → Outcome (VerificationResult T)}
    (hun : ∀ k res, G.Unsafe R → translate (.unsafeAt k) = .done res → GraphResultOk R G res)
    (hsafe : ∀ I res, ts.Over I → ts.sem.SafeInductive (ts.den I) → translate (.safeInv I) = .done res → GraphResultOk R G res)
    {res : VerificationResult T} (h : (tpaRun X ts).andThen (tpaAnswerResult X w translate) = .done res) : GraphResultOk R G res := by
  simp only [Outcome.andThen_done] at h
  obtain ⟨r, hr, h⟩ := h
  obtain ⟨_, h1, h2⟩ := tpaRun_ok hX hw hne hr
  unfold tpaAnswerResult at h
  split at h
  · rename_i g n ha
    have hG := hu.1 (h1 g n ha).1
    split at h
    · exact hun n res hG h
    · cases h
      exact ⟨fun _ => hG, fun e => (by cases e), fun _ e => (by cases e), fun _ e => (by cases e)⟩
  · rename_i e ha
    obtain ⟨hs, hi⟩ := h2 e ha hc
    have hG : ¬ G.Unsafe R := fun h => hs (hu.2 h)
    have hnone : GraphResultOk R G (⟨.safe, .none⟩ : VerificationResult T) :=
      ⟨fun e => (by cases e), fun _ => hG, fun _ e => (by cases e), fun _ e => (by cases e)⟩
    split at h
    · simp only [Outcome.andThen_done] at h
      obtain ⟨oI, hI, h⟩ := h
      cases oI with
      | none => cases h; exact hnone
      | some I =>
        obtain ⟨a, b⟩ := hi hK hQ I hI
        exact hsafe I res a b h
    · cases h; exact hnone

/-- **C64** The TPA engine, with either core, on an arbitrary linear graph without the option to simplify nested loops: the answer is right
and a witness, if there is one, proves it. -/
theorem C64_tpa_graph (hX : X.Ok) (hc : X.V.S.Complete) (hQ : X.V.Q.Exact) (hK : X.V.K.Exact) (h : SLOk R N G) (hn : G.NoStray)
    {E : ElimExcept T} (hE : E.Exact) {Q : QElim T} (hQa : Q.Exact) {K : KeepOnly T} (hKa : K.Exact) {simp : Fla T → Fla T}
    (hsi : SimplifierOk simp) (hin : ∃ e ∈ G, e.src = .tru) (hout : ∃ e ∈ G, e.tgt = .fls) (hone : G.OneLoop)
    (hst : X.core = .split → G.Starts R) {forceTS hasArrays w : Bool} {res : VerificationResult T}
    (hres : tpaGraph X R E Q K simp N forceTS hasArrays w G = .done res) : GraphResultOk R G res := by
  unfold tpaGraph at hres
  split at hres
  · rename_i ht; cases hres; exact solveTrivial_ok hX.V.S h.wf ht
  split at hres
  · cases hres
    exact ⟨fun e => (by cases e), fun e => (by cases e), fun _ e => (by cases e), fun _ e => (by cases e)⟩
  split at hres
  · rename_i hG
    obtain ⟨ts0, hts0, hwf, hsep, _⟩ := C18_toTransitionSystem h.wf hE hG hn h.label h.aux
    obtain ⟨ts1, hts1, hu⟩ := C18_unsafe h.wf hE hG hn h.label h.aux
    rw [hts0] at hts1; cases hts1
    rw [hts0, Option.bind_some] at hres
    split at hres
    · cases hres
    rename_i ts hts
    obtain ⟨w1, _, hs⟩ := C18_ensureNoAux hQa hwf hts
    refine tpaAnswerResult_ok (R := R) (G := G) hX hc hQ hK w1 (fun hcore => ?_) (by rw [hs.sem]; exact hu) (fun k res hun hk => ?_)
      (fun I res a b hk => ?_) hres
    · rw [hs.sem]; exact shape_starts h.wf hE hG hn h.label hts0 (hst hcore)
    · exact translate_unsafeAt hX.V.S h.wf hG hn h.ids hun hk
    · obtain ⟨ha, hv, hi, _⟩ := (C28_translate hX.V.S h.wf hE hG hn h.label h.ids hts0 hs (r := .safeInv I) ⟨a, b⟩).1 res hk
      refine ⟨fun e => (by rw [ha] at e; cases e), fun _ hg => ?_, hv, hi⟩
      exact b.isSafe (by rw [hs.sem]; exact hu.2 hg)
  split at hres
  · obtain ⟨u1, u2⟩ := C62_unsafe hX h.wf h.label h.ids hres
    obtain ⟨s1, s2⟩ := C62_safe hX hc hQ hK h.wf h.label hone hres
    exact ⟨fun e => (u1 e).1, fun e => (s1 e).1, s2, u2⟩
  split at hres
  · cases hres
  · rename_i ts hts
    obtain ⟨ts0, hts0, hwf, _, _⟩ := C16_single_loop h X.V.S hE hin hout
    rw [hts] at hts0; cases hts0
    have hu := C16_unsafe h X.V.S hE hin hout hts
    refine tpaAnswerResult_ok (R := R) (G := G) hX hc hQ hK hwf (fun hcore => singleLoop_starts h _ hE hin hout hts (hst hcore)) hu
      (fun k res hun hk => slTranslate_unsafeAt hX.V.S h hun hk) (fun I res a b hk => ?_) hres
    exact (C17_translate hX.V.S h hE hin hout hts hKa hsi (r := .safeInv I) ⟨a, b⟩ hk).2

/-- **C64** UNSAFE needs less: the backend may leave queries undecided and self-loops may be parallel. -/
theorem C64_tpa_unsafe (hX : X.Ok) (h : SLOk R N G) (hn : G.NoStray)
    {E : ElimExcept T} (hE : E.Exact) {Q : QElim T} (hQa : Q.Exact) {K : KeepOnly T} {simp : Fla T → Fla T}
    (hin : ∃ e ∈ G, e.src = .tru) (hout : ∃ e ∈ G, e.tgt = .fls)
    (hst : X.core = .split → G.Starts R) {forceTS hasArrays w : Bool} {res : VerificationResult T}
    (hres : tpaGraph X R E Q K simp N forceTS hasArrays w G = .done res) (ha : res.answer = .unsafeAns) :
    G.Unsafe R ∧ ∀ ds, res.witness = .invalidity ds → LUnsafeWitness R G ds := by
  have conv : GraphResultOk R G res → G.Unsafe R ∧ ∀ ds, res.witness = .invalidity ds → LUnsafeWitness R G ds :=
    fun hg => ⟨hg.unsafeAns ha, fun ds hd => (hg.invalidity ds hd).2⟩
  have key : ∀ (ts : TS T), ts.WF → (X.core = .split → ∃ s, ts.sem.Init s) → (ts.sem.Unsafe ↔ G.Unsafe R) →
      ∀ (translate : TSResult T → Outcome (VerificationResult T)),
      (∀ k res, G.Unsafe R → translate (.unsafeAt k) = .done res → GraphResultOk R G res) →
      (∀ I res, translate (.safeInv I) = .done res → res.answer = .safe) →
      (tpaRun X ts).andThen (tpaAnswerResult X w translate) = .done res →
      G.Unsafe R ∧ ∀ ds, res.witness = .invalidity ds → LUnsafeWitness R G ds := by
    intro ts hw hne hu translate hun hsafe hh
    simp only [Outcome.andThen_done] at hh
    obtain ⟨r, hr, hh⟩ := hh
    obtain ⟨_, h1, _⟩ := tpaRun_ok hX hw hne hr
    unfold tpaAnswerResult at hh
    split at hh
    · rename_i g n hans
      have hG := hu.1 (h1 g n hans).1
      split at hh
      · exact conv (hun n res hG hh)
      · cases hh; exact ⟨hG, fun _ e => (by cases e)⟩
    · split at hh
      · simp only [Outcome.andThen_done] at hh
        obtain ⟨oI, hI, hh⟩ := hh
        cases oI with
        | none => cases hh; cases ha
        | some I => rw [hsafe I res hh] at ha; cases ha
      · cases hh; cases ha
  unfold tpaGraph at hres
  split at hres
  · rename_i ht; cases hres; exact conv (solveTrivial_ok hX.V.S h.wf ht)
  split at hres
  · cases hres; cases ha
  split at hres
  · rename_i hG
    obtain ⟨ts0, hts0, hwf, hsep, _⟩ := C18_toTransitionSystem h.wf hE hG hn h.label h.aux
    obtain ⟨ts1, hts1, hu⟩ := C18_unsafe h.wf hE hG hn h.label h.aux
    rw [hts0] at hts1; cases hts1
    rw [hts0, Option.bind_some] at hres
    split at hres
    · cases hres
    rename_i ts hts
    obtain ⟨w1, _, hs⟩ := C18_ensureNoAux hQa hwf hts
    refine key ts w1 (fun hcore => ?_) (by rw [hs.sem]; exact hu) _
      (fun k res hun hk => translate_unsafeAt hX.V.S h.wf hG hn h.ids hun hk) (fun I res hk => ?_) hres
    · rw [hs.sem]; exact shape_starts h.wf hE hG hn h.label hts0 (hst hcore)
    · simp only [translateTSResult] at hk
      split at hk <;> cases hk
      rfl
  split at hres
  · obtain ⟨u1, u2⟩ := C62_unsafe hX h.wf h.label h.ids hres
    exact ⟨(u1 ha).1, fun ds hd => (u2 ds hd).2⟩
  split at hres
  · cases hres
  · rename_i ts hts
    obtain ⟨ts0, hts0, hwf, _, _⟩ := C16_single_loop h X.V.S hE hin hout
    rw [hts] at hts0; cases hts0
    refine key ts hwf (fun hcore => singleLoop_starts h _ hE hin hout hts (hst hcore)) (C16_unsafe h X.V.S hE hin hout hts) _
      (fun k res hun hk => slTranslate_unsafeAt hX.V.S h hun hk) (fun I res hk => ?_) hres
    simp only [slTranslate] at hk
    split at hk <;> cases hk
    rfl

/-- **C64** Split TPA on a graph without parallel edges and with a deciding backend: an UNSAFE answer always comes with a derivation when
witnesses are asked for. -/
theorem C64_split_witness (hX : X.Ok) (hc : X.V.S.Complete) (hcore : X.core = .split) (h : SLOk R N G) (hn : G.NoStray) (hp : G.NoParallel)
    {E : ElimExcept T} (hE : E.Exact) {Q : QElim T} (hQa : Q.Exact) {K : KeepOnly T} {simp : Fla T → Fla T}
    (hin : ∃ e ∈ G, e.src = .tru) (hout : ∃ e ∈ G, e.tgt = .fls) (hst : G.Starts R) {forceTS hasArrays : Bool}
    {res : VerificationResult T} (hres : tpaGraph X R E Q K simp N forceTS hasArrays false G = .done res) (ha : res.answer = .unsafeAns) :
    ∃ ds, tpaGraph X R E Q K simp N forceTS hasArrays true G = .done ⟨.unsafeAns, .invalidity ds⟩ := by
  have key : ∀ (ts : TS T), ts.WF → (∃ s, ts.sem.Init s) →
      ∀ (translate : TSResult T → Outcome (VerificationResult T)),
      (∀ k, ts.sem.BadIn k → ∃ ds, translate (.unsafeAt k) = .done ⟨.unsafeAns, .invalidity ds⟩) →
      (tpaRun X ts).andThen (tpaAnswerResult X false translate) = .done res →
      ∃ ds, (tpaRun X ts).andThen (tpaAnswerResult X true translate) = .done ⟨.unsafeAns, .invalidity ds⟩ := by
    intro ts hw hne translate hun hh
    simp only [Outcome.andThen_done] at hh
    obtain ⟨r, hr, hh⟩ := hh
    obtain ⟨_, h1, _⟩ := tpaRun_ok hX hw (fun _ => hne) hr
    cases hans : r.2.2 with
    | safe e => simp only [tpaAnswerResult, hans] at hh; cases hh; cases ha
    | reached g n =>
      obtain ⟨ds, hds⟩ := hun n ((h1 g n hans).2 hcore)
      exact ⟨ds, by simp only [hr, Outcome.andThen, tpaAnswerResult, hans, if_true, hds]⟩
  unfold tpaGraph at hres ⊢
  split at hres
  · rename_i ht
    rw [if_pos ht]
    cases hres
    have e : solveTrivial X.V.S G = ⟨(solveTrivial X.V.S G).answer, (solveTrivial X.V.S G).witness⟩ := rfl
    rw [ha] at e
    obtain ⟨ds, hds, _⟩ := (C26_solveTrivial_sound hX.V.S h.wf ht).1 _ e
    exact ⟨ds, by rw [e, hds]⟩
  rename_i h1
  rw [if_neg h1]
  split at hres
  · cases hres; cases ha
  rename_i h2
  rw [if_neg h2]
  split at hres
  · rename_i hG
    rw [if_pos hG]
    obtain ⟨ts0, hts0, hwf, hsep, _⟩ := C18_toTransitionSystem h.wf hE hG hn h.label h.aux
    rw [hts0, Option.bind_some] at hres ⊢
    split at hres
    · cases hres
    rename_i ts hts
    obtain ⟨w1, _, hs⟩ := C18_ensureNoAux hQa hwf hts
    refine key ts w1 ?_ _ (fun k hk => ?_) hres
    · rw [hs.sem]; exact shape_starts h.wf hE hG hn h.label hts0 hst
    · obtain ⟨t1, t2⟩ := C28_translate hX.V.S h.wf hE hG hn h.label h.ids hts0 hs (r := .unsafeAt k) hk
      obtain ⟨res', hr'⟩ := t2 hc
      obtain ⟨a1, a2, a3, a4⟩ := t1 res' hr'
      obtain ⟨ans, wit⟩ := res'
      have a1 : ans = .unsafeAns := a1
      subst a1
      cases wit with
      | none => cases a4 rfl
      | validity D => cases (a2 D rfl).1
      | invalidity ds => exact ⟨ds, hr'⟩
  rename_i h3
  rw [if_neg h3]
  split at hres
  · rename_i hd
    rw [if_pos hd]
    have hdag : isTransitionSystemDAG G = true := by simp only [Bool.and_eq_true] at hd; exact hd.1
    have hrank := (C63_dag_cycleFree (fun e he => h.ends e he) hdag).ranked
    have hres' : res = ⟨.unsafeAns, .none⟩ := by
      obtain ⟨net, r, _, _, _, hh⟩ := netSolve_cases hX h.wf h.label hres
      obtain ⟨ans, wit⟩ := res
      have ha : ans = .unsafeAns := ha
      subst ha
      cases r with
      | found path net' => simp only at hh; rw [hh.2.1 trivial]
      | exhausted net' => simp only at hh; cases hh.1
    subst hres'
    exact C62_unsafe_witness_total hX hc hcore h.wf h.label h.ids hrank hres
  rename_i h4
  rw [if_neg h4]
  split at hres
  · cases hres
  · rename_i ts hts
    obtain ⟨ts0, hts0, hwf, _, _⟩ := C16_single_loop h X.V.S hE hin hout
    rw [hts] at hts0; cases hts0
    refine key ts hwf (singleLoop_starts h _ hE hin hout hts hst) _ (fun k hk => ?_) hres
    obtain ⟨ds, hds⟩ := C17_errorPath_total hX.V.S hc h hp hE hin hout hts hk
    exact ⟨ds, by simp only [slTranslate, hds]⟩

end Golem
