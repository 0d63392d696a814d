import Verif.Lemmas.NestedPath

/-! C72: contraction of nested loops before TPA (`--simplify-nested`). -/

namespace Golem
variable {T : Theory} {X : NetEnv T} {R : PRepr} {names : Nat → Pred} {G : LGraph T}

/-- What is assumed of a linear graph given to the transformation: labels as usual, names as golem makes them, no edge into the entry or
out of the exit, and symbols for the contracted loops that are new and different. -/
structure NestInput (names : Nat → Pred) (R : PRepr) (G : LGraph T) : Prop where
  wf : R.WF
  argNames : ∀ p, ∀ n ∈ R.args p, n.Plain
  labelNames : ∀ e ∈ G, ∀ x ∈ e.fla.vars, x.nm.Plain
  label : ∀ e ∈ G, e.LabelOk R
  aux : G.AuxDisjoint R
  ids : (G.map LEdge.id).Nodup
  ends : ∀ e ∈ G, e.tgt ≠ .tru ∧ e.src ≠ .fls
  new : ∀ j, ∀ e ∈ G, e.src ≠ names j ∧ e.tgt ≠ names j
  newNe : ∀ j, names j ≠ .tru ∧ names j ≠ .fls
  inj : ∀ i j, names i = names j → i = j

theorem plain_nameOk {n : Name} (h : n.Plain) : NameOk [] n ∧ ∀ i, n ≠ .et i := by
  cases n <;> simp_all [NameOk, locName, Name.Plain, Name.isPlain]

theorem NestInput.nest (h : NestInput names R G) : NestOk [] (Later names 0) R G where
  wf := h.wf
  label := h.label
  ids := h.ids
  ends := h.ends
  live _ _ := by simp
  argNm p n hn := plain_nameOk (h.argNames p n hn)
  lblNm e he x hx := (plain_nameOk (h.labelNames e he x hx)).1
  fresh e he := ⟨fun ⟨j, _, e1⟩ => (h.new j e he).1 e1, fun ⟨j, _, e1⟩ => (h.new j e he).2 e1⟩
  freshDead := by simp
  freshEnds := ⟨fun ⟨j, _, e1⟩ => (h.newNe j).1 e1.symm, fun ⟨j, _, e1⟩ => (h.newNe j).2 e1.symm⟩

/-- **C72** The contraction of nested loops ends with a graph in which only self-loops are cycles, and error paths keep their lengths: in
particular the graph is unsafe exactly if the initial one is. -/
theorem C72_transform (h : NestInput names R G) : ∃ x, nestedTransform names R G = some x ∧ x.G.CycleFree ∧
    (∀ n, (∃ es : List (LEdge T), (∀ e ∈ es, e ∈ x.G) ∧ es.length = n ∧ LFeasible x.R es trueFact falseFact) ↔
      ∃ es : List (LEdge T), (∀ e ∈ es, e ∈ G) ∧ es.length = n ∧ LFeasible R es trueFact falseFact) ∧
    (x.G.Unsafe x.R ↔ G.Unsafe R) := by
  obtain ⟨x, hx, hc⟩ := nestedTransform_spec h.inj h.nest
  obtain ⟨_, a, _, b⟩ := hc.facts h.inj h.nest
  exact ⟨x, hx, a, b, hc.unsafe_iff h.inj h.nest⟩

/-- What the transformed graph satisfies. -/
theorem NestInput.contracts (h : NestInput names R G) {x : Nested T} (hx : nestedTransform names R G = some x) : Contracts names 0 R G x := by
  obtain ⟨x', hx', hc⟩ := nestedTransform_spec h.inj h.nest
  rw [hx] at hx'; cases hx'; exact hc

/-- **C72** Translating an answer of the network for the contracted graph gives a right answer for the initial graph, with a right witness. -/
theorem C72_solve (hX : X.Ok) (hc : X.V.S.Complete) (hQ : X.V.Q.Exact) (hK : X.V.K.Exact) (h : NestInput names R G) (hone : G.OneLoop)
    {K : KeepOnly T} (hKa : K.Exact) {simp : Fla T → Fla T} (hsi : SimplifierOk simp) {w : Bool} {res : VerificationResult T}
    (hres : nestedSolve X K simp names w R G = .done res) : GraphResultOk R G res := by
  unfold nestedSolve at hres
  split at hres
  · cases hres
  rename_i x hx
  have hct := h.contracts hx
  obtain ⟨⟨k', _, hok, _⟩, _, hone', _⟩ := hct.facts h.inj h.nest
  have hu := hct.unsafe_iff h.inj h.nest
  rw [Outcome.andThen_done] at hres
  obtain ⟨r, hr, hres⟩ := hres
  obtain ⟨u1, u2⟩ := C62_unsafe hX hok.wf hok.label hok.ids hr
  obtain ⟨s1, s2⟩ := C62_safe hX hc hQ hK hok.wf hok.label (hone' hone) hr
  unfold nestedTranslate at hres
  split at hres
  · rename_i ha
    have hun : G.Unsafe R := hu.1 (u1 ha).1
    split at hres
    · rename_i ds hds
      obtain ⟨es, he1, he2, he3, he4⟩ := netSolve_path hX hok.wf hok.label hok.ids hr hds
      rw [Outcome.andThen_done] at hres
      obtain ⟨o, ho, hres⟩ := hres
      cases o with
      | some ds' =>
        cases hres
        refine ⟨fun _ => hun, fun e => (by cases e), fun _ e => (by cases e), fun _ e => ?_⟩
        cases e
        exact ⟨rfl, nestedErrorPath_ok h.inj hct h.nest hX.V.S he1 he2 he4 ho⟩
      | none =>
        cases hres
        exact ⟨fun _ => hun, fun e => (by cases e), fun _ e => (by cases e), fun _ e => (by cases e)⟩
    · cases hres
  · rename_i ha
    have hsafe : ¬ G.Unsafe R := fun hg => (s1 ha).1 (hu.2 hg)
    split at hres
    · rename_i D hD
      have hw := (s2 D hD).2
      split at hres
      · rename_i D' hD'
        cases hres
        refine ⟨fun e => (by cases e), fun _ => hsafe, fun _ e => ?_, fun _ e => (by cases e)⟩
        cases e
        refine ⟨rfl, ?_⟩
        by_cases hfl : Flat x.loops
        · exact nestedValidity_ok h.inj hct h.nest hfl hKa hsi hw hD'
        · rw [nestedValidity_none h.inj hct h.nest hfl hw] at hD'
          cases hD'
      · cases hres
    · cases hres
  · rename_i ha
    cases hres
    refine ⟨fun e => (by rw [ha] at e; cases e), fun e => (by rw [ha] at e; cases e), fun D hD => ?_, fun ds hd => ?_⟩
    · rw [(s2 D hD).1] at ha; cases ha
    · rw [(u2 ds hd).1] at ha; cases ha

/-- **C72** The TPA engine, with either core and the option to simplify nested loops, on an arbitrary linear graph: the answer is right
and a witness, if there is one, proves it. -/
theorem C72_tpa_nested (hX : X.Ok) (hc : X.V.S.Complete) (hQ : X.V.Q.Exact) (hK : X.V.K.Exact) (h : NestInput names R G) (hn : G.NoStray)
    {E : ElimExcept T} (hE : E.Exact) {Q : QElim T} (hQa : Q.Exact) {K : KeepOnly T} (hKa : K.Exact) {simp : Fla T → Fla T}
    (hsi : SimplifierOk simp) (hone : G.OneLoop) (hst : X.core = .split → G.Starts R) {hasArrays w : Bool} {res : VerificationResult T}
    (hres : tpaNested X R E Q K simp names hasArrays w G = .done res) : GraphResultOk R G res := by
  unfold tpaNested at hres
  split at hres
  · rename_i ht; cases hres; exact solveTrivial_ok hX.V.S h.wf ht
  split at hres
  · cases hres
    exact ⟨fun e => (by cases e), fun e => (by cases e), fun _ e => (by cases e), fun _ e => (by cases e)⟩
  split at hres
  · rename_i hG
    obtain ⟨ts0, hts0, hwf, hsep, _⟩ := C18_toTransitionSystem h.wf hE hG hn h.label h.aux
    obtain ⟨ts1, hts1, hu⟩ := C18_unsafe h.wf hE hG hn h.label h.aux
    rw [hts0] at hts1; cases hts1
    rw [hts0, Option.bind_some] at hres
    split at hres
    · cases hres
    rename_i ts hts
    obtain ⟨w1, _, hs⟩ := C18_ensureNoAux hQa hwf hts
    refine tpaAnswerResult_ok (R := R) (G := G) hX hc hQ hK w1 (fun hcore => ?_) (by rw [hs.sem]; exact hu) (fun k res hun hk => ?_)
      (fun I res a b hk => ?_) hres
    · rw [hs.sem]; exact shape_starts h.wf hE hG hn h.label hts0 (hst hcore)
    · exact translate_unsafeAt hX.V.S h.wf hG hn h.ids hun hk
    · obtain ⟨ha, hv, hi, _⟩ := (C28_translate hX.V.S h.wf hE hG hn h.label h.ids hts0 hs (r := .safeInv I) ⟨a, b⟩).1 res hk
      refine ⟨fun e => (by rw [ha] at e; cases e), fun _ hg => ?_, hv, hi⟩
      exact b.isSafe (by rw [hs.sem]; exact hu.2 hg)
  · exact C72_solve hX hc hQ hK h hone hKa hsi hres

/-- **C72** With split TPA, no parallel edges, a deciding backend and no contracted vertex contracted again, an UNSAFE answer of the network
for the contracted graph becomes a derivation in the initial graph. -/
theorem C72_unsafe_witness (hX : X.Ok) (hc : X.V.S.Complete) (hcore : X.core = .split) (h : NestInput names R G) (hnp : G.NoParallel)
    {x : Nested T} (hx : nestedTransform names R G = some x) (hfl : Flat x.loops) {K : KeepOnly T} {simp : Fla T → Fla T}
    (hr : netSolve X x.R false x.G = .done ⟨.unsafeAns, .none⟩) :
    ∃ ds, nestedSolve X K simp names true R G = .done ⟨.unsafeAns, .invalidity ds⟩ ∧ LUnsafeWitness R G ds := by
  have hct := h.contracts hx
  obtain ⟨⟨k', _, hok, _⟩, hfree, _, _⟩ := hct.facts h.inj h.nest
  obtain ⟨ds, hds⟩ := C62_unsafe_witness_total hX hc hcore hok.wf hok.label hok.ids hfree.ranked hr
  obtain ⟨es, he1, he2, he3, he4⟩ := netSolve_path hX hok.wf hok.label hok.ids hds rfl
  obtain ⟨ds', hds'⟩ := nestedErrorPath_total h.inj hct h.nest hfl hnp hX.V.S hc he1 he2 he3 he4
  refine ⟨ds', ?_, nestedErrorPath_ok h.inj hct h.nest hX.V.S he1 he2 he4 hds'⟩
  simp only [nestedSolve, hx, hds, Outcome.andThen, nestedTranslate, hds']

/-- Without repeated contractions the new vertices are there at the end. -/
theorem Contracts.loopVertex (hinj : ∀ i j, names i = names j → i = j) {k : Nat} {x : Nested T} (h : Contracts names k R G x) :
    ∀ {dead : List Pred}, NestOk dead (Later names k) R G → Flat x.loops → ∀ c ∈ x.loops, x.G.Vertex c.vertex := by
  induction h with
  | done hc => intro _ _ _; simp
  | @step k R G x vs hp hl hcs ih =>
    intro dead hok hfl c hc
    rcases List.mem_cons.1 hc with rfl | hc
    · refine hcs.vertices.2.1 _ ⟨loopEdge R (names k) vs G, mem_contractVertices.2 (.inl rfl), .inl rfl⟩ fun d hd => ?_
      exact hfl _ (List.mem_cons_self ..) d (by simp [hd])
    · exact ih (hok.next hinj hp) (fun a ha b hb => hfl a (by simp [ha]) b (by simp [hb])) c hc

theorem nestedDefs_total {K : KeepOnly T} {simp : Fla T → Fla T} (hKt : ∀ f l, (K f l).isSome) {locs : List Pred} {D : Defs T} :
    ∀ {loops : List LoopContraction}, (∀ c ∈ loops, (D.get c.vertex).isSome) → ∃ L, nestedDefs K simp R G locs D loops = some L
  | [], _ => ⟨[], rfl⟩
  | c :: cs, h => by
    simp only [List.mem_cons, forall_eq_or_imp] at h
    obtain ⟨inv, hinv⟩ := Option.isSome_iff_exists.1 h.1
    obtain ⟨L, hL⟩ := nestedDefs_total (simp := simp) (locs := locs) hKt h.2
    have hinvS : ∀ p, ∃ d, nestedInvariant K simp R locs inv p = some d := by
      intro p
      simp only [nestedInvariant]
      split
      · obtain ⟨g, hg⟩ := Option.isSome_iff_exists.1 (hKt (.not (simp (varSubstitute inv (nestedLocSubst locs p)))) (basePositions R p))
        rw [hg]; exact ⟨_, rfl⟩
      · exact ⟨_, rfl⟩
    have hm : ∀ l : List Pred, ∃ M, (l.mapM fun p => (nestedInvariant K simp R locs inv p).map fun f => (p, f)) = some M := by
      intro l
      induction l with
      | nil => exact ⟨[], rfl⟩
      | cons p l ih =>
        obtain ⟨d, hd⟩ := hinvS p
        obtain ⟨M, hM⟩ := ih
        exact ⟨(p, d) :: M, by simp [List.mapM_cons, hd, hM]⟩
    obtain ⟨M, hM⟩ := hm (nestedOld G c)
    exact ⟨M ++ L, by simp [nestedDefs, hinv, hM, hL]⟩

/-- **C72** When no contracted vertex is contracted again and quantifier elimination succeeds, a SAFE answer of the network for the
contracted graph becomes an interpretation of the initial graph. -/
theorem C72_safe_witness (hX : X.Ok) (hc : X.V.S.Complete) (hQ : X.V.Q.Exact) (hK : X.V.K.Exact) (h : NestInput names R G)
    (hone : G.OneLoop) {x : Nested T} (hx : nestedTransform names R G = some x) (hfl : Flat x.loops) {K : KeepOnly T} (hKa : K.Exact)
    (hKt : ∀ f l, (K f l).isSome) {simp : Fla T → Fla T} (hsi : SimplifierOk simp) {r : VerificationResult T}
    (hr : netSolve X x.R true x.G = .done r) (ha : r.answer = .safe) :
    ∃ D, nestedSolve X K simp names true R G = .done ⟨.safe, .validity D⟩ ∧ LSafeWitness R G D := by
  have hct := h.contracts hx
  obtain ⟨⟨k', _, hok, _⟩, _, hone', _⟩ := hct.facts h.inj h.nest
  obtain ⟨s1, s2⟩ := C62_safe hX hc hQ hK hok.wf hok.label (hone' hone) hr
  obtain ⟨D, hD⟩ := (s1 ha).2 rfl
  have hw := (s2 D hD).2
  obtain ⟨L, hL⟩ := nestedDefs_total (R := R) (G := G) (simp := simp) hKt (locs := nestedLocs G x.loops) (D := D) (loops := x.loops)
    fun c hc => hw.complete _ (hct.loopVertex h.inj h.nest hfl c hc)
  have hv : nestedValidity K simp R G x.loops D = some ((D.filter fun d => !x.loops.any fun c => decide (c.vertex = d.1)) ++ L) := by
    simp [nestedValidity, hL]
  refine ⟨_, ?_, nestedValidity_ok h.inj hct h.nest hfl hKa hsi hw hv⟩
  simp only [nestedSolve, hx, hr, Outcome.andThen, nestedTranslate, ha, hD, hv]

/-- **C72** When witnesses are not computed, every SAFE or UNSAFE answer of the network is lost: its translation asks for the witness
and throws. -/
theorem C72_no_witness_throws (hX : X.Ok) (h : NestInput names R G) {x : Nested T} (hx : nestedTransform names R G = some x) {K : KeepOnly T}
    {simp : Fla T → Fla T} {r : VerificationResult T} (hr : netSolve X x.R false x.G = .done r) :
    r.answer ≠ .unknown ∧ nestedSolve X K simp names false R G = .thrown := by
  have hct := h.contracts hx
  obtain ⟨⟨k', _, hok, _⟩, _⟩ := hct.facts h.inj h.nest
  obtain ⟨net, o, _, _, _, hh⟩ := netSolve_cases hX hok.wf hok.label hr
  have hcase : r = ⟨.unsafeAns, .none⟩ ∨ r = ⟨.safe, .none⟩ := by
    obtain ⟨ans, wit⟩ := r
    cases o with
    | found path net' => simp only at hh; obtain ⟨h1, h2, _⟩ := hh; rw [h1, h2 trivial]; exact .inl rfl
    | exhausted net' => simp only at hh; obtain ⟨h1, h2, _⟩ := hh; rw [h1, h2 trivial]; exact .inr rfl
  simp only [nestedSolve, hx, hr, Outcome.andThen]
  rcases hcase with rfl | rfl
  · exact ⟨by simp, rfl⟩
  · exact ⟨by simp, rfl⟩

/-- **C72** When a contracted vertex has been contracted again, every SAFE answer of the network is lost: its invariant has no definition
for the vertex, and the translation throws. -/
theorem C72_nested_again_throws (hX : X.Ok) (hc : X.V.S.Complete) (hQ : X.V.Q.Exact) (hK : X.V.K.Exact) (h : NestInput names R G)
    (hone : G.OneLoop) {x : Nested T} (hx : nestedTransform names R G = some x) (hfl : ¬ Flat x.loops) {K : KeepOnly T}
    {simp : Fla T → Fla T} {w : Bool} {r : VerificationResult T} (hr : netSolve X x.R w x.G = .done r) (ha : r.answer = .safe) :
    nestedSolve X K simp names w R G = .thrown := by
  have hct := h.contracts hx
  obtain ⟨⟨k', _, hok, _⟩, _, hone', _⟩ := hct.facts h.inj h.nest
  obtain ⟨s1, s2⟩ := C62_safe hX hc hQ hK hok.wf hok.label (hone' hone) hr
  simp only [nestedSolve, hx, hr, Outcome.andThen, nestedTranslate, ha]
  split
  · rename_i D hD
    rw [nestedValidity_none h.inj hct h.nest hfl (s2 D hD).2]
  · rfl

end Golem
