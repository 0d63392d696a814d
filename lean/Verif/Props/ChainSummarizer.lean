import Verif.Lemmas.ChainWitness

/-! C13: summarizing chains of trivial vertices. -/

namespace Golem
variable {T : Theory}

/-- Some order of the vertices of a graph. -/
def IsOrder (order : Graph T → List Pred) : Prop := ∀ G p, p ∈ order G ↔ G.Vertex p

/-- C13: the summarizer always ends; afterwards no vertex has just one incoming and one outgoing edge, both simple, different,
and with different ends. The vertices it removes are the inner vertices of the summarized chains; all other predicates have
exactly the derivable facts they had. -/
theorem C13_chain_summarizer {R : PRepr} (hR : R.WF) {E : Elim T} (hE : E.Exact) {order : Graph T → List Pred}
    (ho : IsOrder order) {st : GS T} (hst : st.Ok R) (hends : st.edges.Ends) :
    ∃ st' ss, chainSummarizer R E order st = .done (st', ss) ∧ st'.Ok R ∧ st'.edges.Ends ∧
      (∀ v u i o, ¬ (st'.edges.inEdges v = [i] ∧ st'.edges.outEdges v = [o] ∧ i ≠ o ∧ i.src = [u] ∧ o.src = [v] ∧ u ≠ o.tgt)) ∧
      (∀ p, st'.edges.Vertex p → st.edges.Vertex p ∧ p ∉ chainInner ss) ∧
      (∀ p ∈ chainInner ss, st.edges.Vertex p ∧ p ≠ .tru ∧ p ≠ .fls) ∧
      ∀ f : Fact T, f.1 ∉ chainInner ss → (Derivable (graphRules R st.edges) f ↔ Derivable (graphRules R st'.edges) f) := by
  obtain ⟨st', ss, h1, h2, h3⟩ := summarizeLoop_spec hR hE ho st.edges.length st hst hends (Nat.le_refl _)
  refine ⟨st', ss, h1, h2.last.1, h2.last.2, ?_, fun p hp => h2.vertex hp, fun p hp => h2.inner hp,
    fun f hf => h2.derivable hf⟩
  rintro v u i o ⟨hi, hoo, hne, hsi, hso, huo⟩
  have hmi := mem_inEdges.1 (show i ∈ st'.edges.inEdges v by rw [hi]; simp)
  have hmo := mem_outEdges.1 (show o ∈ st'.edges.outEdges v by rw [hoo]; simp)
  refine h3 v ⟨i, o, hmi.1, hmo.1, hmi.2, fun e he ht => ?_, fun e he hs => ?_, hso, ⟨u, hsi, huo⟩, hne⟩
  · have : e ∈ st'.edges.inEdges v := mem_inEdges.2 ⟨he, ht⟩
    rw [hi] at this; simpa using this
  · have : e ∈ st'.edges.outEdges v := mem_outEdges.2 ⟨he, hs⟩
    rw [hoo] at this; simpa using this

theorem chainSummarizer_run {R : PRepr} (hR : R.WF) {E : Elim T} (hE : E.Exact) {order : Graph T → List Pred}
    (ho : IsOrder order) {st st' : GS T} (hst : st.Ok R) (hends : st.edges.Ends) {ss : List (Summary T)}
    (h : chainSummarizer R E order st = .done (st', ss)) : ChainRun R st ss st' := by
  obtain ⟨st1, ss1, h1, h2, _⟩ := summarizeLoop_spec hR hE ho st.edges.length st hst hends (Nat.le_refl _)
  unfold chainSummarizer at h
  rw [h] at h1
  cases h1
  exact h2

/-- C13: in particular `false` is derivable after summarization iff it was before. -/
theorem C13_unsafe {R : PRepr} (hR : R.WF) {E : Elim T} (hE : E.Exact) {order : Graph T → List Pred}
    (ho : IsOrder order) {st st' : GS T} (hst : st.Ok R) (hends : st.edges.Ends) {ss : List (Summary T)}
    (h : chainSummarizer R E order st = .done (st', ss)) : st.edges.Unsafe R ↔ st'.edges.Unsafe R := by
  have h2 := chainSummarizer_run hR hE ho hst hends h
  exact h2.derivable (f := falseFact) fun hm => (h2.inner hm).2.2 rfl

/-- C13, SAFE: a model of the summarized graph, translated back, is a model of the input — or the translation gives up with
the empty witness. If the given model defines all vertices, so does the result; it never defines anything but vertices. -/
theorem C13_chain_summarizer_safe {S : Smt T} (hS : S.Sound) {R : PRepr} (hR : R.WF) {E : Elim T} (hE : E.Exact)
    {order : Graph T → List Pred} (ho : IsOrder order) {st st' : GS T} (hst : st.Ok R) (hends : st.edges.Ends)
    {ss : List (Summary T)} (h : chainSummarizer R E order st = .done (st', ss)) {D D' : Defs T}
    (hD : SafeModel R st'.edges D) (honly : ∀ p, (D.get p).isSome → st'.edges.Vertex p ∨ p = .tru ∨ p = .fls)
    (hr : chainSafe S R ss D = .done D') :
    D' = [] ∨ (SafeModel R st.edges D' ∧ (∀ p, (D'.get p).isSome → st.edges.Vertex p ∨ p = .tru ∨ p = .fls) ∧
      (SafeWitness R st'.edges D → SafeWitness R st.edges D')) := by
  have h2 := chainSummarizer_run hR hE ho hst hends h
  unfold chainSafe at hr
  split at hr
  · rename_i r hr'
    cases r with
    | none => simp at hr; exact .inl hr
    | some D1 =>
      simp only [Option.getD_some, Outcome.done.injEq] at hr
      subst hr
      obtain ⟨a, b, c⟩ := chainSafeLoop_sound hS hR h2 hD honly hr'
      exact .inr ⟨a, b, fun hw => ⟨a, c hw.complete, b⟩⟩
  · simp at hr
  · simp at hr

/-- C13, SAFE, no failure: with a deciding backend the translation yields a SAFE witness whenever all vertices of the input
can be reached from the entry. -/
theorem C13_chain_summarizer_safe_total {S : Smt T} (hS : S.Sound) (hSC : S.Complete) {R : PRepr} (hR : R.WF) {E : Elim T}
    (hE : E.Exact) {order : Graph T → List Pred} (ho : IsOrder order) {st st' : GS T} (hst : st.Ok R) (hends : st.edges.Ends)
    (hG : st.edges.Grounded) {ss : List (Summary T)} (h : chainSummarizer R E order st = .done (st', ss)) {D : Defs T}
    (hD : SafeWitness R st'.edges D) : ∃ D', chainSafe S R ss D = .done D' ∧ SafeWitness R st.edges D' := by
  have h2 := chainSummarizer_run hR hE ho hst hends h
  obtain ⟨D', hD'⟩ := chainSafeLoop_total hS hSC hR h2 hG hD
  obtain ⟨a, b, c⟩ := chainSafeLoop_sound hS hR h2 hD.toSafeModel hD.only hD'
  exact ⟨D', by unfold chainSafe; rw [hD']; rfl, a, c hD.complete, b⟩

theorem chainUns_run {S : Smt T} (hS : S.Sound) {R : PRepr} (hR : R.WF) {st st' : GS T} {ss : List (Summary T)}
    (h2 : ChainRun R st ss st') {ds : List (DStep T)} (hw : UnsafeWitness R st'.edges ds) :
    chainUns S R ss ds ≠ .outOfFuel ∧
      (∀ ds', chainUns S R ss ds = .done ds' → UnsafeWitness R st.edges ds') ∧
      (S.Complete → ∃ ds', chainUns S R ss ds = .done ds') := by
  have hst := h2.first.1
  obtain ⟨hid1, hid2, _⟩ := h2.ids
  have hnew : ∀ e ∈ st'.edges, e ∉ st.edges → ∃ t ∈ ss, e = t.2 ∧ SumOk R st.edges t :=
    fun e he hn => (h2.edges_ok e he).resolve_left hn
  let N : Graph T := st'.edges.filter fun e => decide (e ∉ st.edges)
  have hN : ∀ e, e ∈ N ↔ e ∈ st'.edges ∧ e ∉ st.edges := fun e => by simp [N, List.mem_filter]
  have hU : Graph.IdsNodup (st.edges ++ N) := by
    unfold Graph.IdsNodup
    rw [List.map_append, List.nodup_append]
    refine ⟨hst.ids, (h2.last.1.ids).sublist (List.filter_sublist.map _), ?_⟩
    intro a ha b hb
    obtain ⟨e, he, rfl⟩ := List.mem_map.1 ha
    obtain ⟨e', he', rfl⟩ := List.mem_map.1 hb
    obtain ⟨h3, h4⟩ := (hN e').1 he'
    obtain ⟨t, ht, rfl, _⟩ := hnew e' h3 h4
    have := hst.idlt e he
    have := hid1 t ht
    omega
  refine chainUns_spec (B := st.edges) (U := st.edges ++ N) hS hR (fun e he => hst.labelOk he) hU
    (fun e he => List.mem_append_left _ he) ss ds ?_ ?_ ?_ ?_
  · intro t ht e he
    have := hst.idlt e he
    have := hid1 t ht
    omega
  · intro t ht e he heq
    rcases List.mem_append.1 he with he | he
    · have := hst.idlt e he
      have := hid1 t ht
      omega
    · obtain ⟨h3, h4⟩ := (hN e).1 he
      obtain ⟨t', ht', rfl, hok⟩ := hnew e h3 h4
      have : t' = t := unique_of_count (g := fun t : Summary T => t.2.id) (b := t.2.id) (List.nodup_iff_count.1 hid2 _) ht' ht heq rfl
      subst this
      exact ⟨rfl, hok⟩
  · intro c hc
    obtain ⟨d, hd, rfl⟩ := List.mem_map.1 hc
    obtain ⟨i, hi, hie⟩ := List.getElem_of_mem hd
    have hie' : ds[i]? = some d := by rw [List.getElem?_eq_getElem hi, hie]
    rcases Nat.eq_zero_or_pos i with h | h
    · subst h
      obtain ⟨d0, hd0, _, hcl⟩ := hw.first
      rw [List.head?_eq_getElem?, hie'] at hd0
      cases hd0
      exact .inl hcl
    · obtain ⟨_, e, he, hec, _⟩ := hw.steps i d h hie'
      right
      rw [hec]
      rcases h2.edges_ok e he with h | ⟨t, ht, rfl, _⟩
      · exact .inl ⟨e, h, rfl⟩
      · exact .inr ⟨t, ht, rfl⟩
  · refine hw.mono fun e he => ?_
    by_cases h : e ∈ st.edges
    · exact List.mem_append_left _ h
    · exact List.mem_append_right _ ((hN e).2 ⟨he, h⟩)

/-- C13, UNSAFE: a derivation over the summarized graph, translated back, is a derivation over the input. -/
theorem C13_chain_summarizer_unsafe {S : Smt T} (hS : S.Sound) {R : PRepr} (hR : R.WF) {E : Elim T} (hE : E.Exact)
    {order : Graph T → List Pred} (ho : IsOrder order) {st st' : GS T} (hst : st.Ok R) (hends : st.edges.Ends)
    {ss : List (Summary T)} (h : chainSummarizer R E order st = .done (st', ss)) {ds ds' : List (DStep T)}
    (hw : UnsafeWitness R st'.edges ds) (hr : chainUns S R ss ds = .done ds') : UnsafeWitness R st.edges ds' :=
  (chainUns_run hS hR (chainSummarizer_run hR hE ho hst hends h) hw).2.1 ds' hr

/-- C13, UNSAFE: the translation always ends. -/
theorem C13_chain_summarizer_unsafe_terminates {S : Smt T} (hS : S.Sound) {R : PRepr} (hR : R.WF) {E : Elim T} (hE : E.Exact)
    {order : Graph T → List Pred} (ho : IsOrder order) {st st' : GS T} (hst : st.Ok R) (hends : st.edges.Ends)
    {ss : List (Summary T)} (h : chainSummarizer R E order st = .done (st', ss)) {ds : List (DStep T)}
    (hw : UnsafeWitness R st'.edges ds) : chainUns S R ss ds ≠ .outOfFuel :=
  (chainUns_run hS hR (chainSummarizer_run hR hE ho hst hends h) hw).1

/-- C13, UNSAFE, no failure. -/
theorem C13_chain_summarizer_unsafe_total {S : Smt T} (hS : S.Sound) (hSC : S.Complete) {R : PRepr} (hR : R.WF) {E : Elim T}
    (hE : E.Exact) {order : Graph T → List Pred} (ho : IsOrder order) {st st' : GS T} (hst : st.Ok R) (hends : st.edges.Ends)
    {ss : List (Summary T)} (h : chainSummarizer R E order st = .done (st', ss)) {ds : List (DStep T)}
    (hw : UnsafeWitness R st'.edges ds) : ∃ ds', chainUns S R ss ds = .done ds' ∧ UnsafeWitness R st.edges ds' := by
  obtain ⟨_, h1, h2⟩ := chainUns_run hS hR (chainSummarizer_run hR hE ho hst hends h) hw
  obtain ⟨ds', hd⟩ := h2 hSC
  exact ⟨ds', hd, h1 ds' hd⟩

/-! ### A concrete case -/

namespace ChainEx
open ValidatorEx (P R R_wf a)
open NodeElimEx (s t k keepE keepE_exact fresh)

/-- Vertices in the order of their first occurrence. -/
def order (G : Graph P) : List Pred := firstOcc (G.flatMap fun e => e.tgt :: e.src)

theorem order_ok : IsOrder (T := P) order := by
  intro G p
  unfold order
  simp only [mem_firstOcc, List.mem_flatMap, List.mem_cons]
  rfl

/-- true → p0(x'): x' ∧ k;  p0(x) → p1(x'): x ↔ x';  p1(x) → p2(x'): x ↔ x';  p2(x) → p2(x'): x ↔ x';  and the given query. -/
def G (q : Fla P) : Graph P :=
  [⟨[.tru], .p 0, .and (t 0) k, 0⟩, ⟨[.p 0], .p 1, .iff (s 0) (t 1), 1⟩, ⟨[.p 1], .p 2, .iff (s 1) (t 2), 2⟩,
   ⟨[.p 2], .p 2, .iff (s 2) (t 2), 3⟩, ⟨[.p 2], .fls, q, 4⟩]

def st (q : Fla P) : GS P := ⟨G q, 5, 1, 0⟩

theorem st_ok (q : Fla P) (hq : q = s 2 ∨ q = .not (s 2)) : (st q).Ok R := by
  have hv : ∀ e ∈ G q, ∀ x ∈ e.fla.vars, x ∈ R.own e.src e.tgt ∨ (e.id = 0 ∧ x = .ver (.gaux 0) 0) := by
    rcases hq with rfl | rfl <;> decide +kernel
  have hn : ∀ x, (G q).Aux R x → ∀ e ∈ G q, x ∈ e.fla.vars → e.id = 0 := by
    intro x hx e he hxe
    rcases hv e he x hxe with h | h
    · exact absurd hx (own_not_aux R_wf (fun _ hs => vertex_src he hs) h)
    · exact h.1
  have hid : Graph.IdsNodup (G q) := by unfold Graph.IdsNodup; rcases hq with rfl | rfl <;> decide +kernel
  refine ⟨hid, ?_, ?_, ?_, fun e he x hx => (hv e he x hx).imp_right ?_,
    fun e he e' he' hne x hx ha hx' => ?_, fun e he i hx => ?_, fun e he i hx => ?_⟩
  · rcases hq with rfl | rfl <;> decide +kernel
  · rcases hq with rfl | rfl <;> decide +kernel
  · rcases hq with rfl | rfl <;> decide +kernel
  · rintro ⟨_, rfl⟩
    exact .inl ⟨_, rfl, (fresh 0).1⟩
  · have h1 := hn x ha e he hx
    have h2 := hn x ha e' he' hx'
    have : ∀ e ∈ G q, ∀ e' ∈ G q, e.id = 0 → e'.id = 0 → e = e' := by rcases hq with rfl | rfl <;> decide +kernel
    exact hne (this e he e' he' h1 h2)
  · rcases hv e he _ hx with h | ⟨_, h⟩
    · exact absurd h own_not_ver
    · cases h; exact Nat.zero_lt_one
  · rcases hv e he _ hx with h | ⟨_, h⟩
    · exact absurd h own_not_ver
    · cases h

theorem st_ends (q : Fla P) : (st q).edges.Ends := by
  intro e he
  simp only [st, G, List.mem_cons, List.not_mem_nil, or_false] at he
  rcases he with rfl | rfl | rfl | rfl | rfl <;> simp

theorem st_grounded (q : Fla P) : (st q).edges.Grounded := by
  have h0 : FwdReach (st q).edges (.p 0) := FwdReach.step (e := ⟨[.tru], .p 0, .and (t 0) k, 0⟩) (by simp [st, G]) (by simp)
    (by simpa using FwdReach.entry)
  have h1 : FwdReach (st q).edges (.p 1) := FwdReach.step (e := ⟨[.p 0], .p 1, .iff (s 0) (t 1), 1⟩) (by simp [st, G]) (by simp)
    (by simpa using h0)
  have h2 : FwdReach (st q).edges (.p 2) := FwdReach.step (e := ⟨[.p 1], .p 2, .iff (s 1) (t 2), 2⟩) (by simp [st, G]) (by simp)
    (by simpa using h1)
  rintro p ⟨e, he, hp⟩ hf
  simp only [st, G, List.mem_cons, List.not_mem_nil, or_false] at he
  have : p = .tru ∨ p = .p 0 ∨ p = .p 1 ∨ p = .p 2 := by
    rcases he with rfl | rfl | rfl | rfl | rfl <;> simp only [List.mem_singleton] at hp <;> rcases hp with rfl | rfl <;> simp_all
  rcases this with rfl | rfl | rfl | rfl
  · exact .entry
  · exact h0
  · exact h1
  · exact h2

/-- A model of the summarized graph if the query is `¬x`. -/
def D : Defs P := [(.tru, .tt), (.fls, .ff), (.p 2, a (.base (.pr 2)))]

/-- A derivation over the summarized graph if the query is `x`. -/
def ds : List (DStep P) :=
  [⟨[], trueFact, none⟩, ⟨[0], (.p 2, [true]), some 5⟩, ⟨[1], (.p 2, [true]), some 3⟩, ⟨[2], falseFact, some 4⟩]

/-- The chain from the entry to `p2` is summarized; the SAFE witness gets definitions for `p0` and `p1`. -/
theorem example_C13_safe : propSmt.Sound ∧ propSmt.Complete ∧ R.WF ∧ keepE.Exact ∧ IsOrder (T := P) order ∧
    (st (.not (s 2))).Ok R ∧ (st (.not (s 2))).edges.Ends ∧ (st (.not (s 2))).edges.Grounded ∧
    (∃ st' ss, chainSummarizer R keepE order (st (.not (s 2))) = .done (st', ss) ∧ ss.map (fun t => t.1.map Edge.id) = [[0, 1, 2]] ∧
      st'.edges.map Edge.id = [3, 4, 5] ∧
      validate propSmt R st'.edges ⟨.safe, .validity D⟩ = .validated ∧
      ∃ D', chainSafe propSmt R ss D = .done D' ∧ validate propSmt R (st (.not (s 2))).edges ⟨.safe, .validity D'⟩ = .validated) := by
  refine ⟨propSmt_sound, propSmt_complete, R_wf, keepE_exact, order_ok, st_ok _ (.inr rfl), st_ends _, st_grounded _, ?_⟩
  obtain ⟨st', ss, h, _⟩ := C13_chain_summarizer R_wf keepE_exact order_ok (st_ok (.not (s 2)) (.inr rfl)) (st_ends _)
  refine ⟨st', ss, h, ?_⟩
  have h1 : (match chainSummarizer R keepE order (st (.not (s 2))) with
    | .done (st', ss) => decide (ss.map (fun t => t.1.map Edge.id) = [[0, 1, 2]]) && decide (st'.edges.map Edge.id = [3, 4, 5]) &&
        decide (validate propSmt R st'.edges ⟨.safe, .validity D⟩ = .validated) &&
        (match chainSafe propSmt R ss D with
          | .done D' => decide (validate propSmt R (st (.not (s 2))).edges ⟨.safe, .validity D'⟩ = .validated)
          | _ => false)
    | _ => false) = true := by decide +kernel
  rw [h] at h1
  simp only [Bool.and_eq_true, decide_eq_true_eq] at h1
  refine ⟨h1.1.1.1, h1.1.1.2, h1.1.2, ?_⟩
  have h2 := h1.2
  split at h2
  · rename_i D hD
    exact ⟨D, hD, by simpa using h2⟩
  · simp at h2

/-- The UNSAFE witness gets steps for `p0` and `p1`. -/
theorem example_C13_unsafe : (st (s 2)).Ok R ∧ (st (s 2)).edges.Ends ∧
    (∃ st' ss, chainSummarizer R keepE order (st (s 2)) = .done (st', ss) ∧
      validate propSmt R st'.edges ⟨.unsafeAns, .invalidity ds⟩ = .validated ∧
      ∃ ds', chainUns propSmt R ss ds = .done ds' ∧
        ds'.map DStep.clauseId = [none, some 0, some 1, some 2, some 3, some 4] ∧
        ds'.map DStep.premises = [[], [0], [1], [2], [3], [4]] ∧
        validate propSmt R (st (s 2)).edges ⟨.unsafeAns, .invalidity ds'⟩ = .validated) := by
  refine ⟨st_ok _ (.inl rfl), st_ends _, ?_⟩
  obtain ⟨st', ss, h, _⟩ := C13_chain_summarizer R_wf keepE_exact order_ok (st_ok (s 2) (.inl rfl)) (st_ends _)
  refine ⟨st', ss, h, ?_⟩
  have h1 : (match chainSummarizer R keepE order (st (s 2)) with
    | .done (st', ss) => decide (validate propSmt R st'.edges ⟨.unsafeAns, .invalidity ds⟩ = .validated) &&
        (match chainUns propSmt R ss ds with
          | .done ds' => decide (ds'.map DStep.clauseId = [none, some 0, some 1, some 2, some 3, some 4]) &&
              decide (ds'.map DStep.premises = [[], [0], [1], [2], [3], [4]]) &&
              decide (validate propSmt R (st (s 2)).edges ⟨.unsafeAns, .invalidity ds'⟩ = .validated)
          | _ => false)
    | _ => false) = true := by decide +kernel
  rw [h] at h1
  simp only [Bool.and_eq_true, decide_eq_true_eq] at h1
  refine ⟨h1.1, ?_⟩
  have h2 := h1.2
  split at h2
  · rename_i ds' hd
    simp only [Bool.and_eq_true, decide_eq_true_eq] at h2
    exact ⟨ds', hd, h2.1.1, h2.1.2, h2.2⟩
  · simp at h2

/-- An unreachable cycle p0 → p1 → p2 → p0 beside a clause that never fires. -/
def cycle : GS P :=
  ⟨[⟨[.p 0], .p 1, .iff (s 0) (t 1), 0⟩, ⟨[.p 1], .p 2, .iff (s 1) (t 2), 1⟩, ⟨[.p 2], .p 0, .iff (s 2) (t 0), 2⟩,
    ⟨[.tru], .fls, .ff, 3⟩], 4, 0, 0⟩

/-- The hypothesis `Grounded` of `C13_chain_summarizer_safe_total` is needed: the cycle disappears together with its own
summary, and the translation of a SAFE witness fails with an exception (`definitions.at` on a missing key). -/
theorem C13_isolated_cycle_throws : ∃ st' ss, chainSummarizer R keepE order cycle = .done (st', ss) ∧
    validate propSmt R st'.edges ⟨.safe, .validity [(.tru, .tt), (.fls, .ff)]⟩ = .validated ∧
    chainSafe propSmt R ss [(.tru, .tt), (.fls, .ff)] = .thrown := by
  have h1 : (match chainSummarizer R keepE order cycle with
    | .done (st', ss) =>
        decide (validate propSmt R st'.edges ⟨.safe, .validity [(.tru, .tt), (.fls, .ff)]⟩ = .validated) &&
        (match chainSafe propSmt R ss [(.tru, .tt), (.fls, .ff)] with
          | .thrown => true
          | _ => false)
    | _ => false) = true := by decide +kernel
  split at h1
  · rename_i st' ss h
    simp only [Bool.and_eq_true, decide_eq_true_eq] at h1
    refine ⟨st', ss, h, h1.1, ?_⟩
    have h2 := h1.2
    split at h2
    · assumption
    · simp at h2
  · simp at h1

end ChainEx

end Golem
