import Verif.Spec.Pipeline
import Verif.Props.Simple
import Verif.Props.Unreachable
import Verif.Props.NodeElim
import Verif.Props.Derivations
import Verif.Props.ChainSummarizer

namespace Golem
variable {T : Theory}

theorem runStages_cons {s : Stage T} {ss : List (Stage T)} {st st' : GS T} {bs : List (OBack T)}
    (h : runStages (s :: ss) st = .done (st', bs)) :
    ∃ st1 b bs1, s st = .done (st1, b) ∧ runStages ss st1 = .done (st', bs1) ∧ bs = b :: bs1 := by
  rw [runStages] at h
  split at h
  · rename_i st1 b h1
    split at h
    · rename_i st2 bs1 h2
      simp only [Outcome.done.injEq, Prod.mk.injEq] at h
      obtain ⟨rfl, rfl⟩ := h
      exact ⟨st1, b, bs1, h1, h2, rfl⟩
    · simp at h
    · simp at h
  · simp at h
  · simp at h

theorem translateSafe_append (xs ys : List (OBack T)) (D : Defs T) :
    translateSafe (xs ++ ys) D = match translateSafe xs D with
      | .done D' => translateSafe ys D'
      | .thrown => .thrown
      | .outOfFuel => .outOfFuel := by
  induction xs generalizing D with
  | nil => rfl
  | cons b xs ih =>
    simp only [List.cons_append, translateSafe]
    cases b.safe D with
    | done D' => exact ih D'
    | thrown => rfl
    | outOfFuel => rfl

theorem translateUns_append (xs ys : List (OBack T)) (ds : List (DStep T)) :
    translateUns (xs ++ ys) ds = match translateUns xs ds with
      | .done ds' => translateUns ys ds'
      | .thrown => .thrown
      | .outOfFuel => .outOfFuel := by
  induction xs generalizing ds with
  | nil => rfl
  | cons b xs ih =>
    simp only [List.cons_append, translateUns]
    cases b.uns ds with
    | done D' => exact ih D'
    | thrown => rfl
    | outOfFuel => rfl

theorem translateSafe_snoc {xs : List (OBack T)} {b : OBack T} {D D' : Defs T}
    (h : translateSafe (xs ++ [b]) D = .done D') : ∃ D1, translateSafe xs D = .done D1 ∧ b.safe D1 = .done D' := by
  rw [translateSafe_append] at h
  split at h
  · rename_i D1 h1
    refine ⟨D1, h1, ?_⟩
    simp only [translateSafe] at h
    split at h <;> simp_all
  · simp at h
  · simp at h

theorem translateUns_snoc {xs : List (OBack T)} {b : OBack T} {D D' : List (DStep T)}
    (h : translateUns (xs ++ [b]) D = .done D') : ∃ D1, translateUns xs D = .done D1 ∧ b.uns D1 = .done D' := by
  rw [translateUns_append] at h
  split at h
  · rename_i D1 h1
    refine ⟨D1, h1, ?_⟩
    simp only [translateUns] at h
    split at h <;> simp_all
  · simp at h
  · simp at h

/-! ### Direct graphs -/

/-- All edges lead from the entry to the exit. -/
def Graph.Direct (G : Graph T) : Prop := ∀ e ∈ G, e.src = [.tru] ∧ e.tgt = .fls

theorem Graph.Direct.vertex {G : Graph T} (h : G.Direct) {p : Pred} (hp : G.Vertex p) : p = .tru ∨ p = .fls := by
  obtain ⟨e, he, hv⟩ := hp
  obtain ⟨h1, h2⟩ := h e he
  rcases hv with rfl | hv
  · exact .inr h2
  · rw [h1] at hv; simp at hv; exact .inl hv

theorem shortFor_of_sub {G G' : Graph T} (h : ∀ e ∈ G', e ∈ G) {ds ds' : List (DStep T)} (hl : ds'.length = ds.length)
    (hs : ShortFor G' ds) : ShortFor G ds' := fun hd => by rw [hl]; exact hs fun e he => hd e (h e he)

/-! ### Stages that only remove edges -/

theorem Graph.Ends.sub {G G' : Graph T} (h : G.Ends) (hs : ∀ e ∈ G', e ∈ G) : G'.Ends := fun e he => h e (hs e he)

theorem falseStage_ok {R : PRepr} (hR : R.WF) : StageOk (T := T) R falseStage := by
  intro st st' b hst h
  simp only [falseStage, Outcome.done.injEq, Prod.mk.injEq] at h
  obtain ⟨rfl, rfl⟩ := h
  have hsub : ∀ e ∈ (falseClauseRemoval st.edges).1, e ∈ st.edges := fun e he => (List.mem_filter.1 he).1
  refine ⟨⟨hst.ok.sub hR List.filter_sublist, hst.ends.sub hsub⟩, ⟨?_, ?_, ?_, rfl⟩⟩
  · exact C07_false_edges_same_facts R st.edges falseFact
  · intro D D' hD hr
    cases hr
    exact .inr (C07_false_edges_safe R st.edges D hD).1
  · intro ds ds' hds hsh hr
    cases hr
    exact .inr ⟨C07_false_edges_unsafe R st.edges ds hds, shortFor_of_sub hsub rfl hsh⟩

theorem deleteNodes_sub (G : Graph T) (ps : List Pred) : (ps.foldl deleteNode G).Sublist G := by
  induction ps generalizing G with
  | nil => exact List.Sublist.refl _
  | cons p ps ih => exact (ih _).trans List.filter_sublist

theorem removeUnreachable_shape {G G' : Graph T} {b : BackTranslator T} (h : removeUnreachable G = some (G', b)) :
    G'.Sublist G ∧ ∀ ds, b.uns ds = ds := by
  unfold removeUnreachable at h
  simp only at h
  split at h
  · simp only [Option.some.injEq, Prod.mk.injEq] at h
    obtain ⟨rfl, rfl⟩ := h
    exact ⟨List.nil_sublist _, fun _ => rfl⟩
  · split at h
    · simp only [Option.some.injEq, Prod.mk.injEq] at h
      obtain ⟨rfl, rfl⟩ := h
      exact ⟨List.nil_sublist _, fun _ => rfl⟩
    · simp only [Option.bind_eq_bind, Option.bind_eq_some_iff, Option.pure_def, Option.some.injEq, Prod.mk.injEq] at h
      obtain ⟨bw, _, fw, _, rfl, rfl⟩ := h
      exact ⟨(deleteNodes_sub _ _).trans (deleteNodes_sub _ _), fun _ => rfl⟩

theorem unreachableStage_ok {R : PRepr} (hR : R.WF) : StageOk (T := T) R unreachableStage := by
  intro st st' b hst h
  obtain ⟨G', b', h1, _, _, h4, h5, h6⟩ := C08_remove_unreachable R hR st.edges hst.ok.ids hst.ok.srcNe
  obtain ⟨hs1, hs2⟩ := removeUnreachable_shape h1
  simp only [unreachableStage, h1, Outcome.done.injEq, Prod.mk.injEq] at h
  obtain ⟨rfl, rfl⟩ := h
  have hsub : ∀ e ∈ G', e ∈ st.edges := fun e he => hs1.subset he
  refine ⟨⟨hst.ok.sub hR hs1, hst.ends.sub hsub⟩, ⟨h4 .fls [] (.inr rfl), ?_, ?_, congrArg Outcome.done (hs2 [])⟩⟩
  · intro D D' hD hr
    cases hr
    exact .inr (h5 D hD).1
  · intro ds ds' hds hsh hr
    cases hr
    refine .inr ⟨h6 ds hds, shortFor_of_sub hsub ?_ hsh⟩
    rw [hs2]

/-! ### Merging parallel edges -/

/-- Every edge of the merged graph stands for edges of the input, no edge of the input for two of them. -/
theorem merged_origin {G : Graph T} (hG : G.IdsNodup) {e : Edge T} (he : e ∈ (mergeMultiEdges G).1) :
    ∃ L : List (Edge T), L ≠ [] ∧ (∀ x ∈ L, x ∈ G ∧ x.src = e.src ∧ x.tgt = e.tgt) ∧ (∃ x ∈ L, x.id = e.id) ∧
      (∀ x ∈ e.fla.vars, ∃ y ∈ L, x ∈ y.fla.vars) ∧
      ((L = [e] ∧ ∀ r ∈ mergedRecords G, e ∉ r.1) ∨ ∃ r ∈ mergedRecords G, L = r.1 ∧ e = r.2) := by
  rcases (mem_applyRecords hG).1 he with ⟨r, hr, rfl⟩ | ⟨hm, hn⟩
  · obtain ⟨s, t, e0, h0, h2, hs, ht, hall, _⟩ := record_spec hr
    refine ⟨r.1, List.ne_nil_of_mem h0, fun x hx => ⟨(hall x hx).1, (hall x hx).2.1.trans hs.symm,
      (hall x hx).2.2.trans ht.symm⟩, ⟨e0, h0, by rw [h2]⟩, fun x hx => ?_, .inr ⟨r, hr, rfl, rfl⟩⟩
    rw [h2] at hx
    obtain ⟨f, hf, hx⟩ := Fla.mem_vars_disj.1 hx
    obtain ⟨y, hy, rfl⟩ := List.mem_map.1 hf
    exact ⟨y, hy, hx⟩
  · exact ⟨[e], by simp, by simpa using hm, ⟨e, by simp, rfl⟩, fun x hx => ⟨e, by simp, hx⟩, .inl ⟨rfl, hn⟩⟩

theorem record_disjoint {G : Graph T} {r r' : List (Edge T) × Edge T} (h : r ∈ mergedRecords G) (h' : r' ∈ mergedRecords G)
    {e : Edge T} (he : e ∈ r.1) (he' : e ∈ r'.1) : r = r' := by
  obtain ⟨s, t, a, a', as, hb, rfl⟩ := mem_mergedRecords.1 h
  obtain ⟨s', t', c, c', cs, hb', rfl⟩ := mem_mergedRecords.1 h'
  have h1 := mem_bucket.1 (show e ∈ bucket G s t by rw [hb]; exact he)
  have h2 := mem_bucket.1 (show e ∈ bucket G s' t' by rw [hb']; exact he')
  have e1 : s = s' := by simpa using h1.2.1.symm.trans h2.2.1
  have e2 : t = t' := h1.2.2.symm.trans h2.2.2
  subst e1 e2
  rw [hb] at hb'
  simp only [List.cons.injEq] at hb'
  obtain ⟨rfl, rfl, rfl⟩ := hb'
  rfl

theorem merge_ok {R : PRepr} {st : GS T} (h : st.Ok R) : GS.Ok R { st with edges := (mergeMultiEdges st.edges).1 } := by
  have hv : ∀ p, Graph.Vertex (mergeMultiEdges st.edges).1 p ↔ st.edges.Vertex p := fun p => (merge_vertex h.ids).symm
  have haux : ∀ x, Graph.Aux R (mergeMultiEdges st.edges).1 x ↔ st.edges.Aux R x := by
    intro x
    unfold Graph.Aux
    simp only [hv]
  have hfin : ∀ e ∈ (mergeMultiEdges st.edges).1, ∃ y ∈ st.edges, y.src = e.src ∧ y.tgt = e.tgt ∧ y.id = e.id := by
    intro e he
    obtain ⟨L, _, h1, ⟨y, hy, hi⟩, _⟩ := merged_origin h.ids he
    exact ⟨y, (h1 y hy).1, (h1 y hy).2.1, (h1 y hy).2.2, hi⟩
  have hvar : ∀ e ∈ (mergeMultiEdges st.edges).1, ∀ x ∈ e.fla.vars, ∃ y ∈ st.edges, y.src = e.src ∧ y.tgt = e.tgt ∧ x ∈ y.fla.vars := by
    intro e he x hx
    obtain ⟨L, _, h1, _, h2, _⟩ := merged_origin h.ids he
    obtain ⟨y, hy, hx'⟩ := h2 x hx
    exact ⟨y, (h1 y hy).1, (h1 y hy).2.1, (h1 y hy).2.2, hx'⟩
  refine ⟨applyRecords_ids h.ids, ?_, ?_, ?_, ?_, ?_, ?_, ?_⟩
  · intro e he
    obtain ⟨y, hy, _, _, hi⟩ := hfin e he
    rw [← hi]; exact h.idlt y hy
  · intro e he
    obtain ⟨y, hy, hs, _, _⟩ := hfin e he
    rw [← hs]; exact h.srcNe y hy
  · intro e he
    obtain ⟨y, hy, hs, _, _⟩ := hfin e he
    rw [← hs]; exact h.tru y hy
  · intro e he x hx
    obtain ⟨y, hy, hs, ht, hx'⟩ := hvar e he x hx
    rw [← hs, ← ht]
    exact (h.label y hy x hx').imp_right (haux x).2
  · intro e he e' he' hne x hx ha hx'
    obtain ⟨L, _, h1, _, h2, h3⟩ := merged_origin h.ids he
    obtain ⟨L', _, h1', _, h2', h3'⟩ := merged_origin h.ids he'
    obtain ⟨y, hy, hxy⟩ := h2 x hx
    obtain ⟨y', hy', hxy'⟩ := h2' x hx'
    by_cases hyy : y = y'
    · subst hyy
      rcases h3 with ⟨rfl, hn⟩ | ⟨r, hr, rfl, rfl⟩ <;> rcases h3' with ⟨rfl, hn'⟩ | ⟨r', hr', rfl, rfl⟩
      · simp at hy hy'; exact hne (hy.symm.trans hy')
      · simp at hy; subst hy; exact hn r' hr' hy'
      · simp at hy'; subst hy'; exact hn' r hr hy
      · exact hne (congrArg Prod.snd (record_disjoint hr hr' hy hy'))
    · exact h.sep y (h1 y hy).1 y' (h1' y' hy').1 hyy x hxy ((haux x).1 ha) hxy'
  · intro e he k hk
    obtain ⟨y, hy, _, _, hx⟩ := hvar e he _ hk
    exact h.gaux y hy k hx
  · intro e he k hk
    obtain ⟨y, hy, _, _, hx⟩ := hvar e he _ hk
    exact h.auxg y hy k hx

theorem merge_shape {G : Graph T} (hG : G.IdsNodup) {e : Edge T} (he : e ∈ (mergeMultiEdges G).1) :
    ∃ y ∈ G, y.src = e.src ∧ y.tgt = e.tgt := by
  obtain ⟨L, _, h1, ⟨y, hy, hi⟩, _⟩ := merged_origin hG he
  exact ⟨y, (h1 y hy).1, (h1 y hy).2.1, (h1 y hy).2.2⟩

theorem mergeStage_ok {S : Smt T} (hS : S.Sound) {R : PRepr} (hR : R.WF) : StageOk R (mergeStage S R) := by
  intro st st' b hst h
  simp only [mergeStage, Outcome.done.injEq, Prod.mk.injEq] at h
  obtain ⟨rfl, rfl⟩ := h
  refine ⟨⟨merge_ok hst.ok, ?_⟩, ⟨C06_merge_same_facts S R st.edges hst.ok.ids falseFact, ?_, ?_, ?_⟩⟩
  · intro e he
    obtain ⟨y, hy, hs, ht⟩ := merge_shape hst.ok.ids he
    rw [← hs, ← ht]; exact hst.ends y hy
  · intro D D' hD hr
    cases hr
    exact .inr (C06_merge_safe S R st.edges hst.ok.ids D hD).1
  · intro ds ds' hds hsh hr
    cases hr
    refine (C06_merge_unsafe S hS R hR st.edges hst.ok.ids ds hds).1.imp_right fun ⟨h1, h2⟩ => ⟨h1, fun hd => ?_⟩
    have hl := congrArg List.length h2
    simp only [List.length_map] at hl
    rw [show (BackTranslator.uns _ ds).length = ds.length from hl]
    refine hsh fun e he => ?_
    obtain ⟨y, hy, hs, ht⟩ := merge_shape hst.ok.ids he
    rw [← hs, ← ht]; exact hd y hy
  · show Outcome.done (mergerUnsafe S R _ []) = _
    unfold mergerUnsafe
    split <;> rfl

/-! ### Pruning direct edges -/

theorem pruneStage_ok {S : Smt T} (hS : S.Sound) {R : PRepr} (hR : R.WF) : StageOk R (pruneStage S) := by
  intro st st' b hst h
  simp only [pruneStage, Outcome.done.injEq, Prod.mk.injEq] at h
  obtain ⟨rfl, rfl⟩ := h
  obtain ⟨hc1, hc2⟩ := C09_trivial_edge_pruner S hS R hR st.edges hst.ok.ids
  cases hp : pruneLoop S (directEdges st.edges) with
  | satEdge e =>
    obtain ⟨h1, h2, h3, h4⟩ := hc1 e hp
    have hres : trivialEdgePruner S st.edges = ([{ e with id := 0 }], ⟨id, setClause1 e.id⟩) := by
      unfold trivialEdgePruner; rw [hp]
    obtain ⟨heG, hd⟩ := List.mem_filter.1 (pruneLoop_sat hp).1
    simp only [decide_eq_true_eq] at hd
    have haux : ∀ x, st.edges.Aux R x → Graph.Aux R [{ e with id := 0 }] x := by
      rintro x (h | ⟨n, rfl, hn⟩)
      · exact .inl h
      · refine .inr ⟨n, rfl, fun p hp => hn p ?_⟩
        obtain ⟨e', he', hv⟩ := hp
        simp at he'; subst he'
        exact ⟨e, heG, hv⟩
    refine ⟨⟨?_, ?_⟩, ⟨⟨fun _ => h2, fun _ => h1⟩, fun D D' hD => absurd hD.toSafeModel (h3 D), ?_, ?_⟩⟩
    · rw [hres]
      refine ⟨by simp [Graph.IdsNodup], by simp, ?_, ?_, ?_, ?_, ?_, ?_⟩
      · intro e' he'; simp at he'; subst he'; simp [hd.2]
      · intro e' he'; simp at he'; subst he'; simp [hd.2]
      · intro e' he' x hx; simp at he'; subst he'
        exact (hst.ok.label e heG x hx).imp_right (haux x)
      · intro e' he' e'' he'' hne; simp at he' he''; subst he' he''; exact absurd rfl hne
      · intro e' he' k hk; simp at he'; subst he'; exact hst.ok.gaux e heG k hk
      · intro e' he' k hk; simp at he'; subst he'; exact hst.ok.auxg e heG k hk
    · rw [hres]
      intro e' he'; simp at he'; subst he'; simp [hd.1, hd.2]
    · intro ds ds' hds hsh hr
      cases hr
      have hlen : ds.length = 2 := by
        apply hsh
        show ∀ e' ∈ (trivialEdgePruner S st.edges).1, _
        rw [hres]
        intro e' he'; simp at he'; subst he'; exact ⟨hd.2, hd.1⟩
      refine .inr ⟨h4 ds hlen hds, fun _ => ?_⟩
      rw [hres]
      show (setClause1 e.id ds).length = 2
      unfold setClause1
      split
      · simpa using hlen
      · exact hlen
    · rw [hres]; rfl
  | giveUp =>
    obtain ⟨h1, h2, h3⟩ := hc2 (by rw [hp]; simp)
    have hres : trivialEdgePruner S st.edges = (st.edges, ⟨id, id⟩) := by unfold trivialEdgePruner; rw [hp]
    rw [hres] at h1 h2 h3 ⊢
    refine ⟨hst, ⟨Iff.rfl, ?_, ?_, rfl⟩⟩
    · intro D D' hD hr; cases hr; exact .inr hD
    · intro ds ds' hds hsh hr; cases hr; exact .inr ⟨hds, hsh⟩
  | allUnsat =>
    obtain ⟨h1, h2, h3⟩ := hc2 (by rw [hp]; simp)
    have hres : trivialEdgePruner S st.edges = (deleteEdges st.edges ((directEdges st.edges).map Edge.id), ⟨id, id⟩) := by
      unfold trivialEdgePruner; rw [hp]
    rw [hres] at h1 h2 h3 ⊢
    have hsub : ∀ e ∈ deleteEdges st.edges ((directEdges st.edges).map Edge.id), e ∈ st.edges :=
      fun e he => (List.mem_filter.1 he).1
    refine ⟨⟨hst.ok.sub hR List.filter_sublist, hst.ends.sub hsub⟩, ⟨h1 falseFact, ?_, ?_, rfl⟩⟩
    · intro D D' hD hr; cases hr; exact .inr (h2 D hD).1
    · intro ds ds' hds hsh hr; cases hr; exact .inr ⟨h3 ds hds, shortFor_of_sub hsub rfl hsh⟩

/-! ### Eliminating nodes -/

theorem ElimSteps.ends {R : PRepr} {st st' : GS T} {rs : List (Pred × Contraction T)} (h : ElimSteps R st rs st')
    (he : st.edges.Ends) : st'.edges.Ends := by
  induction h with
  | nil => exact he
  | cons hst hok hv hc _ _ _ _ ih =>
    apply ih
    rw [hc.edges]
    intro e hm
    rcases List.mem_append.1 hm with hm | hm
    · exact he e (mem_deleteNode'.1 hm).1
    · obtain ⟨t, ht, rfl⟩ := List.mem_map.1 hm
      obtain ⟨u, hpair, _, hM⟩ := hc.merged t ht
      rw [hM.tgt]
      refine ⟨(he _ hpair.mo).1, fun hf => ?_⟩
      rw [hM.src] at hf
      rcases mem_mergeSources_fst hf with hu | hu
      · exact (he _ hpair.mi).2 (by rw [hpair.isrc, hu]; simp)
      · exact (he _ hpair.mo).2 hu.1

theorem findReplaced_nil (ds : List (DStep T)) (i : Nat) : findReplaced (findContraction (T := T) []) ds i = none := by
  induction ds generalizing i with
  | nil => rfl
  | cons d ds ih =>
    rw [findReplaced]
    have : d.clauseId.bind (findContraction (T := T) []) = none := by cases d.clauseId <;> rfl
    rw [this]
    exact ih _

theorem elimUns_nil (S : Smt T) (R : PRepr) (ds : List (DStep T)) : elimUns S R [] ds = .done ds := by
  unfold elimUns
  rw [elimUnsLoop.eq_def]
  simp only [findReplaced_nil]

theorem elimStage_run {S : Smt T} {R : PRepr} (hR : R.WF) (hF : R.FreshNames) {E : Elim T} (hE : E.Exact)
    {pred : Graph T → Pred → Bool} (hp : IsElimGuard pred) {st : GS T} (hst : st.Inv R) :
    ∃ st' rs, nodeEliminator R E pred st = .done (st', rs) ∧
      elimStage S R E pred st = .done (st', ⟨elimSafe S R rs, elimUns S R rs⟩) ∧ st'.Inv R := by
  obtain ⟨st', rs, h1, h2, _⟩ := C10_node_elimination hR hF hE hp hst.ok
  refine ⟨st', rs, h1, by unfold elimStage; rw [h1], h2, ?_⟩
  exact (nodeEliminator_steps hR hF hE hp hst.ok h1).1.ends hst.ends

theorem elim_short {S : Smt T} {R : PRepr} (hR : R.WF) (hF : R.FreshNames) {E : Elim T} (hE : E.Exact)
    {pred : Graph T → Pred → Bool} (hp : IsElimGuard pred) {st st' : GS T} (hst : st.Inv R)
    {rs : List (Pred × Contraction T)} (h : nodeEliminator R E pred st = .done (st', rs)) {ds ds' : List (DStep T)}
    (hsh : ShortFor st'.edges ds) (hr : elimUns S R rs ds = .done ds') : ShortFor st.edges ds' := by
  intro hd
  obtain ⟨hs, hv, _⟩ := nodeEliminator_steps hR hF hE hp hst.ok h
  have : rs = [] := by
    cases rs with
    | nil => rfl
    | cons r rs =>
      have := hv r.1 (by simp)
      rcases Graph.Direct.vertex hd this.1 with h | h
      · exact absurd h this.2.1
      · exact absurd h this.2.2
  subst this
  rw [elimUns_nil] at hr
  cases hr
  cases hs
  exact hsh hd

theorem elimStage_ok {S : Smt T} (hS : S.Sound) {R : PRepr} (hR : R.WF) (hF : R.FreshNames) {E : Elim T} (hE : E.Exact)
    {pred : Graph T → Pred → Bool} (hp : IsElimGuard pred) : StageOk R (elimStage S R E pred) := by
  intro st st' b hst h
  obtain ⟨st1, rs, h1, h2, h3⟩ := elimStage_run (S := S) hR hF hE hp hst
  rw [h2] at h
  cases h
  refine ⟨h3, ⟨C10_unsafe hR hF hE hp hst.ok h1, ?_, ?_, ?_⟩⟩
  · intro D D' hD hr
    exact (C11_node_elimination_safe hS hR hF hE hp hst.ok h1 hD.toSafeModel hD.only hr).imp_right
      fun ⟨a, b, _⟩ => ⟨a, b⟩
  · intro ds ds' hds hsh hr
    exact .inr ⟨C12_node_elimination_unsafe hS hR hF hE hp hst.ok h1 hds hr, elim_short hR hF hE hp hst h1 hsh hr⟩
  · show elimUns S R rs [] = _
    unfold elimUns
    rw [elimUnsLoop.eq_def]
    rfl

/-! ### Summarizing chains -/

theorem chainRun_direct {R : PRepr} {st st' : GS T} {ss : List (Summary T)} (h : ChainRun R st ss st')
    (hd : st.edges.Direct) : ss = [] ∧ st' = st := by
  have hin : ∀ p ∈ chainInner ss, False := by
    intro p hp
    obtain ⟨hv, h1, h2⟩ := h.inner hp
    exact (hd.vertex hv).elim h1 h2
  cases h with
  | nil => exact ⟨rfl, rfl⟩
  | lin _ _ hM _ _ _ =>
    exfalso
    have hl := hM.lin.len
    obtain ⟨p, hp⟩ : ∃ p, p ∈ innerOf _ := List.exists_mem_of_length_pos (by
      show 0 < (innerOf _).length
      unfold innerOf; rw [List.length_map, List.length_dropLast]; exact Nat.sub_pos_of_lt hl)
    exact hin p (by rw [chainInner_cons]; exact List.mem_append_left _ hp)
  | cyc _ _ hM _ _ _ =>
    exfalso
    exact hin _ (by rw [chainInner_cons]; exact List.mem_append_left _ hM.cyc.start)

theorem chainStage_run {S : Smt T} {R : PRepr} (hR : R.WF) {E : Elim T} (hE : E.Exact) {order : Graph T → List Pred}
    (ho : IsOrder order) {st : GS T} (hst : st.Inv R) : ∃ st' ss, chainSummarizer R E order st = .done (st', ss) ∧
      chainStage S R E order st = .done (st', ⟨chainSafe S R ss, chainUns S R ss⟩) ∧ st'.Inv R := by
  obtain ⟨st', ss, h1, h2, h3, _⟩ := C13_chain_summarizer hR hE ho hst.ok hst.ends
  exact ⟨st', ss, h1, by unfold chainStage; rw [h1], h2, h3⟩

theorem chain_short {S : Smt T} {R : PRepr} (hR : R.WF) {E : Elim T} (hE : E.Exact)
    {order : Graph T → List Pred} (ho : IsOrder order) {st st' : GS T} (hst : st.Inv R)
    {ss : List (Summary T)} (h : chainSummarizer R E order st = .done (st', ss)) {ds ds' : List (DStep T)}
    (hsh : ShortFor st'.edges ds) (hr : chainUns S R ss ds = .done ds') : ShortFor st.edges ds' := by
  intro hd
  obtain ⟨rfl, rfl⟩ := chainRun_direct (chainSummarizer_run hR hE ho hst.ok hst.ends h) hd
  cases hr
  exact hsh hd

theorem chainUns_empty (S : Smt T) (R : PRepr) (ss : List (Summary T)) : chainUns S R ss [] = .done [] := by
  induction ss with
  | nil => rfl
  | cons s ss ih =>
    rw [chainUns, replaceAllSummaries.eq_def]
    exact ih

theorem chainStage_ok {S : Smt T} (hS : S.Sound) {R : PRepr} (hR : R.WF) {E : Elim T} (hE : E.Exact)
    {order : Graph T → List Pred} (ho : IsOrder order) : StageOk R (chainStage S R E order) := by
  intro st st' b hst h
  obtain ⟨st1, ss, h1, h2, h3⟩ := chainStage_run (S := S) hR hE ho hst
  rw [h2] at h
  cases h
  refine ⟨h3, ⟨C13_unsafe hR hE ho hst.ok hst.ends h1, ?_, ?_, chainUns_empty S R ss⟩⟩
  · intro D D' hD hr
    exact (C13_chain_summarizer_safe hS hR hE ho hst.ok hst.ends h1 hD.toSafeModel hD.only hr).imp_right
      fun ⟨a, b, _⟩ => ⟨a, b⟩
  · intro ds ds' hds hsh hr
    exact .inr ⟨C13_chain_summarizer_unsafe hS hR hE ho hst.ok hst.ends h1 hds hr, chain_short hR hE ho hst h1 hsh hr⟩

end Golem
