import Verif.Lemmas.Pipeline

/-! Property C15: pipelines of transformers. -/

namespace Golem
variable {T : Theory}

/-- C15, any pipeline of stages that keep the invariant: the verdict is the same; a translated UNSAFE witness is an UNSAFE
witness of the input (or empty); a translated SAFE witness is a SAFE witness of the input, unless the translation of some
stage gave up with the empty witness. -/
theorem C15_pipeline {R : PRepr} {stages : List (Stage T)} (hs : ∀ s ∈ stages, StageOk R s) {st st' : GS T}
    (hst : st.Inv R) {bs : List (OBack T)} (h : runStages stages st = .done (st', bs)) :
    st'.Inv R ∧ (st.edges.Unsafe R ↔ st'.edges.Unsafe R) ∧
    (∀ ds ds', UnsafeWitness R st'.edges ds → ShortFor st'.edges ds → translateUns bs.reverse ds = .done ds' →
      ds' = [] ∨ (UnsafeWitness R st.edges ds' ∧ ShortFor st.edges ds')) ∧
    (∀ D D', SafeGood R st'.edges D → translateSafe bs.reverse D = .done D' →
      SafeGood R st.edges D' ∨ ∃ l r, bs = l ++ r ∧ r ≠ [] ∧ translateSafe r.reverse D = .done []) := by
  induction stages generalizing st bs with
  | nil =>
    cases h
    refine ⟨hst, Iff.rfl, ?_, ?_⟩
    · intro ds ds' h1 h2 hr; cases hr; exact .inr ⟨h1, h2⟩
    · intro D D' h1 hr; cases hr; exact .inl h1
  | cons s ss ih =>
    obtain ⟨st1, b, bs1, h1, h2, rfl⟩ := runStages_cons h
    obtain ⟨hi, hT⟩ := hs s (by simp) st st1 b hst h1
    obtain ⟨a1, a2, a3, a4⟩ := ih (fun s hs' => hs s (by simp [hs'])) hi h2
    refine ⟨a1, hT.verdict.trans a2, ?_, ?_⟩
    · intro ds ds' hw hsh hr
      rw [List.reverse_cons] at hr
      obtain ⟨ds1, hr1, hr2⟩ := translateUns_snoc hr
      rcases a3 ds ds1 hw hsh hr1 with rfl | ⟨hw1, hs1⟩
      · rw [hT.unsNil] at hr2
        cases hr2
        exact .inl rfl
      · exact hT.uns ds1 ds' hw1 hs1 hr2
    · intro D D' hD hr
      rw [List.reverse_cons] at hr
      obtain ⟨D1, hr1, hr2⟩ := translateSafe_snoc hr
      rcases a4 D D1 hD hr1 with hg | ⟨l, r, rfl, hne, hl⟩
      · rcases hT.safe D1 D' hg hr2 with rfl | h'
        · exact .inr ⟨[], b :: bs1, rfl, by simp, by rw [List.reverse_cons]; exact hr⟩
        · exact .inl h'
      · exact .inr ⟨b :: l, r, rfl, hne, hl⟩

/-- C15, no failure: if no stage fails on the graph it gets, the pipeline succeeds, and all witnesses are translated to
(complete) witnesses of the input. -/
theorem C15_pipeline_total {R : PRepr} {stages : List (Stage T)} {st : GS T} (hst : st.Inv R)
    (hs : ∀ pre s post st1 bs1, stages = pre ++ s :: post → runStages pre st = .done (st1, bs1) → st1.Inv R →
      TotalAt R s st1) :
    TotalAt R (pipeline stages) st := by
  suffices hsuf : ∃ st' bs, runStages stages st = .done (st', bs) ∧ st'.Inv R ∧
      (∀ D, SafeWitness R st'.edges D → ∃ D', translateSafe bs.reverse D = .done D' ∧ SafeWitness R st.edges D') ∧
      (∀ ds, UnsafeWitness R st'.edges ds → ShortFor st'.edges ds →
        ∃ ds', translateUns bs.reverse ds = .done ds' ∧ UnsafeWitness R st.edges ds' ∧ ShortFor st.edges ds') by
    obtain ⟨st', bs, h1, h2, h3, h4⟩ := hsuf
    exact ⟨st', ⟨translateSafe bs.reverse, translateUns bs.reverse⟩, by unfold pipeline; rw [h1], h2, h3, h4⟩
  induction stages generalizing st with
  | nil => exact ⟨st, [], rfl, hst, fun D hD => ⟨D, rfl, hD⟩, fun ds h1 h2 => ⟨ds, rfl, h1, h2⟩⟩
  | cons s ss ih =>
    obtain ⟨st1, b, h1, hi, h2, h3⟩ := hs [] s ss st [] rfl rfl hst
    obtain ⟨st', bs, g1, gi, g2, g3⟩ := ih hi (by
      intro pre s' post st2 bs2 he hr hi2
      refine hs (s :: pre) s' post st2 (b :: bs2) (by rw [he]; rfl) ?_ hi2
      rw [runStages, h1]
      simp only [hr])
    refine ⟨st', b :: bs, by rw [runStages, h1]; simp only [g1], gi, ?_, ?_⟩
    · intro D hD
      obtain ⟨D1, e1, w1⟩ := g2 D hD
      obtain ⟨D', e2, w2⟩ := h2 D1 w1
      refine ⟨D', ?_, w2⟩
      rw [List.reverse_cons, translateSafe_append, e1]
      simp only [translateSafe, e2]
    · intro ds hw hsh
      obtain ⟨ds1, e1, w1, s1⟩ := g3 ds hw hsh
      obtain ⟨ds', e2, w2, s2⟩ := h3 ds1 w1 s1
      refine ⟨ds', ?_, w2, s2⟩
      rw [List.reverse_cons, translateUns_append, e1]
      simp only [translateUns, e2]

/-- What a verdict with a witness must satisfy, for a hypergraph; the empty witness is "no witness". -/
structure HyperResultOk (R : PRepr) (G : Graph T) (r : VerificationResult T) : Prop where
  unsafeAns : r.answer = .unsafeAns → G.Unsafe R
  safe : r.answer = .safe → ¬ G.Unsafe R
  validity : ∀ D, r.witness = .validity D → D ≠ [] → r.answer = .safe ∧ SafeGood R G D
  invalidity : ∀ ds, r.witness = .invalidity ds → ds ≠ [] → r.answer = .unsafeAns ∧ UnsafeWitness R G ds ∧ ShortFor G ds

/-- C15, `towardsTransitionSystems`: it always succeeds; a correct result for the transformed graph, translated back, is a
correct result for the input. -/
theorem C15_towards_transition_systems {S : Smt T} (hS : S.Sound) {R : PRepr} (hR : R.WF) (hF : R.FreshNames) {E : Elim T}
    (hE : E.Exact) {st : GS T} (hst : st.Inv R) :
    ∃ st' b, pipeline (towardsTransitionSystems S R E) st = .done (st', b) ∧ st'.Inv R ∧
      (st.edges.Unsafe R ↔ st'.edges.Unsafe R) ∧
      ∀ r r', HyperResultOk R st'.edges r → (∀ D, r.witness = .validity D → D ≠ []) →
        (∀ ds, r.witness = .invalidity ds → ds ≠ []) → b.result r = .done r' →
        r'.answer = r.answer ∧ HyperResultOk R st.edges r' := by
  have hok : ∀ s ∈ towardsTransitionSystems S R E, StageOk R s := by
    intro s hs
    simp only [towardsTransitionSystems, List.mem_cons, List.not_mem_nil, or_false] at hs
    rcases hs with rfl | rfl | rfl | rfl | rfl
    · exact elimStage_ok hS hR hF hE (.inr rfl)
    · exact falseStage_ok hR
    · exact unreachableStage_ok hR
    · exact mergeStage_ok hS hR
    · exact pruneStage_ok hS hR
  obtain ⟨st1, rs, _, e1, i1⟩ := elimStage_run (S := S) hR hF hE (pred := slightlyBetterPredicate) (.inr rfl) hst
  have i2 : GS.Inv R { st1 with edges := (falseClauseRemoval st1.edges).1 } := (falseStage_ok hR _ _ _ i1 rfl).1
  obtain ⟨G3, b3, e3, _⟩ := C08_remove_unreachable R hR (falseClauseRemoval st1.edges).1 i2.ok.ids i2.ok.srcNe
  have hrun : ∃ st' bs, runStages (towardsTransitionSystems S R E) st = .done (st', bs) := by
    simp only [towardsTransitionSystems, runStages, e1, falseStage, unreachableStage, e3, mergeStage, pruneStage]
    exact ⟨_, _, rfl⟩
  obtain ⟨st', bs, hrun⟩ := hrun
  obtain ⟨a1, a2, a3, a4⟩ := C15_pipeline hok hst hrun
  refine ⟨st', _, by unfold pipeline; rw [hrun], a1, a2, ?_⟩
  -- only the first stage may give up on a SAFE witness
  have hsafe : ∀ D D', SafeGood R st'.edges D → translateSafe bs.reverse D = .done D' → D' = [] ∨ SafeGood R st.edges D' := by
    intro D D' hD hr
    obtain ⟨st1', b1, bs1, g1, g2, rfl⟩ := runStages_cons hrun
    rw [e1] at g1
    cases g1
    have hok1 : ∀ s ∈ [falseStage, unreachableStage, mergeStage S R, pruneStage S], StageOk R s :=
      fun s hs => hok s (List.mem_cons_of_mem _ hs)
    rw [List.reverse_cons] at hr
    obtain ⟨D1, r1, r2⟩ := translateSafe_snoc hr
    obtain ⟨s2, b2, bs2, f2, k2, rfl⟩ := runStages_cons g2
    obtain ⟨s3, b3', bs3, f3, k3, rfl⟩ := runStages_cons k2
    obtain ⟨s4, b4, bs4, f4, k4, rfl⟩ := runStages_cons k3
    obtain ⟨s5, b5, bs5, f5, k5, rfl⟩ := runStages_cons k4
    cases k5
    simp only [falseStage, Outcome.done.injEq, Prod.mk.injEq] at f2
    obtain ⟨rfl, rfl⟩ := f2
    simp only [unreachableStage, e3, Outcome.done.injEq, Prod.mk.injEq] at f3
    obtain ⟨rfl, rfl⟩ := f3
    have t3 := (unreachableStage_ok hR _ _ _ i2 (by unfold unreachableStage; rw [e3])).2
    have i3 := (unreachableStage_ok hR _ _ _ i2 (by unfold unreachableStage; rw [e3])).1
    obtain ⟨i4, t4⟩ := mergeStage_ok hS hR _ _ _ i3 f4
    obtain ⟨i5, t5⟩ := pruneStage_ok hS hR _ _ _ i4 f5
    simp only [List.reverse_cons, List.reverse_nil, List.nil_append] at r1
    obtain ⟨D2, r3, r4⟩ := translateSafe_snoc r1
    obtain ⟨D3, r5, r6⟩ := translateSafe_snoc r3
    obtain ⟨D4, r7, r8⟩ := translateSafe_snoc r5
    have q4 : SafeGood R s4.edges D4 := by
      obtain ⟨hc1, hc2⟩ := C09_trivial_edge_pruner S hS R hR s4.edges i4.ok.ids
      simp only [pruneStage, Outcome.done.injEq, Prod.mk.injEq] at f5
      obtain ⟨rfl, rfl⟩ := f5
      simp only [translateSafe, BackTranslator.out] at r7
      cases r7
      by_cases hp : ∃ e, pruneLoop S (directEdges s4.edges) = .satEdge e
      · obtain ⟨e, he⟩ := hp
        exact absurd hD.toSafeModel ((hc1 e he).2.2.1 D)
      · exact ((hc2 (fun e he => hp ⟨e, he⟩)).2.1 D hD).1
    have q3 : SafeGood R G3 D3 := by
      simp only [mergeStage, Outcome.done.injEq, Prod.mk.injEq] at f4
      obtain ⟨rfl, rfl⟩ := f4
      cases r8
      exact (C06_merge_safe S R G3 i3.ok.ids D4 q4).1
    have q2 : SafeGood R (falseClauseRemoval st1.edges).1 D2 := by
      obtain ⟨G3', b3', e3', _, _, _, hb, _⟩ := C08_remove_unreachable R hR (falseClauseRemoval st1.edges).1 i2.ok.ids i2.ok.srcNe
      rw [e3] at e3'
      cases e3'
      cases r6
      exact (hb D3 q3).1
    have q1 : SafeGood R st1.edges D1 := by
      cases r4
      exact (C07_false_edges_safe R st1.edges D2 q2).1
    exact (elimStage_ok hS hR hF hE (.inr rfl) _ _ _ hst e1).2.safe D1 D' q1 r2
  intro r r' hr hD0 hds0 h
  obtain ⟨ans, w⟩ := r
  have hbase : r'.answer = ans →
      (r'.answer = .unsafeAns → st.edges.Unsafe R) ∧ (r'.answer = .safe → ¬ st.edges.Unsafe R) := by
    intro e
    exact ⟨fun h => a2.2 (hr.unsafeAns (e ▸ h)), fun h hu => hr.safe (e ▸ h) (a2.1 hu)⟩
  cases w with
  | none =>
    simp only [OBack.result] at h
    cases h
    exact ⟨rfl, (hbase rfl).1, (hbase rfl).2, by simp, by simp⟩
  | validity D =>
    obtain ⟨hans, hg⟩ := hr.validity D rfl (hD0 D rfl)
    simp only at hans
    subst hans
    simp only [OBack.result] at h
    split at h
    · rename_i D' hD'
      cases h
      refine ⟨rfl, (hbase rfl).1, (hbase rfl).2, ?_, by simp⟩
      intro D1 e hne
      cases e
      exact ⟨rfl, (hsafe D D' hg hD').resolve_left hne⟩
    · simp at h
    · simp at h
  | invalidity ds =>
    obtain ⟨hans, hg, hsh⟩ := hr.invalidity ds rfl (hds0 ds rfl)
    simp only at hans
    subst hans
    simp only [OBack.result] at h
    split at h
    · rename_i ds' hds'
      cases h
      refine ⟨rfl, (hbase rfl).1, (hbase rfl).2, by simp, ?_⟩
      intro ds1 e hne
      cases e
      exact ⟨rfl, (a3 ds ds' hg hsh hds').resolve_left hne⟩
    · simp at h
    · simp at h

/-! ### No failure -/

theorem elimStage_total {S : Smt T} (hS : S.Sound) (hSC : S.Complete) {R : PRepr} (hR : R.WF) (hF : R.FreshNames)
    {E : Elim T} (hE : E.Exact) {pred : Graph T → Pred → Bool} (hp : IsElimGuard pred) {st : GS T} (hst : st.Inv R)
    (hG : pred = slightlyBetterPredicate ∨ st.edges.NoDeadEnds) : TotalAt R (elimStage S R E pred) st := by
  obtain ⟨st1, rs, h1, h2, h3⟩ := elimStage_run (S := S) hR hF hE hp hst
  refine ⟨st1, _, h2, h3, fun D hD => C11_node_elimination_total hS hSC hR hF hE hp hst.ok hG h1 hD, fun ds hw hsh => ?_⟩
  obtain ⟨ds', hr, hw'⟩ := C12_node_elimination_total hS hSC hR hF hE hp hst.ok h1 hw
  exact ⟨ds', hr, hw', elim_short hR hF hE hp hst h1 hsh hr⟩

theorem chainStage_total {S : Smt T} (hS : S.Sound) (hSC : S.Complete) {R : PRepr} (hR : R.WF)
    {E : Elim T} (hE : E.Exact) {order : Graph T → List Pred} (ho : IsOrder order) {st : GS T} (hst : st.Inv R)
    (hG : st.edges.Grounded) : TotalAt R (chainStage S R E order) st := by
  obtain ⟨st1, ss, h1, h2, h3⟩ := chainStage_run (S := S) hR hE ho hst
  refine ⟨st1, _, h2, h3, fun D hD => C13_chain_summarizer_safe_total hS hSC hR hE ho hst.ok hst.ends hG h1 hD,
    fun ds hw hsh => ?_⟩
  obtain ⟨ds', hr, hw'⟩ := C13_chain_summarizer_unsafe_total hS hSC hR hE ho hst.ok hst.ends h1 hw
  exact ⟨ds', hr, hw', chain_short hR hE ho hst h1 hsh hr⟩

/-- No vertex loses all its edges when the edges labelled false are removed. -/
def Graph.KeepsVertices (G : Graph T) : Prop :=
  ∀ p, G.Vertex p → p ≠ .tru → p ≠ .fls → Graph.Vertex (deleteFalseEdges G) p

theorem falseStage_total {R : PRepr} (hR : R.WF) {st : GS T} (hst : st.Inv R) (hG : st.edges.KeepsVertices) :
    TotalAt R falseStage st := by
  obtain ⟨hi, hT⟩ := falseStage_ok hR st _ _ hst rfl
  refine ⟨_, _, rfl, hi, fun D hD => ⟨_, rfl, (C07_false_edges_safe R st.edges D hD.good).2 hD hG⟩, fun ds hw hsh => ?_⟩
  refine ⟨_, rfl, (hT.uns ds _ hw hsh rfl).resolve_left ?_⟩
  intro h0
  obtain ⟨d, hd, _⟩ := hw.first
  rw [show ds = [] from h0] at hd
  simp at hd

theorem unreachableStage_total {R : PRepr} (hR : R.WF) {st : GS T} (hst : st.Inv R) :
    TotalAt R unreachableStage st := by
  obtain ⟨G', b', h1, h2, _, h4, h5, h6⟩ := C08_remove_unreachable R hR st.edges hst.ok.ids hst.ok.srcNe
  have hrun : unreachableStage st = .done ({ st with edges := G' }, b'.out) := by unfold unreachableStage; rw [h1]
  obtain ⟨hi, hT⟩ := unreachableStage_ok hR st _ _ hst hrun
  refine ⟨_, _, hrun, hi, fun D hD => ⟨_, rfl, (h5 D hD.good).2 hD⟩, fun ds hw hsh => ⟨_, rfl, h6 ds hw, ?_⟩⟩
  exact shortFor_of_sub h2 (by rw [(removeUnreachable_shape h1).2]) hsh

theorem mergeStage_total {S : Smt T} (hS : S.Sound) (hSC : S.Complete) {R : PRepr} (hR : R.WF) {st : GS T} (hst : st.Inv R) :
    TotalAt R (mergeStage S R) st := by
  obtain ⟨hi, hT⟩ := mergeStage_ok hS hR st _ _ hst rfl
  refine ⟨_, _, rfl, hi, fun D hD => ⟨_, rfl, (C06_merge_safe S R st.edges hst.ok.ids D hD.good).2 hD⟩, fun ds hw hsh => ?_⟩
  refine ⟨_, rfl, (hT.uns ds _ hw hsh rfl).resolve_left ?_⟩
  intro h0
  obtain ⟨d, hd, _⟩ := ((C06_merge_unsafe S hS R hR st.edges hst.ok.ids ds hw).2 hSC).first
  rw [h0] at hd
  simp at hd

theorem pruneStage_total {S : Smt T} (hS : S.Sound) {R : PRepr} (hR : R.WF) {st : GS T} (hst : st.Inv R) :
    TotalAt R (pruneStage S) st := by
  obtain ⟨hi, hT⟩ := pruneStage_ok hS hR st _ _ hst rfl
  obtain ⟨hc1, hc2⟩ := C09_trivial_edge_pruner S hS R hR st.edges hst.ok.ids
  refine ⟨_, _, rfl, hi, fun D hD => ⟨_, rfl, ?_⟩, fun ds hw hsh => ?_⟩
  · by_cases hp : ∃ e, pruneLoop S (directEdges st.edges) = .satEdge e
    · obtain ⟨e, he⟩ := hp
      exact absurd hD.toSafeModel ((hc1 e he).2.2.1 D)
    · exact ((hc2 (fun e he => hp ⟨e, he⟩)).2.1 D hD.good).2 hD
  · refine ⟨_, rfl, (hT.uns ds _ hw hsh rfl).resolve_left ?_⟩
    intro h0
    obtain ⟨d, hd, _⟩ := hw.first
    have : ds = [] := by
      have h0' : (trivialEdgePruner S st.edges).2.uns ds = [] := h0
      unfold trivialEdgePruner at h0'
      split at h0'
      · simp only [setClause1] at h0'
        split at h0'
        · simp at h0'
        · exact h0'
      · exact h0'
      · exact h0'
    rw [this] at hd
    simp at hd

/-- C15, `towardsTransitionSystems`, no failure: with a deciding backend, and if no vertex gets lost when the edges labelled
false are removed, every witness of the transformed graph is translated to a (complete) witness of the input. -/
theorem C15_towards_transition_systems_total {S : Smt T} (hS : S.Sound) (hSC : S.Complete) {R : PRepr} (hR : R.WF)
    (hF : R.FreshNames) {E : Elim T} (hE : E.Exact) {st : GS T} (hst : st.Inv R)
    (hG : ∀ st1 rs, nodeEliminator R E slightlyBetterPredicate st = .done (st1, rs) → st1.edges.KeepsVertices) :
    TotalAt R (pipeline (towardsTransitionSystems S R E)) st := by
  refine C15_pipeline_total hst fun pre s post st1 bs1 he hr hi => ?_
  obtain ⟨st2, rs, n1, e1, _⟩ := elimStage_run (S := S) hR hF hE (pred := slightlyBetterPredicate) (.inr rfl) hst
  unfold towardsTransitionSystems at he
  match pre, he with
  | [], he =>
    cases he
    cases hr
    exact elimStage_total hS hSC hR hF hE (.inr rfl) hst (.inl rfl)
  | [_], he =>
    cases he
    simp only [runStages, e1] at hr
    cases hr
    exact falseStage_total hR hi (hG _ _ n1)
  | [_, _], he =>
    cases he
    exact unreachableStage_total hR hi
  | [_, _, _], he =>
    cases he
    exact mergeStage_total hS hSC hR hi
  | [_, _, _, _], he =>
    cases he
    exact pruneStage_total hS hR hi
  | _ :: _ :: _ :: _ :: _ :: pre, he =>
    exfalso
    simp at he

/-! ### The hypotheses are met by a concrete case -/

namespace PipelineEx
open ValidatorEx (P R R_wf a)
open NodeElimEx (s t k keepE keepE_exact fresh)

/-- true → p0(x'): x';  true → p0(x'): ¬x';  p0(x) → p0(x'): x ↔ x';  p0(x) → p1(x'): x ↔ x';  p1(x) → false: x;
p2(x) → p0(x'): x';  p2(x) → p2(x'): x ↔ x';  true → false: false. -/
def G : Graph P :=
  [⟨[.tru], .p 0, t 0, 0⟩, ⟨[.tru], .p 0, .not (t 0), 1⟩, ⟨[.p 0], .p 0, .iff (s 0) (t 0), 2⟩,
   ⟨[.p 0], .p 1, .iff (t 1) (s 0), 3⟩, ⟨[.p 1], .fls, s 1, 4⟩, ⟨[.p 2], .p 0, t 0, 5⟩,
   ⟨[.p 2], .p 2, .iff (t 2) (s 2), 6⟩, ⟨[.tru], .fls, .ff, 7⟩]

def st : GS P := ⟨G, 8, 0, 0⟩

theorem inv : st.Inv R := by
  have hv : ∀ e ∈ G, ∀ x ∈ e.fla.vars, x ∈ R.own e.src e.tgt := by decide +kernel
  refine ⟨⟨by unfold Graph.IdsNodup; decide +kernel, by decide +kernel, by decide +kernel, by decide +kernel,
    fun e he x hx => .inl (hv e he x hx), fun e he e' he' hne x hx ha => ?_, fun e he i hx => ?_, fun e he i hx => ?_⟩,
    by unfold Graph.Ends; decide +kernel⟩
  · exact absurd ha (own_not_aux R_wf (fun _ hs => vertex_src he hs) (hv e he x hx))
  · exact absurd (hv e he _ hx) own_not_ver
  · exact absurd (hv e he _ hx) own_not_ver

/-- An UNSAFE witness for the transformed graph. -/
def ds : List (DStep P) :=
  [⟨[], trueFact, none⟩, ⟨[0], (.p 0, [true]), some 0⟩, ⟨[1], (.p 0, [true]), some 2⟩, ⟨[2], falseFact, some 8⟩]

/-- All stages change the graph; a derivation for the result is accepted, and so is its translation, which has one step
more and other clause ids. -/
theorem C15_example :
    (match pipeline (towardsTransitionSystems propSmt R keepE) st with
      | .done (st', b) =>
        decide (st'.edges.map (fun e => (e.src, e.tgt, e.id)) =
          [([.tru], .p 0, 0), ([.p 0], .p 0, 2), ([.p 0], .fls, 8)]) &&
        decide (validate propSmt R st'.edges ⟨.unsafeAns, .invalidity ds⟩ = .validated) &&
        (match b.uns ds with
          | .done ds' => decide (validate propSmt R G ⟨.unsafeAns, .invalidity ds'⟩ = .validated) &&
              decide (ds'.map DStep.clauseId = [none, some 0, some 2, some 3, some 4])
          | _ => false)
      | _ => false) = true := by decide +kernel

end PipelineEx

end Golem
