import Verif.Model.Engines.Hyper
import Verif.Props.Pipeline
import Verif.Props.Bse
import Verif.Lemmas.PropQE

/-! Property C47: engines on hypergraphs, through the preprocessing pipeline and back. -/

namespace Golem
variable {T : Theory}

/-- Every edge starts at vertices that can be reached from the entry. -/
def Graph.NoStray (G : Graph T) : Prop := ∀ e ∈ G, ∀ s ∈ e.src, FwdReach G s

theorem merge_noStray {S : Smt T} {R : PRepr} {G : Graph T} (hG : G.IdsNodup) (h : G.NoStray) :
    Graph.NoStray (multiEdgeMerger S R G).1 := by
  have key : ∀ p, FwdReach G p → FwdReach (multiEdgeMerger S R G).1 p := by
    intro p hp
    induction hp with
    | entry => exact .entry
    | @step e he hne _ ih =>
      by_cases hr : ∃ rc ∈ mergedRecords G, e ∈ rc.1
      · obtain ⟨rc, hrc, hm⟩ := hr
        obtain ⟨s, t, e0, h0, h2, hs, ht, hall, _⟩ := record_spec hrc
        rw [(hall e hm).2.2, ← ht]
        rw [(hall e hm).2.1, ← hs] at ih hne
        exact .step ((mem_applyRecords hG).2 (.inl ⟨rc, hrc, rfl⟩)) hne ih
      · exact .step ((mem_applyRecords hG).2 (.inr ⟨he, fun rc hrc hm => hr ⟨rc, hrc, hm⟩⟩)) hne ih
  intro e he s hs
  obtain ⟨y, hy, hsrc, _⟩ := merge_shape hG he
  exact key s (h y hy s (by rw [hsrc]; exact hs))

theorem prune_noStray {S : Smt T} {G : Graph T} (hG : G.IdsNodup) (he : G.Ends) (h : G.NoStray) : Graph.NoStray (trivialEdgePruner S G).1 := by
  unfold trivialEdgePruner
  split
  · rename_i e hp
    obtain ⟨_, hd⟩ := List.mem_filter.1 (pruneLoop_sat hp).1
    simp only [decide_eq_true_eq] at hd
    intro e' he' s hs
    simp at he'
    subst he'
    simp only [hd.2, List.mem_singleton] at hs
    subst hs
    exact .entry
  · exact h
  · have key : ∀ p, FwdReach G p → p ≠ .fls → FwdReach (deleteEdges G ((directEdges G).map Edge.id)) p := by
      intro p hp
      induction hp with
      | entry => exact fun _ => .entry
      | @step e hm hne _ ih =>
        intro ht
        refine .step (List.mem_filter.2 ⟨hm, ?_⟩) hne fun s hs => ih s hs (by rintro rfl; exact (he e hm).2 hs)
        simp only [decide_eq_true_eq]
        intro hid
        obtain ⟨d, hd, hde⟩ := List.mem_map.1 hid
        obtain ⟨hdG, hdd⟩ := List.mem_filter.1 hd
        simp only [decide_eq_true_eq] at hdd
        have := ids_inj hG hdG hm hde
        subst this
        exact ht hdd.1
    intro e hm s hs
    have hm' := (List.mem_filter.1 hm).1
    exact key s (h e hm' s hs) (by rintro rfl; exact (he e hm').2 hs)

theorem towards_noStray {S : Smt T} (hS : S.Sound) {R : PRepr} (hR : R.WF) (hF : R.FreshNames) {E : Elim T}
    (hE : E.Exact) {st st' : GS T} (hst : st.Inv R) {b : OBack T}
    (h : pipeline (towardsTransitionSystems S R E) st = .done (st', b)) : st'.edges.NoStray := by
  unfold pipeline at h
  split at h
  · rename_i stx bs hrun
    cases h
    obtain ⟨s1, b1, bs1, e1, r1, _⟩ := runStages_cons hrun
    obtain ⟨s2, b2, bs2, e2, r2, _⟩ := runStages_cons r1
    obtain ⟨s3, b3, bs3, e3, r3, _⟩ := runStages_cons r2
    obtain ⟨s4, b4, bs4, e4, r4, _⟩ := runStages_cons r3
    obtain ⟨s5, b5, bs5, e5, r5, _⟩ := runStages_cons r4
    cases r5
    have i1 := (elimStage_ok hS hR hF hE (.inr rfl) _ _ _ hst e1).1
    have i2 := (falseStage_ok hR _ _ _ i1 e2).1
    have i3 := (unreachableStage_ok hR _ _ _ i2 e3).1
    have i4 := (mergeStage_ok hS hR _ _ _ i3 e4).1
    have n3 : s3.edges.NoStray := by
      obtain ⟨G', b', h1, _, hv, _⟩ := C08_remove_unreachable R hR s2.edges i2.ok.ids i2.ok.srcNe
      simp only [unreachableStage, h1, Outcome.done.injEq, Prod.mk.injEq] at e3
      obtain ⟨rfl, rfl⟩ := e3
      intro e he s hs
      by_cases ht : s = .tru
      · subst ht; exact .entry
      · exact (hv s (vertex_src he hs) ht).1
    have n4 : s4.edges.NoStray := by
      simp only [mergeStage, Outcome.done.injEq, Prod.mk.injEq] at e4
      obtain ⟨rfl, rfl⟩ := e4
      exact merge_noStray (S := S) (R := R) i3.ok.ids n3
    simp only [pruneStage, Outcome.done.injEq, Prod.mk.injEq] at e5
    obtain ⟨rfl, rfl⟩ := e5
    exact prune_noStray i4.ok.ids i4.ends n4
  · simp at h
  · simp at h

/-! ### The linear graph of an invariant hypergraph -/

section
variable {R : PRepr} {st : GS T}

theorem normal_noStray (hn : isNormalGraph st.edges = true) (h : st.edges.NoStray) :
    (toNormalGraph R st.edges).NoStray := by
  have key : ∀ p, FwdReach st.edges p → Walk (toNormalGraph R st.edges).succ .tru p := by
    intro p hp
    induction hp with
    | entry => exact .refl _
    | @step e he hne _ ih =>
      obtain ⟨s, hs⟩ := isNormalGraph_src hn he
      refine .snoc (ih s (by rw [hs]; simp)) ?_
      show e.tgt ∈ (LGraph.out (toNormalGraph R st.edges) s).map LEdge.tgt
      refine List.mem_map.2 ⟨toNormalEdge R s e, ?_, rfl⟩
      exact List.mem_filter.2 ⟨mem_toNormalGraph.2 ⟨e, he, s, hs, rfl⟩, by simp [toNormalEdge]⟩
  intro l hl
  obtain ⟨e, he, s, hs, rfl⟩ := mem_toNormalGraph.1 hl
  exact key s (h e he s (by rw [hs]; simp))

theorem normal_labelOk (hR : R.WF) (h : st.Ok R) : ∀ l ∈ toNormalGraph R st.edges, l.LabelOk R := by
  intro l hl
  obtain ⟨e, he, s, hs, rfl⟩ := mem_toNormalGraph.1 hl
  exact toNormalEdge_labelOk hR hs (h.labelOk he)

theorem normal_ids (h : st.Ok R) : ((toNormalGraph R st.edges).map LEdge.id).Nodup := by
  have : ((toNormalGraph R st.edges).map LEdge.id).Sublist (st.edges.map Edge.id) := by
    unfold toNormalGraph
    generalize st.edges = G
    induction G with
    | nil => exact List.Sublist.refl _
    | cons e G ih =>
      rw [List.filterMap_cons]
      split
      · exact ih.trans (List.sublist_cons_self _ _)
      · rename_i l hl
        have : l.id = e.id := by
          split at hl <;> cases hl
          rfl
        simp only [List.map_cons, this]
        exact ih.cons_cons _
  exact this.nodup h.ids

/-- An auxiliary variable of a linear edge is one of the hyperedge. -/
theorem normal_aux (hR : R.WF) {e : Edge T} {s s' : Pred} {x : Var} (ha : R.AuxFor [s'] x)
    (hx : x ∈ (toNormalEdge R s e).fla.vars) : x ∈ e.fla.vars := by
  rw [toNormalEdge, varSubstitute, Fla.mem_vars_subst] at hx
  obtain ⟨y, hy, hx⟩ := hx
  simp only [toNormalSubst, PRepr.srcVars, PRepr.tgtVars] at hx
  by_cases h1 : ∃ n ∈ R.args s, y = .src n ((0 : Nat) : Int)
  · obtain ⟨n, hn, rfl⟩ := h1
    rw [map_fn_zip _ _ _ (R.srcVars_nodup hR s 0) hn] at hx
    simp only [Tm.vars, List.mem_singleton] at hx
    subst hx
    rcases ha with ⟨m, he, hm⟩ | ⟨m, he, _⟩
    · cases he; exact absurd hn (hm s)
    · cases he
  · rw [fn_zip_skip _ _ _ (by intro m hm h; exact h1 ⟨m, hm, h.symm⟩)] at hx
    by_cases h2 : ∃ n ∈ R.args e.tgt, y = .tgt n
    · obtain ⟨n, hn, rfl⟩ := h2
      rw [← List.append_nil (List.zip _ _), map_fn_zip _ _ _ (R.tgtVars_nodup hR e.tgt) hn] at hx
      simp only [Tm.vars, List.mem_singleton] at hx
      subst hx
      rcases ha with ⟨m, he, _⟩ | ⟨m, he, _⟩ <;> cases he
    · rw [← List.append_nil (List.zip _ _), fn_zip_skip _ _ _ (by intro m hm h; exact h2 ⟨m, hm, h.symm⟩), fn_nil] at hx
      simp only [Tm.vars, List.mem_singleton] at hx
      subst hx
      exact hy

theorem normal_auxDisjoint (hR : R.WF) (h : st.Ok R) : (toNormalGraph R st.edges).AuxDisjoint R := by
  intro l hl l' hl' hne x ha hx hx'
  obtain ⟨e, he, s, hs, rfl⟩ := mem_toNormalGraph.1 hl
  obtain ⟨e', he', s', hs', rfl⟩ := mem_toNormalGraph.1 hl'
  have h1 := normal_aux hR ha hx
  have h2 := normal_aux hR ha hx'
  refine h.sep e he e' he' ?_ x h1 ?_ h2
  · rintro rfl
    rw [hs] at hs'
    cases hs'
    exact hne rfl
  · rcases h.label e he x h1 with ho | ho
    · exfalso
      rw [hs] at ho
      rcases mem_own.1 ho with ⟨q, hq, hq'⟩ | hq'
      · rw [instances_single] at hq
        simp only [List.mem_singleton] at hq
        subst hq
        obtain ⟨n, hn, rfl⟩ := R.mem_srcVars.1 hq'
        rcases ha with ⟨m, e1, _⟩ | ⟨m, e1, hm⟩
        · cases e1
        · cases e1
          exact hm s (by simp [toNormalEdge]) hn
      · obtain ⟨n, hn, rfl⟩ := R.mem_tgtVars.1 hq'
        rcases ha with ⟨m, e1, _⟩ | ⟨m, e1, _⟩ <;> cases e1
    · exact ho

theorem normal_trivial (hn : isNormalGraph st.edges = true) :
    isTrivial (toNormalGraph R st.edges) = true ↔ st.edges.Direct := by
  simp only [isTrivial, List.all_eq_true, decide_eq_true_eq]
  constructor
  · intro h e he
    obtain ⟨s, hs⟩ := isNormalGraph_src hn he
    obtain ⟨h1, h2⟩ := h _ (mem_toNormalGraph.2 ⟨e, he, s, hs, rfl⟩)
    exact ⟨by rw [hs, ← h1]; rfl, h2⟩
  · intro h l hl
    obtain ⟨e, he, s, hs, rfl⟩ := mem_toNormalGraph.1 hl
    obtain ⟨h1, h2⟩ := h e he
    rw [hs] at h1
    exact ⟨by simpa [toNormalEdge] using h1, h2⟩

end

/-- An engine for linear graphs that is right on the graphs it is given, and answers with two steps on trivial graphs. -/
structure LinearEngineOk (R : PRepr) (solve : LGraph T → Outcome (VerificationResult T)) : Prop where
  right : ∀ G res, G.NoStray → (∀ e ∈ G, e.LabelOk R) → G.AuxDisjoint R → (G.map LEdge.id).Nodup →
    solve G = .done res → GraphResultOk R G res
  short : ∀ G res ds, isTrivial G = true → solve G = .done res → res.witness = .invalidity ds → ds.length = 2

/-- A right result for the linear form of a hypergraph is a right result for the hypergraph. -/
theorem hyperResult_at {R : PRepr} (hR : R.WF) {st : GS T} (hst : st.Inv R) (hn : isNormalGraph st.edges = true)
    {res : VerificationResult T} (hg : GraphResultOk R (toNormalGraph R st.edges) res)
    (hsh : isTrivial (toNormalGraph R st.edges) = true → ∀ ds, res.witness = .invalidity ds → ds.length = 2) :
    HyperResultOk R st.edges res ∧ (∀ D, res.witness = .validity D → D ≠ []) ∧
      ∀ ds, res.witness = .invalidity ds → ds ≠ [] := by
  have hl : ∀ e ∈ st.edges, e.LabelOk R := fun e he => hst.ok.labelOk he
  have hu := C44_toNormalGraph_unsafe hR hn hl
  refine ⟨⟨fun ha => hu.1 (hg.unsafeAns ha), fun ha hun => hg.safe ha (hu.2 hun), ?_, ?_⟩, ?_, ?_⟩
  · intro D hD _
    exact ⟨(hg.validity D hD).1, (C44_safe_witness hR hn hl (hg.validity D hD).2).good⟩
  · intro ds hds _
    exact ⟨(hg.invalidity ds hds).1, C44_unsafe_witness hR hl (hg.invalidity ds hds).2,
      fun hd => hsh ((normal_trivial hn).2 hd) ds hds⟩
  · rintro D hD rfl
    have := (hg.validity _ hD).2.tru
    simp [Defs.get] at this
  · rintro ds hds rfl
    obtain ⟨d, hd, _⟩ := (hg.invalidity _ hds).2.first
    simp at hd

theorem hyperResult_of_linear {R : PRepr} (hR : R.WF) {solve : LGraph T → Outcome (VerificationResult T)}
    (hs : LinearEngineOk R solve) {st : GS T} (hst : st.Inv R) (hn : isNormalGraph st.edges = true)
    (hns : st.edges.NoStray) {res : VerificationResult T} (h : solve (toNormalGraph R st.edges) = .done res) :
    HyperResultOk R st.edges res ∧ (∀ D, res.witness = .validity D → D ≠ []) ∧
      ∀ ds, res.witness = .invalidity ds → ds ≠ [] :=
  hyperResult_at hR hst hn (hs.right _ res (normal_noStray hn hns) (normal_labelOk hR hst.ok) (normal_auxDisjoint hR hst.ok)
    (normal_ids hst.ok) h) fun ht ds hds => hs.short _ res ds ht h hds

/-- **C47** A transition-system engine on a hypergraph: preprocessing always succeeds; if the engine for linear graphs is right
on the preprocessed graph, the answer and the back-translated witness are right for the hypergraph. -/
theorem C47_ts_engine_at {S : Smt T} (hS : S.Sound) {R : PRepr} (hR : R.WF) (hF : R.FreshNames) {E : Elim T} (hE : E.Exact)
    {solve : LGraph T → Outcome (VerificationResult T)} (w : Bool) {st : GS T} (hst : st.Inv R)
    (hs : ∀ st' b r, pipeline (towardsTransitionSystems S R E) st = .done (st', b) → st'.Inv R → st'.edges.NoStray →
      isNormalGraph st'.edges = true → solve (toNormalGraph R st'.edges) = .done r →
      GraphResultOk R (toNormalGraph R st'.edges) r ∧
      (isTrivial (toNormalGraph R st'.edges) = true → ∀ ds, r.witness = .invalidity ds → ds.length = 2))
    {res : VerificationResult T} (h : tsEngineSolve S R E w solve st = .done res) :
    HyperResultOk R st.edges res ∨ (w = false ∧ (res.answer = .unsafeAns → st.edges.Unsafe R) ∧
      (res.answer = .safe → ¬ st.edges.Unsafe R)) := by
  unfold tsEngineSolve at h
  obtain ⟨st', b, h1, hi, hv, hT⟩ := C15_towards_transition_systems hS hR hF hE hst
  simp only [h1] at h
  split at h
  · rename_i hn
    split at h
    · rename_i r hr
      obtain ⟨k1, k2⟩ := hs st' b r h1 hi (towards_noStray hS hR hF hE hst h1) hn hr
      obtain ⟨g1, g2, g3⟩ := hyperResult_at hR hi hn k1 k2
      cases w with
      | true =>
        simp only [if_true] at h
        exact .inl (hT r res g1 g2 g3 h).2
      | false =>
        cases h
        exact .inr ⟨rfl, fun ha => hv.2 (g1.unsafeAns ha), fun ha hu => g1.safe ha (hv.1 hu)⟩
    · simp at h
    · simp at h
  · cases h
    exact .inl ⟨by simp, by simp, by simp, by simp⟩

/-- **C47** The same for engines that are right on all linear graphs. -/
theorem C47_ts_engine {S : Smt T} (hS : S.Sound) {R : PRepr} (hR : R.WF) (hF : R.FreshNames) {E : Elim T} (hE : E.Exact)
    {solve : LGraph T → Outcome (VerificationResult T)} (hs : LinearEngineOk R solve) (w : Bool) {st : GS T}
    (hst : st.Inv R) {res : VerificationResult T} (h : tsEngineSolve S R E w solve st = .done res) :
    HyperResultOk R st.edges res ∨ (w = false ∧ (res.answer = .unsafeAns → st.edges.Unsafe R) ∧
      (res.answer = .safe → ¬ st.edges.Unsafe R)) :=
  C47_ts_engine_at hS hR hF hE w hst (fun _ _ r _ hi hns hn hr =>
    ⟨hs.right _ r (normal_noStray hn hns) (normal_labelOk hR hi.ok) (normal_auxDisjoint hR hi.ok) (normal_ids hi.ok) hr,
      fun ht ds hds => hs.short _ r ds ht hr hds⟩) h

theorem solveTrivial_short (S : Smt T) (G : LGraph T) {ds : List (DStep T)}
    (h : (solveTrivial S G).witness = .invalidity ds) : ds.length = 2 := by
  rcases solveTrivial_cases S G with ⟨h1, _⟩ | ⟨e, _, _, h1⟩ | ⟨h1, _⟩
  · rw [h1] at h; cases h
  · rw [h1] at h; cases h; rfl
  · rw [h1] at h; cases h

/-- **C47**, the `Kind` engine. -/
theorem C47_kind {S : Smt T} (hS : S.Sound) (hc : S.Complete) {R : PRepr} (hR : R.WF) (hF : R.FreshNames) {E : Elim T}
    (hE : E.Exact) {Ex : ElimExcept T} (hEx : Ex.Exact) {Q : QElim T} (hQ : Q.Exact) (w hasArrays : Bool) (fuel : Nat)
    {st : GS T} (hst : st.Inv R) {res : VerificationResult T}
    (h : tsEngineSolve S R E w (fun G => kindGraph S R Ex Q w hasArrays G fuel) st = .done res) :
    (res.answer = .unsafeAns → st.edges.Unsafe R) ∧ (res.answer = .safe → ¬ st.edges.Unsafe R) ∧
    (w = true → HyperResultOk R st.edges res) := by
  have hs : LinearEngineOk R fun G => kindGraph S R Ex Q w hasArrays G fuel := by
    refine ⟨fun G res hn hl hd hid h => C46_kind hS hc hR hEx hQ hn hl hd hid w hasArrays fuel h, ?_⟩
    intro G res ds ht h hds
    unfold kindGraph at h
    rw [if_pos ht] at h
    cases h
    exact solveTrivial_short S G hds
  rcases C47_ts_engine hS hR hF hE hs w hst h with h' | ⟨hw, h1, h2⟩
  · exact ⟨h'.unsafeAns, h'.safe, fun _ => h'⟩
  · exact ⟨h1, h2, fun h => by rw [hw] at h; cases h⟩

/-- **C47**, the `BMC` engine, which does not preprocess. -/
theorem C47_bmc {S : Smt T} (hS : S.Sound) {R : PRepr} (hR : R.WF) {E : ElimExcept T} (hE : E.Exact) (w force : Bool)
    {single : LGraph T → Outcome (VerificationResult T)}
    (hsg : ∀ G res, G.NoStray → (∀ e ∈ G, e.LabelOk R) → G.AuxDisjoint R → (G.map LEdge.id).Nodup →
      single G = .done res → GraphResultOk R G res) (fuel : Nat) {st : GS T}
    (hst : st.Inv R) (hns : st.edges.NoStray) {res : VerificationResult T}
    (h : normalSolve R (fun G => bmcGraph S R E w force single G fuel) st.edges = .done res) :
    HyperResultOk R st.edges res := by
  have hs : LinearEngineOk R fun G => bmcGraph S R E w force single G fuel := by
    refine ⟨fun G res hn hl hd hid h => C46_bmc hS hR hE hn hl hd hid w force (fun r hr => hsg G r hn hl hd hid hr) fuel h, ?_⟩
    intro G res ds ht h hds
    unfold bmcGraph at h
    rw [if_pos ht] at h
    cases h
    exact solveTrivial_short S G hds
  unfold normalSolve at h
  split at h
  · rename_i hn
    exact (hyperResult_of_linear hR hs hst hn hns h).1
  · cases h
    exact ⟨by simp, by simp, by simp, by simp⟩

namespace PipelineEx
open ValidatorEx (P R R_wf a)
open NodeElimEx (keepE keepE_exact fresh)
open LinearEx (keep keep_exact)

/-- The graph without its query `p1(x) → false: x` being satisfiable: `p1(x) → false: x ∧ ¬x`. -/
def safeG : GS P := ⟨G.map fun e => if e.id = 4 then { e with fla := .and e.fla (.not e.fla) } else e, 8, 0, 0⟩

theorem safeG_inv : safeG.Inv R := by
  have hv : ∀ e ∈ safeG.edges, ∀ x ∈ e.fla.vars, x ∈ R.own e.src e.tgt := by decide +kernel
  refine ⟨⟨by unfold Graph.IdsNodup; decide +kernel, by decide +kernel, by decide +kernel, by decide +kernel,
    fun e he x hx => .inl (hv e he x hx), fun e he e' he' hne x hx ha => ?_, fun e he i hx => ?_, fun e he i hx => ?_⟩,
    by unfold Graph.Ends; decide +kernel⟩
  · exact absurd ha (own_not_aux R_wf (fun _ hs => vertex_src he hs) (hv e he x hx))
  · exact absurd (hv e he _ hx) own_not_ver
  · exact absurd (hv e he _ hx) own_not_ver

/-- The whole `Kind` engine on the graph of `C15_example` and on its safe variant: it returns UNSAFE with a derivation of four
steps, and SAFE with a witness that the validator accepts. -/
theorem C47_example : propSmt.Sound ∧ propSmt.Complete ∧ R.WF ∧ R.FreshNames ∧ keepE.Exact ∧ keep.Exact ∧ propQ.Exact ∧ st.Inv R ∧
    safeG.Inv R ∧
    (match tsEngineSolve propSmt R keepE true (fun g => kindGraph propSmt R keep propQ true false g 4) st with
      | .done ⟨.unsafeAns, .invalidity ds⟩ =>
        decide (validate propSmt R st.edges ⟨.unsafeAns, .invalidity ds⟩ = .validated) && decide (4 ≤ ds.length)
      | _ => false) = true ∧
    (match tsEngineSolve propSmt R keepE true (fun g => kindGraph propSmt R keep propQ true false g 4) safeG with
      | .done ⟨.safe, .validity D⟩ => decide (validate propSmt R safeG.edges ⟨.safe, .validity D⟩ = .validated)
      | _ => false) = true :=
  ⟨propSmt_sound, propSmt_complete, R_wf, fresh, keepE_exact, keep_exact, propQ_exact, inv, safeG_inv, by decide +kernel, by decide +kernel⟩

end PipelineEx

end Golem
