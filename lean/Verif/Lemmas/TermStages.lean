import Verif.Lemmas.InfChain
import Verif.Lemmas.LinearReady
import Verif.Model.Termination.Pipeline

/-! The stages of the termination front end keep infinite chains of facts. -/

namespace Golem
variable {T : Theory}

theorem Graph.Tame.oneSource {G : Graph T} (h : G.Tame) : G.OneSource := fun e he => List.length_eq_one_iff.1 (h e he).1

theorem step_rules {R : PRepr} {G : Graph T} {f g : Fact T} : G.Step R f g ↔ graphRules R G ⟨[f], g⟩ := by
  rw [graphRules_iff]; exact Iff.rfl

theorem diverges_of_rules {R : PRepr} {G G' : Graph T} (h : ∀ r, graphRules R G r ↔ graphRules R G' r) :
    G.Diverges R ↔ G'.Diverges R :=
  ⟨InfFrom.mono fun _ _ hs => step_rules.2 ((h _).1 (step_rules.1 hs)),
    InfFrom.mono fun _ _ hs => step_rules.2 ((h _).2 (step_rules.1 hs))⟩

/-- A linear graph in the invariant, without queries. -/
structure TermInv (R : PRepr) (st : GS T) : Prop where
  inv : st.Inv R
  tame : st.edges.Tame
  noGoal : ¬ st.edges.Vertex .fls

/-- A stage keeps the invariant and the infinite chains. -/
def StageDiv (R : PRepr) (s : Stage T) : Prop := ∀ st st' b, TermInv R st → s st = .done (st', b) →
  TermInv R st' ∧ (st.edges.Diverges R ↔ st'.edges.Diverges R)

section
variable {R : PRepr} (hR : R.WF) (hA : R.PlainArgs)
include hR hA

theorem chainStage_div {S : Smt T} (hS : S.Sound) {E : Elim T} (hE : E.Exact) {order : Graph T → List Pred} (ho : IsOrder order) :
    StageDiv R (chainStage S R E order) := by
  intro st st' b h he
  have i := (chainStage_ok hS hR hE ho _ _ _ h.inv he).1
  have t := chainStage_tame hA hE h.tame he
  unfold chainStage at he
  split at he
  · rename_i st1 ss hc
    cases he
    have hr := chainSummarizer_run hR hE ho h.inv.ok h.inv.ends hc
    exact ⟨⟨i, t, fun hv => h.noGoal (hr.vertex hv).1⟩, (chainRun_diverges hr h.tame.oneSource).1⟩
  · cases he
  · cases he

theorem elimStage_div {S : Smt T} (hS : S.Sound) (hF : R.FreshNames) {E : Elim T} (hE : E.Exact) {pred : Graph T → Pred → Bool}
    (hp : IsElimGuard pred) : StageDiv R (elimStage S R E pred) := by
  intro st st' b h he
  have i := (elimStage_ok hS hR hF hE hp _ _ _ h.inv he).1
  have t := elimStage_tame hA hE h.tame he
  unfold elimStage at he
  split at he
  · rename_i st1 ss hc
    cases he
    have hr := (nodeEliminator_steps hR hF hE hp h.inv.ok hc).1
    exact ⟨⟨i, t, fun hv => h.noGoal (hr.vertex_sub hv)⟩, (elimSteps_diverges hR hr h.tame.oneSource).1⟩
  · cases he
  · cases he

theorem inlineStage_div {S : Smt T} (hS : S.Sound) (hF : R.FreshNames) {E : Elim T} (hE : E.Exact) (fuel : Nat) :
    StageDiv R (inlineStage S R E fuel) := by
  intro st st' b h he
  have i := (inlineStage_uns hS hR hF hE fuel _ _ _ h.inv he).1
  have t := inlineStage_tame hA hE h.tame he
  unfold inlineStage at he
  split at he
  · rename_i st1 ss hc
    cases he
    have hr := inlineLoop_run hR hF hE fuel _ h.inv _ _ hc
    exact ⟨⟨i, t, fun hv => h.noGoal (hr.vertex hv)⟩, (inlineRun_diverges hR hr h.tame.oneSource).1⟩
  · cases he
  · cases he

omit hA in
theorem falseStage_div : StageDiv (T := T) R falseStage := by
  intro st st' b h he
  have i := (falseStage_ok hR _ _ _ h.inv he).1
  have t := falseStage_tame h.tame he
  cases he
  exact ⟨⟨i, t, fun hv => h.noGoal (hv.mono fun e he => (List.mem_filter.1 he).1)⟩,
    diverges_of_rules fun r => deleteFalseEdges_rules r⟩

omit hA in
theorem mergeStage_div {S : Smt T} (hS : S.Sound) : StageDiv R (mergeStage S R) := by
  intro st st' b h he
  have i := (mergeStage_ok hS hR _ _ _ h.inv he).1
  have t := mergeStage_tame h.inv.ok.ids h.tame he
  cases he
  exact ⟨⟨i, t, fun hv => h.noGoal ((merge_vertex h.inv.ok.ids).2 hv)⟩,
    diverges_of_rules fun r => merge_rules h.inv.ok.ids r⟩

omit hA in
theorem pruneStage_div {S : Smt T} (hS : S.Sound) : StageDiv R (pruneStage S) := by
  intro st st' b h he
  have i := (pruneStage_ok hS hR _ _ _ h.inv he).1
  have t := pruneStage_tame h.tame he
  have hd : directEdges st.edges = [] := by
    refine List.filter_eq_nil_iff.2 fun e he hx => h.noGoal ?_
    simp only [decide_eq_true_eq] at hx
    exact hx.1 ▸ vertex_tgt he
  have hst : st'.edges = st.edges := by
    cases he
    simp [trivialEdgePruner, hd, pruneLoop, deleteEdges]
  refine ⟨⟨i, t, by rw [hst]; exact h.noGoal⟩, by rw [hst]⟩

omit hA in
theorem forwardStage_div : StageDiv (T := T) R forwardStage := by
  intro st st' b h he
  have hne : ∀ e ∈ st.edges, e.src ≠ [] := fun e he hs => by
    have := (h.tame e he).1
    rw [hs] at this; cases this
  have key : ∃ fw : List Pred, st'.edges = fw.foldl deleteNode st.edges ∧ ∀ x ∈ fw, ¬ FwdReach st.edges x := by
    unfold forwardStage at he
    split at he
    · rename_i G' b' hr
      cases he
      obtain ⟨fw, h1, h2⟩ := computeForward_exact h.inv.ok.ids hne
      unfold removeForwardUnreachable at hr
      simp only at hr
      split at hr
      · rename_i hemp
        cases hr
        refine ⟨st.edges.map Edge.tgt, ?_, ?_⟩
        · refine (List.eq_nil_iff_forall_not_mem.2 fun e he => ?_).symm
          exact (mem_deleteNodes.1 he).2.1 (List.mem_map.2 ⟨e, (mem_deleteNodes.1 he).1, rfl⟩)
        · intro x hx hfx
          obtain ⟨e, he, rfl⟩ := List.mem_map.1 hx
          rcases fwd_entry hfx with hc | ⟨k, hk, hkt⟩
          · exact (h.inv.ends e he).1 hc
          · rw [adjacency_out h.inv.ok.ids, List.isEmpty_iff, List.map_eq_nil_iff, List.filter_eq_nil_iff] at hemp
            exact hemp k hk (by simpa using hkt)
      · simp only [h1, Option.bind_eq_bind, Option.bind_some, pure, Option.some.injEq, Prod.mk.injEq] at hr
        obtain ⟨rfl, -⟩ := hr
        exact ⟨fw, rfl, fun x hx => ((h2 x).1 hx).2⟩
    · cases he
  have hfields : st'.freeId = st.freeId ∧ st'.gaux = st.gaux ∧ st'.auxg = st.auxg := by
    unfold forwardStage at he
    split at he
    · cases he; exact ⟨rfl, rfl, rfl⟩
    · cases he
  obtain ⟨fw, hG, hfw⟩ := key
  have hsub : ∀ e ∈ st'.edges, e ∈ st.edges := by
    rw [hG]; exact fun e he => (mem_deleteNodes.1 he).1
  have hst' : st' = { st with edges := st'.edges } := by
    cases st'; cases st; simp only at hfields; obtain ⟨rfl, rfl, rfl⟩ := hfields; rfl
  refine ⟨⟨⟨?_, h.inv.ends.sub hsub⟩, h.tame.sub hsub, fun hv => h.noGoal (hv.mono hsub)⟩, ?_, ?_⟩
  · rw [hst', hG]
    exact h.inv.ok.sub hR (deleteNodes_sub _ _)
  · intro hd
    refine InfFrom.of_post (P := fun f => FwdReach st.edges f.1 ∧ InfFrom (st.edges.Step R) f) ?_ ⟨.entry, hd⟩
    rintro f ⟨hf, hi⟩
    obtain ⟨g, ⟨k, hk, hkf⟩, hg⟩ := hi.step
    obtain ⟨ks, kt⟩ := fires_from hkf
    have hgr : FwdReach st.edges g.1 := by
      rw [← kt]
      refine .step hk (hne k hk) fun s hs => ?_
      rw [ks, List.mem_singleton] at hs
      rw [hs]; exact hf
    refine ⟨g, ⟨k, ?_, hkf⟩, hgr, hg⟩
    rw [hG]
    refine mem_deleteNodes.2 ⟨hk, fun hx => hfw _ hx (by rw [kt]; exact hgr), fun s hs hx => hfw _ hx ?_⟩
    rw [ks, List.mem_singleton] at hs
    rw [hs]; exact hf
  · exact InfFrom.mono fun f g ⟨e, he, hf⟩ => ⟨e, hsub e he, hf⟩

omit hR hA in
theorem simplifyStage_div {rw : Fla T → Fla T} (hrw : RewriteExact rw) {E : ElimExcept T} (hE : E.Exact) {st st' : GS T}
    {b : OBack T} (h : TermInv R st) (hn : NoClash R rw st.edges) (he : simplifyStage R rw E st = .done (st', b)) :
    TermInv R st' ∧ (st.edges.Diverges R ↔ st'.edges.Diverges R) := by
  have i := (C56_constraint_simplifier hrw hE h.inv hn he).1
  have t := simplifyStage_tame hrw hE h.tame he
  cases he
  have hf : ∀ e ∈ st.edges, (simplifyEdge R rw E e).src = e.src ∧ (simplifyEdge R rw E e).tgt = e.tgt ∧
      (simplifyEdge R rw E e).id = e.id ∧ ∀ b h, (simplifyEdge R rw E e).Fires R b h ↔ e.Fires R b h := by
    intro e he
    refine ⟨rfl, rfl, rfl, simplify_fires hrw hE (h.inv.ok.noBase he) (hn.unused e he) fun x hx n => ⟨?_, ?_⟩⟩
    · rintro rfl; exact own_not_base hx
    · rintro rfl; exact own_not_ver hx
  have hV := map_vertex (G := st.edges) (f := simplifyEdge R rw E) fun e he => ⟨(hf e he).1, (hf e he).2.1⟩
  exact ⟨⟨i, t, fun hv => h.noGoal ((hV _).1 hv)⟩, diverges_of_rules fun r => (map_rules hf r).symm⟩

/-- The preprocessing keeps the infinite chains. -/
theorem terminationStages_div {S : Smt T} (hS : S.Sound) (hF : R.FreshNames) {rw : Fla T → Fla T} (hrw : RewriteExact rw)
    {E : Elim T} (hE : E.Exact) {order : Graph T → List Pred} (ho : IsOrder order) {fuel : Nat} {st st' : GS T} {b : OBack T}
    (h : TermInv R st) (hn : NoClash R rw st.edges)
    (he : pipeline (terminationStages S R rw E order fuel) st = .done (st', b)) :
    TermInv R st' ∧ (st.edges.Diverges R ↔ st'.edges.Diverges R) := by
  unfold pipeline at he
  split at he
  case h_2 => cases he
  case h_3 => cases he
  rename_i stx bs hrun
  cases he
  unfold terminationStages at hrun
  obtain ⟨s1, b1, bs1, e1, r1, _⟩ := runStages_cons hrun
  obtain ⟨i1, d1⟩ := simplifyStage_div hrw hE.except h hn e1
  have rest : ∀ (stages : List (Stage T)), (∀ s ∈ stages, StageDiv R s) → ∀ (st st' : GS T) bs, TermInv R st →
      runStages stages st = .done (st', bs) → TermInv R st' ∧ (st.edges.Diverges R ↔ st'.edges.Diverges R) := by
    intro stages
    induction stages with
    | nil => intro _ st st' bs hi hr; cases hr; exact ⟨hi, Iff.rfl⟩
    | cons s ss ih =>
      intro hs st st' bs hi hr
      obtain ⟨s1, b1, bs1, e1, r1, _⟩ := runStages_cons hr
      obtain ⟨i1, d1⟩ := hs s (by simp) _ _ _ hi e1
      obtain ⟨i2, d2⟩ := ih (fun s h => hs s (by simp [h])) _ _ _ i1 r1
      exact ⟨i2, d1.trans d2⟩
  obtain ⟨i2, d2⟩ := rest _ (by
    intro s hs
    simp only [List.mem_cons, List.not_mem_nil, or_false] at hs
    rcases hs with rfl | rfl | rfl | rfl | rfl | rfl | rfl | rfl
    · exact chainStage_div hR hA hS hE ho
    · exact forwardStage_div hR
    · exact elimStage_div hR hA hS hF hE (.inl rfl)
    · exact inlineStage_div hR hA hS hF hE fuel
    · exact falseStage_div hR
    · exact mergeStage_div hR hS
    · exact chainStage_div hR hA hS hE ho
    · exact pruneStage_div hR hS) _ _ _ i1 r1
  exact ⟨i2, d1.trans d2⟩

end

end Golem
