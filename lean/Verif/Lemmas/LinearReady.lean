import Verif.Lemmas.PlainNames
import Verif.Props.SingleLoopComplete
import Verif.Props.Hyper

/-! What the preprocessing of the transition-system engines makes of a linear graph. -/

namespace Golem
variable {T : Theory}

theorem removeUnreachable_back {R : PRepr} (hR : R.WF) {G G' : Graph T} {b : BackTranslator T} (hG : G.IdsNodup)
    (h1 : ∀ e ∈ G, e.src.length = 1) (h : removeUnreachable G = some (G', b)) :
    ∀ p, Graph.Vertex G' p → p ≠ .tru → BackReach G' p := by
  unfold removeUnreachable at h
  simp only at h
  split at h
  · cases h; rintro p ⟨e, he, _⟩; simp at he
  split at h
  · cases h; rintro p ⟨e, he, _⟩; simp at he
  obtain ⟨bw, hbw, hbwx⟩ := computeBackward_exact hG
  have hG1 : Graph.IdsNodup (bw.foldl deleteNode G) := deleteNodes_ids hG
  have hA1 : (if bw.isEmpty then adjacency G else adjacency (bw.foldl deleteNode G)) =
      adjacency (bw.foldl deleteNode G) := by
    split
    · rename_i he; rw [List.isEmpty_iff.1 he]; rfl
    · rfl
  have hne1 : ∀ e ∈ bw.foldl deleteNode G, e.src ≠ [] := fun e he hs => by
    have := h1 e (mem_deleteNodes.1 he).1
    rw [hs] at this; cases this
  obtain ⟨fw, hfw, hfwx⟩ := computeForward_exact hG1 hne1
  obtain ⟨-, b2, b3⟩ := backward_removal hR hbwx
  obtain ⟨-, -, f3⟩ := forward_removal hR hne1 hfwx
  simp only [hbw, hA1, hfw, Option.bind_eq_bind, Option.bind_some, pure, Option.some.injEq, Prod.mk.injEq] at h
  obtain ⟨rfl, -⟩ := h
  have key : ∀ p, BackReach G p → FwdReach (bw.foldl deleteNode G) p → BackReach (fw.foldl deleteNode (bw.foldl deleteNode G)) p := by
    intro p hp
    induction hp with
    | exit => exact fun _ => .exit
    | @step e he ht hne s hs ih =>
      intro hf
      obtain ⟨u, hu⟩ := List.length_eq_one_iff.1 (h1 e he)
      rw [hu, List.mem_singleton] at hs
      subst hs
      have hm := b2 e he ht hne
      have hft : FwdReach (bw.foldl deleteNode G) e.tgt := .step hm (hne1 e hm) fun s hs => by
        rw [hu, List.mem_singleton] at hs; subst hs; exact hf
      refine .step (mem_deleteNodes.2 ⟨hm, fun hc => ((hfwx _).1 hc).2 hft, fun s hs hc => ?_⟩) (ih hft) hne (by rw [hu]; simp)
      rw [hu, List.mem_singleton] at hs; subst hs
      exact ((hfwx _).1 hc).2 hf
  intro p hp hpt
  have hv : Graph.Vertex (bw.foldl deleteNode G) p := by
    obtain ⟨e, he, h⟩ := hp; exact ⟨e, (mem_deleteNodes.1 he).1, h⟩
  exact key p ((b3 p hv).resolve_left hpt) (f3 p hp)

theorem merge_back {G : Graph T} (hG : G.IdsNodup) {p : Pred} (h : BackReach G p) : BackReach (mergeMultiEdges G).1 p := by
  induction h with
  | exit => exact .exit
  | @step e he ht hne s hs ih =>
    by_cases hr : ∃ rc ∈ mergedRecords G, e ∈ rc.1
    · obtain ⟨rc, hrc, hm⟩ := hr
      obtain ⟨s', t, e0, h0, h2, hs', ht', hall, _⟩ := record_spec hrc
      obtain ⟨-, a, b⟩ := hall e hm
      have hmem : rc.2 ∈ (mergeMultiEdges G).1 := (mem_applyRecords hG).2 (.inl ⟨rc, hrc, rfl⟩)
      rw [b, ← ht'] at ih hne
      exact .step hmem ih hne (by rw [hs', ← a]; exact hs)
    · exact .step ((mem_applyRecords hG).2 (.inr ⟨he, fun rc hrc hm => hr ⟨rc, hrc, hm⟩⟩)) ih hne hs

theorem back_exit {G : Graph T} {p : Pred} (h : BackReach G p) : p ≠ .fls → ∃ e ∈ G, e.tgt = .fls := by
  induction h with
  | exit => exact fun h => absurd rfl h
  | @step e he ht hne s hs ih =>
    intro _
    by_cases hf : e.tgt = .fls
    · exact ⟨e, he, hf⟩
    · exact ih hf

/-- A linear graph as the engines for transition systems need it. -/
structure LinearReady (R : PRepr) (G : LGraph T) : Prop where
  sl : ∀ N, N ≠ .tru → N ≠ .fls → (∀ e ∈ G, e.src ≠ N ∧ e.tgt ≠ N) → SLOk R N G
  noStray : G.NoStray
  entry : ∃ e ∈ G, e.src = .tru
  exit : ∃ e ∈ G, e.tgt = .fls
  noParallel : G.NoParallel

theorem pruneLoop_complete {S : Smt T} (hc : S.DecidesOne) (es : List (Edge T)) : pruneLoop S es ≠ .giveUp := by
  induction es with
  | nil => simp [pruneLoop]
  | cons e es ih =>
    rw [pruneLoop]
    have := hc e.fla
    split
    · simp
    · exact ih
    · rename_i h1 h2
      rcases this with h | h
      · exact absurd h h1
      · exact absurd h h2

theorem fwd_entry {G : Graph T} {p : Pred} (h : FwdReach G p) : p = .tru ∨ ∃ e ∈ G, .tru ∈ e.src := by
  induction h with
  | entry => exact .inl rfl
  | @step e he hne _ ih =>
    obtain ⟨s, hs⟩ := List.exists_mem_of_ne_nil _ hne
    rcases ih s hs with rfl | h
    · exact .inr ⟨e, he, hs⟩
    · exact .inr h

theorem towards_ready {S : Smt T} (hS : S.Sound) (hc : S.DecidesOne) {R : PRepr} (hR : R.WF) (hF : R.FreshNames) (hA : R.PlainArgs)
    {E : Elim T} (hE : E.Exact) {st st' : GS T} (hst : st.Inv R) (htm : st.edges.Tame) {b : OBack T}
    (h : pipeline (towardsTransitionSystems S R E) st = .done (st', b)) :
    isNormalGraph st'.edges = true ∧
    (isTrivial (toNormalGraph R st'.edges) = true ∨ LinearReady R (toNormalGraph R st'.edges)) := by
  have hns := towards_noStray hS hR hF hE hst h
  unfold pipeline at h
  split at h
  case h_2 => simp at h
  case h_3 => simp at h
  rename_i stx bs hrun
  cases h
  obtain ⟨s1, b1, bs1, e1, r1, _⟩ := runStages_cons hrun
  obtain ⟨s2, b2, bs2, e2, r2, _⟩ := runStages_cons r1
  obtain ⟨s3, b3, bs3, e3, r3, _⟩ := runStages_cons r2
  obtain ⟨s4, b4, bs4, e4, r4, _⟩ := runStages_cons r3
  obtain ⟨s5, b5, bs5, e5, r5, _⟩ := runStages_cons r4
  cases r5
  have i1 := (elimStage_ok hS hR hF hE (.inr rfl) _ _ _ hst e1).1
  have i2 := (falseStage_ok hR _ _ _ i1 e2).1
  have i3 := (unreachableStage_ok hR _ _ _ i2 e3).1
  have i4 := (mergeStage_ok hS hR _ _ _ i3 e4).1
  have i5 := (pruneStage_ok hS hR _ _ _ i4 e5).1
  have t1 := elimStage_tame hA hE htm e1
  have t2 := falseStage_tame t1 e2
  have t3 := unreachableStage_tame t2 e3
  have t4 := mergeStage_tame i3.ok.ids t3 e4
  have t5 := pruneStage_tame t4 e5
  have hn : isNormalGraph st'.edges = true := List.all_eq_true.2 fun e he => by simpa using (t5 e he).1
  refine ⟨hn, ?_⟩
  have b3' : ∀ p, Graph.Vertex s3.edges p → p ≠ .tru → BackReach s3.edges p := by
    unfold unreachableStage at e3
    split at e3
    · rename_i G' b' hr
      cases e3
      exact removeUnreachable_back hR i2.ok.ids (fun e he => (t2 e he).1) hr
    · cases e3
  have h4 : s4.edges = (mergeMultiEdges s3.edges).1 := by cases e4; rfl
  have b4' : ∀ p, Graph.Vertex s4.edges p → p ≠ .tru → BackReach s4.edges p := by
    rw [h4]
    rintro p ⟨e, he, hp⟩ hpt
    refine merge_back i3.ok.ids (b3' p ?_ hpt)
    obtain ⟨y, hy, h1, h2⟩ := merge_shape i3.ok.ids he
    exact ⟨y, hy, by rw [h1, h2]; exact hp⟩
  have u4 : ∀ e ∈ s4.edges, ∀ e' ∈ s4.edges, ∀ s, e.src = [s] → e'.src = [s] → e.tgt = e'.tgt → e = e' := by
    rw [h4]
    intro e he e' he' s hs hs' ht
    exact merge_unique i3.ok.ids he he' hs rfl hs' ht.symm
  have h5 : st'.edges = (trivialEdgePruner S s4.edges).1 := by cases e5; rfl
  clear e1 e2 e3 e4 e5 r1 r2 r3 r4 hrun
  unfold trivialEdgePruner at h5
  split at h5
  · rename_i e hp
    refine .inl ((normal_trivial hn).2 ?_)
    rw [h5]
    intro e' he'
    simp only [List.mem_singleton] at he'
    subst he'
    obtain ⟨-, hd⟩ := List.mem_filter.1 (pruneLoop_sat hp).1
    simp only [decide_eq_true_eq] at hd
    exact ⟨hd.2, hd.1⟩
  · rename_i hp
    exact absurd hp (pruneLoop_complete hc _)
  · have hsub : ∀ e ∈ st'.edges, e ∈ s4.edges ∧ ¬ (e.tgt = .fls ∧ e.src = [.tru]) := by
      intro e he
      rw [h5] at he
      obtain ⟨hm, hd⟩ := List.mem_filter.1 he
      simp only [decide_eq_true_eq] at hd
      exact ⟨hm, fun hx => hd (List.mem_map.2 ⟨e, List.mem_filter.2 ⟨hm, by simpa using hx⟩, rfl⟩)⟩
    have hkeep : ∀ e ∈ s4.edges, e.src ≠ [.tru] → e ∈ st'.edges := by
      intro e he hs
      rw [h5]
      refine List.mem_filter.2 ⟨he, ?_⟩
      simp only [decide_eq_true_eq]
      intro hd
      obtain ⟨d, hd, hid⟩ := List.mem_map.1 hd
      obtain ⟨hdm, hdd⟩ := List.mem_filter.1 hd
      simp only [decide_eq_true_eq] at hdd
      exact hs (ids_inj i4.ok.ids hdm he hid ▸ hdd.2)
    by_cases htr : isTrivial (toNormalGraph R st'.edges) = true
    · exact .inl htr
    refine .inr ?_
    obtain ⟨e0, he0, hnd⟩ : ∃ e ∈ st'.edges, ¬ (e.src = [.tru] ∧ e.tgt = .fls) := by
      have := mt (normal_trivial (R := R) hn).2 htr
      unfold Graph.Direct at this
      simp only [Classical.not_forall] at this
      obtain ⟨e, he, hx⟩ := this
      exact ⟨e, he, hx⟩
    have b5 : ∀ p, BackReach s4.edges p → p ≠ .tru → BackReach st'.edges p := by
      intro p hp
      induction hp with
      | exit => exact fun _ => .exit
      | @step e he ht hne s hs ih =>
        intro hst
        obtain ⟨u, hu⟩ := List.length_eq_one_iff.1 (t4 e he).1
        rw [hu, List.mem_singleton] at hs
        subst hs
        exact .step (hkeep e he (by rw [hu]; simpa using hst)) (ih hne) hne (by rw [hu]; simp)
    obtain ⟨u0, hu0⟩ := isNormalGraph_src hn he0
    have hexit : ∃ e ∈ st'.edges, e.tgt = .fls := by
      by_cases hf : e0.tgt = .fls
      · exact ⟨e0, he0, hf⟩
      · have hv : Graph.Vertex s4.edges e0.tgt := ⟨e0, (hsub e0 he0).1, .inl rfl⟩
        exact back_exit (b5 _ (b4' _ hv (i5.ends e0 he0).1) (i5.ends e0 he0).1) hf
    have hentry : ∃ e ∈ st'.edges, .tru ∈ e.src := by
      rcases fwd_entry (hns e0 he0 u0 (by rw [hu0]; simp)) with h | h
      · exact ⟨e0, he0, by rw [hu0, h]; simp⟩
      · exact h
    have hends : ∀ l ∈ toNormalGraph R st'.edges, l.tgt ≠ .tru ∧ l.src ≠ .fls := by
      intro l hl
      obtain ⟨e, he, s, hs, rfl⟩ := mem_toNormalGraph.1 hl
      refine ⟨(i5.ends e he).1, ?_⟩
      rintro rfl
      exact (i5.ends e he).2 (by rw [hs]; simp)
    refine ⟨fun N n1 n2 n3 => ⟨hR, hA, ?_, normal_labelOk hR i5.ok, normal_auxDisjoint hR i5.ok, normal_ids i5.ok, n3, ⟨n1, n2⟩, hends,
      ?_⟩, normal_noStray hn hns, ?_, ?_, ?_⟩
    · intro l hl
      obtain ⟨e, he, s, hs, rfl⟩ := mem_toNormalGraph.1 hl
      refine plain_subst (t5 e he).2 ?_
      intro p hp
      rcases List.mem_append.1 hp with hp | hp
      · obtain ⟨n, hn, he⟩ := List.mem_map.1 (List.of_mem_zip (a := p.1) (b := p.2) hp).2
        intro x hx
        rw [← he] at hx
        simp only [Tm.vars, List.mem_singleton] at hx
        subst hx; exact hA _ n hn
      · obtain ⟨n, hn, he⟩ := List.mem_map.1 (List.of_mem_zip (a := p.1) (b := p.2) hp).2
        intro x hx
        rw [← he] at hx
        simp only [Tm.vars, List.mem_singleton] at hx
        subst hx; exact hA _ n hn
    · rintro l hl ⟨h1, h2⟩
      obtain ⟨e, he, s, hs, rfl⟩ := mem_toNormalGraph.1 hl
      simp only [toNormalEdge] at h1 h2
      exact (hsub e he).2 ⟨h2, by rw [hs, h1]⟩
    · obtain ⟨e, he, ht⟩ := hentry
      obtain ⟨s, hs⟩ := isNormalGraph_src hn he
      rw [hs, List.mem_singleton] at ht
      exact ⟨_, mem_toNormalGraph.2 ⟨e, he, s, hs, rfl⟩, ht.symm⟩
    · obtain ⟨e, he, ht⟩ := hexit
      obtain ⟨s, hs⟩ := isNormalGraph_src hn he
      exact ⟨_, mem_toNormalGraph.2 ⟨e, he, s, hs, rfl⟩, ht⟩
    · intro l hl l' hl' h1 h2
      obtain ⟨e, he, s, hs, rfl⟩ := mem_toNormalGraph.1 hl
      obtain ⟨e', he', s', hs', rfl⟩ := mem_toNormalGraph.1 hl'
      simp only [toNormalEdge] at h1 h2
      subst h1
      rw [u4 e (hsub e he).1 e' (hsub e' he').1 s hs hs' h2]

end Golem
