import Verif.Lemmas.TermStages
import Verif.Lemmas.SingleLoopTS
import Verif.Spec.Termination

/-! Infinite chains of a linear graph without query and infinite runs of its transition system. -/

namespace Golem
variable {T : Theory}

/-- One edge applied to one fact. -/
def LGraph.Step (R : PRepr) (G : LGraph T) (f g : Fact T) : Prop := ∃ e ∈ G, e.Fires R f g

/-- An infinite chain of facts from the entry. -/
def LGraph.Diverges (R : PRepr) (G : LGraph T) : Prop := InfFrom (G.Step R) trueFact

theorem lstep_rules {R : PRepr} {G : LGraph T} {f g : Fact T} : G.Step R f g ↔ lgraphRules R G ⟨[f], g⟩ := by
  rw [lgraphRules_iff]
  constructor
  · rintro ⟨e, he, h⟩; exact ⟨e, he, f, rfl, h⟩
  · rintro ⟨e, he, f', hf, h⟩
    simp only [List.cons.injEq, and_true] at hf
    subst hf
    exact ⟨e, he, h⟩

theorem ldiverges_of_rules {R : PRepr} {G G' : LGraph T} (h : ∀ r, lgraphRules R G r ↔ lgraphRules R G' r) :
    G.Diverges R ↔ G'.Diverges R :=
  ⟨InfFrom.mono fun _ _ hs => lstep_rules.2 ((h _).1 (lstep_rules.1 hs)),
    InfFrom.mono fun _ _ hs => lstep_rules.2 ((h _).2 (lstep_rules.1 hs))⟩

theorem normal_diverges {R : PRepr} (hR : R.WF) {G : Graph T} (hn : isNormalGraph G = true) (hl : ∀ e ∈ G, e.LabelOk R) :
    G.Diverges R ↔ (toNormalGraph R G).Diverges R :=
  ⟨InfFrom.mono fun _ _ hs => lstep_rules.2 ((C44_toNormalGraph_rules hR hn hl _).2 (step_rules.1 hs)),
    InfFrom.mono fun _ _ hs => step_rules.2 ((C44_toNormalGraph_rules hR hn hl _).1 (lstep_rules.1 hs))⟩

/-! ### Contraction of all vertices -/

section
variable {R : PRepr} {N : Pred} {G : LGraph T}

theorem contractedGraph_diverges (h : SLOk R N G) :
    G.Diverges R ↔ (contractedGraph R N G).Diverges (R.contract N (loopVertices G)) := by
  constructor
  · intro hd
    refine InfFrom.of_post (P := fun x => (x = trueFact ∧ InfFrom (G.Step R) trueFact) ∨
      ∃ f : Fact T, ∃ σ : Name → T.Val, x = encFact R N (loopVertices G) σ ∧ f.1 ∈ loopVertices G ∧
        AtLoc R (loopVertices G) f.1 f.2 σ ∧ InfFrom (G.Step R) f) ?_ (.inl ⟨rfl, hd⟩)
    rintro x (⟨rfl, hi⟩ | ⟨f, σ, rfl, hf, hσ, hi⟩)
    · obtain ⟨g, ⟨e, he, hF⟩, hg⟩ := hi.step
      have hs : e.src = .tru := hF.src.symm
      rcases h.cases he with hc | hc | hc
      · obtain ⟨τ, hτ⟩ := exists_atLoc R (loopVertices G) e.tgt g.2 (fires_length hF)
        refine ⟨encFact R N (loopVertices G) τ, ⟨crossEdge R N (loopVertices G) e, (mem_contracted h).2 (.inr ⟨e, he, rfl, .inl hc⟩),
          (cross_in_fires h.contr (h.labelFresh e he) (by rw [hc.1]; exact h.contr.tru) (h.new e he).1 hc.2).2
            ⟨τ, g.2, rfl, hτ, by rw [← fact_eta hF.tgt]; exact hF⟩⟩, .inr ⟨g, τ, rfl, hF.tgt ▸ hc.2, hF.tgt ▸ hτ, hg⟩⟩
      · rw [hs] at hc; exact absurd hc.1 h.contr.tru
      · rw [hs] at hc; exact absurd hc.1 h.contr.tru
    · obtain ⟨g, ⟨e, he, hF⟩, hg⟩ := hi.step
      rw [hF.src] at hf hσ
      rcases h.cases he with hc | hc | hc
      · rw [hc.1] at hf; exact absurd hf h.contr.tru
      · obtain ⟨τ, hτ⟩ := exists_atLoc R (loopVertices G) e.tgt g.2 (fires_length hF)
        refine ⟨encFact R N (loopVertices G) τ, ⟨loopEdge R N (loopVertices G) G, (mem_contracted h).2 (.inl rfl),
          (loop_fires h.contr).2 ⟨e, he, hc.1, hc.2, σ, τ, _, _, rfl, rfl, hσ, hτ, ?_⟩⟩,
          .inr ⟨g, τ, rfl, hF.tgt ▸ hc.2, hF.tgt ▸ hτ, hg⟩⟩
        rw [← fact_eta hF.src, ← fact_eta hF.tgt]; exact hF
      · obtain ⟨x, ⟨l, hl, hlF⟩, _⟩ := hg.step
        exact absurd (hlF.src.symm.trans (hF.tgt.trans hc.2)) (h.ends l hl).2
  · intro hd
    refine InfFrom.of_post (P := fun f => (f = trueFact ∧
        InfFrom ((contractedGraph R N G).Step (R.contract N (loopVertices G))) trueFact) ∨
      ∃ σ : Name → T.Val, f.1 ∈ loopVertices G ∧ AtLoc R (loopVertices G) f.1 f.2 σ ∧
        InfFrom ((contractedGraph R N G).Step (R.contract N (loopVertices G))) (encFact R N (loopVertices G) σ)) ?_ (.inl ⟨rfl, hd⟩)
    rintro f (⟨rfl, hi⟩ | ⟨σ, hf, hσ, hi⟩)
    · obtain ⟨g, ⟨l, hl, hF⟩, hg⟩ := hi.step
      rcases (mem_contracted h).1 hl with rfl | ⟨e, he, rfl, hc | hc⟩
      · exact absurd hF.src.symm h.newNe.1
      · obtain ⟨τ, w, rfl, h1, h2⟩ := (cross_in_fires h.contr (h.labelFresh e he) (by rw [hc.1]; exact h.contr.tru)
          (h.new e he).1 hc.2).1 hF
        exact ⟨(e.tgt, w), ⟨e, he, h2⟩, .inr ⟨τ, hc.2, h1, hg⟩⟩
      · have := hF.src
        rw [(cross_out_ends hc.1 hc.2).1] at this
        exact absurd this.symm h.newNe.1
    · obtain ⟨g, ⟨l, hl, hF⟩, hg⟩ := hi.step
      rcases (mem_contracted h).1 hl with rfl | ⟨e, he, rfl, hc | hc⟩
      · obtain ⟨e, he, hs, ht, σ', τ, v', w, h1, rfl, h2, h3, h4⟩ := (loop_fires h.contr).1 hF
        simp only [encFact, Prod.mk.injEq, true_and] at h1
        obtain ⟨hp, hv⟩ := hσ.unique (h2.congr hs h1.symm) hs
        refine ⟨(e.tgt, w), ⟨e, he, ?_⟩, .inr ⟨τ, ht, h3, hg⟩⟩
        have : f = (e.src, v') := Prod.ext hp hv
        rw [this]; exact h4
      · have := hF.src
        rw [(cross_in_ends h hc.1 hc.2).1] at this
        exact absurd this h.newNe.1
      · obtain ⟨x, ⟨l', hl', hF'⟩, _⟩ := hg.step
        have hgt : g.1 = .fls := by rw [hF.tgt, (cross_out_ends hc.1 hc.2).2]
        rcases contracted_ends h hl' with hc' | hc' | hc'
        · exact absurd (hc'.1.symm.trans (hF'.src.symm.trans hgt)) h.newNe.2
        · have := hc'.1.symm.trans (hF'.src.symm.trans hgt); cases this
        · exact absurd (hc'.1.symm.trans (hF'.src.symm.trans hgt)) h.newNe.2

/-! ### The final graph -/

/-- The final graph has one edge of each kind the contracted graph has, and its rules. -/
theorem final_facts (h : SLOk R N G) (S : Smt T) :
    (∀ r, lgraphRules (R.contract N (loopVertices G)) (finalGraph S R N G) r ↔
        lgraphRules (R.contract N (loopVertices G)) (contractedGraph R N G) r) ∧
    (∀ e ∈ finalGraph S R N G, ∃ l ∈ contractedGraph R N G, e.src = l.src ∧ e.tgt = l.tgt) ∧
    (∀ l ∈ contractedGraph R N G, ∃ e ∈ finalGraph S R N G, e.src = l.src ∧ e.tgt = l.tgt) ∧
    (∀ e ∈ finalGraph S R N G, ∀ e' ∈ finalGraph S R N G, e.src = e'.src → e.tgt = e'.tgt → e = e') ∧
    (finalGraph S R N G).Nodup ∧
    (∀ l ∈ finalGraph S R N G, l.LabelOk (R.contract N (loopVertices G))) ∧
    (finalGraph S R N G).AuxDisjoint (R.contract N (loopVertices G)) := by
  have hR' := contract_wf h.contr
  generalize hR'' : R.contract N (loopVertices G) = R' at hR'
  have hl := contracted_labelOk h
  have hd := contracted_auxDisjoint h
  have hsr := contracted_src h
  rw [hR''] at hl hd hsr
  obtain ⟨K, hok⟩ := toHyper_ok hR' hl (contracted_ids h) hd hsr
  have hm := merge_ok hok
  obtain ⟨hr1, hr2⟩ := C44_toHyperGraph_rules hR' hl
  have hsh : ∀ e ∈ (mergeMultiEdges (toHyperGraph R' (contractedGraph R N G))).1, ∃ l ∈ contractedGraph R N G,
      e.src = [l.src] ∧ e.tgt = l.tgt := by
    intro e he
    obtain ⟨y, hy, h1, h2⟩ := merge_shape hok.ids he
    obtain ⟨i, l, hi, rfl⟩ := mem_toHyperGraph.1 hy
    exact ⟨l, List.mem_of_getElem? hi, h1.symm, h2.symm⟩
  have hnorm : isNormalGraph (mergeMultiEdges (toHyperGraph R' (contractedGraph R N G))).1 = true := by
    rw [isNormalGraph, List.all_eq_true]
    intro e he
    obtain ⟨l, _, h1, _⟩ := hsh e he
    simp [h1]
  have hF : finalGraph S R N G = toNormalGraph R' (mergeMultiEdges (toHyperGraph R' (contractedGraph R N G))).1 := by
    rw [← hR'']; rfl
  refine ⟨?_, ?_, ?_, ?_, ?_, ?_, ?_⟩
  · intro r
    rw [hF, C44_toNormalGraph_rules hR' hnorm (fun e he => hm.labelOk he), ← merge_rules hok.ids, hr1]
  · intro e he
    rw [hF] at he
    obtain ⟨e', he', s, hs, rfl⟩ := mem_toNormalGraph.1 he
    obtain ⟨l, hl', h1, h2⟩ := hsh e' he'
    rw [hs, List.cons.injEq] at h1
    exact ⟨l, hl', h1.1, h2⟩
  · intro l hl'
    obtain ⟨i, hi⟩ := List.getElem?_of_mem hl'
    have hmem : toHyperEdge R' l i ∈ toHyperGraph R' (contractedGraph R N G) := mem_toHyperGraph.2 ⟨i, l, hi, rfl⟩
    have : ∃ e ∈ (mergeMultiEdges (toHyperGraph R' (contractedGraph R N G))).1, e.src = [l.src] ∧ e.tgt = l.tgt := by
      by_cases hrc : ∃ rc ∈ mergedRecords (toHyperGraph R' (contractedGraph R N G)), toHyperEdge R' l i ∈ rc.1
      · obtain ⟨rc, hrc, hmm⟩ := hrc
        obtain ⟨s, t, e0, h0, h2, hs, ht, hall, _⟩ := record_spec hrc
        refine ⟨rc.2, (mem_applyRecords hok.ids).2 (.inl ⟨rc, hrc, rfl⟩), ?_, ?_⟩
        · rw [hs, ← (hall _ hmm).2.1]; rfl
        · rw [ht, ← (hall _ hmm).2.2]; rfl
      · exact ⟨_, (mem_applyRecords hok.ids).2 (.inr ⟨hmem, fun rc h1 h2 => hrc ⟨rc, h1, h2⟩⟩), rfl, rfl⟩
    obtain ⟨e, he, h1, h2⟩ := this
    refine ⟨toNormalEdge R' l.src e, ?_, rfl, h2⟩
    rw [hF]
    exact mem_toNormalGraph.2 ⟨e, he, _, h1, rfl⟩
  · intro e he e' he' h1 h2
    rw [hF] at he he'
    obtain ⟨f, hf, s, hs, rfl⟩ := mem_toNormalGraph.1 he
    obtain ⟨f', hf', s', hs', rfl⟩ := mem_toNormalGraph.1 he'
    simp only [toNormalEdge] at h1 h2
    subst h1
    rw [merge_unique hok.ids hf hf' hs rfl hs' h2.symm]
  · rw [hF]
    exact List.Nodup.of_map _ (normal_ids (R := R') hm)
  · rw [hF]; exact normal_labelOk hR' hm
  · rw [hF]; exact normal_auxDisjoint hR' hm

end

end Golem
