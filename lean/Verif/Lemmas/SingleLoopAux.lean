import Verif.Props.SingleLoopEngines
import Verif.Model.Engines.TSCheck

/-! The system of the single-loop transformation has no auxiliary variables in its initial states and query if the graph has none on
its entry and exit edges; and a new symbol for the contracted vertex. -/

namespace Golem
variable {T : Theory}

section
variable {R : PRepr} {N : Pred} {G : LGraph T}

theorem final_aux (h : SLOk R N G) (S : Smt T) {l : LEdge T} (hl : l ∈ finalGraph S R N G) {x : Var} (hx : x ∈ l.fla.vars)
    (ha : (R.contract N (loopVertices G)).AuxFor [l.src] x) :
    ∃ l0 ∈ contractedGraph R N G, l0.src = l.src ∧ l0.tgt = l.tgt ∧ x ∈ l0.fla.vars := by
  have hR' := contract_wf h.contr
  generalize hR'' : R.contract N (loopVertices G) = R' at hR' ha
  have hlab := contracted_labelOk h
  have hd := contracted_auxDisjoint h
  have hsr := contracted_src h
  rw [hR''] at hlab hd hsr
  obtain ⟨K, hok⟩ := toHyper_ok hR' hlab (contracted_ids h) hd hsr
  have hF : finalGraph S R N G = toNormalGraph R' (mergeMultiEdges (toHyperGraph R' (contractedGraph R N G))).1 := by
    rw [← hR'']; rfl
  rw [hF] at hl
  obtain ⟨e, he, s, hs, rfl⟩ := mem_toNormalGraph.1 hl
  have hx1 : x ∈ e.fla.vars := normal_aux hR' ha hx
  obtain ⟨L, -, hL, -, hv, -⟩ := merged_origin hok.ids he
  obtain ⟨y, hy, hxy⟩ := hv x hx1
  obtain ⟨hyG, hys, hyt⟩ := hL y hy
  obtain ⟨i, l0, hi, rfl⟩ := mem_toHyperGraph.1 hyG
  have hl0 := List.mem_of_getElem? hi
  have hs0 : l0.src = s := by
    have : [l0.src] = [s] := hys.trans hs
    simpa using this
  refine ⟨l0, hl0, hs0, hyt, ?_⟩
  rcases toHyper_vars hR' (hlab l0 hl0) hxy with h1 | ⟨-, h1⟩
  · exfalso
    rcases mem_own.1 h1 with ⟨q, hq, h2⟩ | h2
    · rw [hs0, instances_single] at hq
      simp only [List.mem_singleton] at hq
      subst hq
      obtain ⟨n, hn, rfl⟩ := R'.mem_srcVars.1 h2
      rcases ha with ⟨m, hm, _⟩ | ⟨m, hm, hna⟩
      · cases hm
      · cases hm
        exact hna s (by simp [toNormalEdge]) hn
    · obtain ⟨n, hn, rfl⟩ := R'.mem_tgtVars.1 h2
      rcases ha with ⟨m, hm, _⟩ | ⟨m, hm, _⟩ <;> cases hm
  · exact h1

/-- No auxiliary variables on the entry and exit edges of the graph: none in the initial states and the query of the system. -/
theorem singleLoop_noAux (h : SLOk R N G) (S : Smt T) {E : ElimExcept T} (hE : E.Exact) (hin : ∃ e ∈ G, e.src = .tru)
    (hout : ∃ e ∈ G, e.tgt = .fls) (hna : ∀ e ∈ G, e.src = .tru ∨ e.tgt = .fls → edgeAux R e = []) {ts : TS T}
    (hts : singleLoop S R E N G = some ts) : ts.NoAux := by
  obtain ⟨eI, eL, eQ, hs, -, hl, -, -, hsl⟩ := singleLoop_shape h S E hin hout
  rw [hts] at hsl
  cases hsl
  have hR' := contract_wf h.contr
  have key : ∀ l ∈ finalGraph S R N G, (l.src = .tru ∨ l.tgt = .fls) → ∀ x ∈ l.fla.vars,
      x ∈ (R.contract N (loopVertices G)).stateVars l.src ∨ x ∈ (R.contract N (loopVertices G)).nextVars l.tgt := by
    intro l hm hte x hx
    rcases hl l hm x hx with h1 | h1 | h1
    · exact .inl h1
    · exact .inr h1
    · exfalso
      obtain ⟨l0, h0, h0s, h0t, hx0⟩ := final_aux h S hm hx h1
      rcases contracted_vars h h0 hx0 with h2 | h2 | ⟨rfl, -⟩ | ⟨e, he, rfl, hx', ha⟩
      · exact h1.not_state _ h2
      · exact h1.not_next _ h2
      · simp only [loopEdge] at h0s h0t
        rcases hte with h3 | h3
        · exact h.newNe.1 (h0s.trans h3)
        · exact h.newNe.2 (h0t.trans h3)
      · have hext : e.src = .tru ∨ e.tgt = .fls := by
          rcases hte with h3 | h3
          · refine .inl ?_
            rw [← h0s] at h3
            simp only [crossEdge] at h3
            split at h3
            · exact absurd h3 h.newNe.1
            · split at h3 <;> exact h3
          · refine .inr ?_
            rw [← h0t] at h3
            simp only [crossEdge] at h3
            split at h3
            · exact h3
            · split at h3
              · exact absurd h3 h.newNe.2
              · exact h3
        have h4 : x ∈ edgeAux R e := by
          refine List.mem_filter.2 ⟨hx', ?_⟩
          simp [ha.not_state e.src, ha.not_next e.tgt]
        rw [hna e he hext] at h4
        cases h4
  have hv := hs.ne
  constructor
  · intro x hx
    simp only [shapeTS] at hx ⊢
    rw [varSubstitute, Fla.mem_vars_subst] at hx
    obtain ⟨y, hy, hx⟩ := hx
    have hy := hE.vars _ _ y hy
    have hyn : y ∈ (R.contract N (loopVertices G)).nextVars N := by
      rcases key eI hs.mI (.inl hs.sI) y hy with h1 | h1
      · rw [hs.sI] at h1; simp [PRepr.stateVars, hR'.tru] at h1
      · rw [hs.tI] at h1; exact h1
    rw [← List.append_nil (List.zip _ _)] at hx
    have := fn_zip_mem (nextVars_nodup hR' N) (ts := ((R.contract N (loopVertices G)).stateVars N).map (Tm.var (T := T)))
      (by simp [PRepr.nextVars, PRepr.stateVars]) hyn []
    obtain ⟨z, hz, e1⟩ := List.mem_map.1 this
    rw [← e1] at hx
    simp only [Tm.vars, List.mem_singleton] at hx
    subst hx
    exact hz
  · intro x hx
    simp only [shapeTS] at hx ⊢
    rcases key eQ hs.mQ (.inr hs.tQ) x (hE.vars _ _ x hx) with h1 | h1
    · rw [hs.sQ] at h1; exact h1
    · rw [hs.tQ] at h1; simp [PRepr.nextVars, hR'.fls] at h1

theorem freshPred_new (G : LGraph T) : freshPred G ≠ .tru ∧ freshPred G ≠ .fls ∧
    ∀ e ∈ G, e.src ≠ freshPred G ∧ e.tgt ≠ freshPred G := by
  refine ⟨by simp [freshPred], by simp [freshPred], fun e he => ?_⟩
  have hmax := (le_foldl_max (G.flatMap fun e => [e.src.rank, e.tgt.rank]) 0).2
  have h1 := hmax e.src.rank (List.mem_flatMap.2 ⟨e, he, by simp⟩)
  have h2 := hmax e.tgt.rank (List.mem_flatMap.2 ⟨e, he, by simp⟩)
  constructor
  · intro h
    rw [h, freshPred] at h1
    simp only [Pred.rank] at h1
    omega
  · intro h
    rw [h, freshPred] at h2
    simp only [Pred.rank] at h2
    omega

end
end Golem
