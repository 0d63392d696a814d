import Verif.Lemmas.SingleLoopGraph
import Verif.Lemmas.LinearHyper

/-! The transition system of the single-loop transformation. -/

namespace Golem
variable {T : Theory}

theorem fn_zip_mem {xs : List Var} {ts : List (Tm T)} (hn : xs.Nodup) (hl : xs.length = ts.length) {x : Var} (hx : x ∈ xs)
    (m : SubstMap T) : SubstMap.fn (xs.zip ts ++ m) x ∈ ts := by
  obtain ⟨i, hi⟩ := List.getElem?_of_mem hx
  obtain ⟨t, ht⟩ : ∃ t, ts[i]? = some t := ⟨_, List.getElem?_eq_getElem (by rw [← hl]; exact List.getElem?_lt hi)⟩
  rw [fn_zip_at hn hi ht]
  exact List.mem_of_getElem? ht

section
variable {R : PRepr} {N : Pred} {G : LGraph T}

theorem auxName_contract {vs : List Pred} {n : Name} (h : R.AuxName n) (hp : n.Plain) : (R.contract N vs).AuxName n := by
  intro p
  simp only [PRepr.contract]
  split
  · intro hm; exact contractedArgs_not_plain hm hp
  · exact h p

theorem et_auxName {vs : List Pred} {k : Nat} (h : ∀ p, ∀ n ∈ R.args p, n.Plain) : (R.contract N vs).AuxName (.et k) := by
  intro p
  simp only [PRepr.contract]
  split
  · exact et_not_contracted
  · intro hm; have := h p _ hm; cases this

theorem state_contract {vs : List Pred} {n : Name} (h : n ∈ contractedArgs R vs) : Var.ver n 0 ∈ (R.contract N vs).stateVars N :=
  List.mem_map.2 ⟨n, by rw [contract_args_new]; exact h, rfl⟩

theorem next_contract {vs : List Pred} {n : Name} (h : n ∈ contractedArgs R vs) : Var.ver n 1 ∈ (R.contract N vs).nextVars N :=
  List.mem_map.2 ⟨n, by rw [contract_args_new]; exact h, rfl⟩

theorem tru_state (hR : R.WF) : R.stateVars .tru = [] := by simp [PRepr.stateVars, hR.tru]
theorem fls_next (hR : R.WF) : R.nextVars .fls = [] := by simp [PRepr.nextVars, hR.fls]

/-- The variables of an edge into the contracted vertex. -/
theorem cross_in_vars (h : SLOk R N G) {e : LEdge T} (he : e ∈ G) (hs : e.src = .tru) (ht : e.tgt ∈ loopVertices G) {x : Var}
    (hx : x ∈ (crossEdge R N (loopVertices G) e).fla.vars) :
    x ∈ (R.contract N (loopVertices G)).nextVars N ∨ (x ∈ e.fla.vars ∧ R.AuxFor [e.src] x) := by
  have hs' : e.src ∉ loopVertices G := by rw [hs]; exact h.contr.tru
  simp only [crossEdge, hs', ht, if_true, if_false] at hx
  obtain ⟨f, hf, hx⟩ := Fla.mem_vars_conj.1 hx
  simp only [List.mem_cons, List.not_mem_nil, or_false] at hf
  rcases hf with rfl | rfl | rfl
  · obtain ⟨f, hf, hx⟩ := Fla.mem_vars_conj.1 hx
    obtain ⟨q, hq, rfl⟩ := List.mem_map.1 hf
    obtain ⟨hq, _⟩ := List.mem_filter.1 hq
    simp only [Fla.vars, locFla, Tm.vars, List.mem_singleton] at hx
    subst hx
    exact .inl (next_contract (loc_mem hq))
  · simp only [Fla.vars, locFla, Tm.vars, List.mem_singleton] at hx
    subst hx
    exact .inl (next_contract (loc_mem ht))
  · rw [varSubstitute, Fla.mem_vars_subst] at hx
    obtain ⟨y, hy, hx⟩ := hx
    rw [← List.append_nil (List.zip _ _)] at hx
    by_cases hy' : y ∈ R.nextVars e.tgt
    · have := fn_zip_mem (nextVars_nodup h.wf e.tgt) (ts := (argNames R e.tgt).map fun n => (Tm.var (.ver n 1) : Tm T))
        (by simp [argNames_length, PRepr.nextVars]) hy' []
      obtain ⟨n, hn, e1⟩ := List.mem_map.1 this
      rw [← e1] at hx
      simp only [Tm.vars, List.mem_singleton] at hx
      subst hx
      exact .inl (next_contract (arg_mem ht hn))
    · rw [fn_zip_skip' hy', fn_nil] at hx
      simp only [Tm.vars, List.mem_singleton] at hx
      subst hx
      rcases h.label e he x hy with h1 | h1 | h1
      · rw [hs, tru_state h.wf] at h1; simp at h1
      · exact absurd h1 hy'
      · exact .inr ⟨hy, h1⟩

/-- The variables of an edge out of the contracted vertex. -/
theorem cross_out_vars (h : SLOk R N G) {e : LEdge T} (he : e ∈ G) (hs : e.src ∈ loopVertices G) (ht : e.tgt = .fls) {x : Var}
    (hx : x ∈ (crossEdge R N (loopVertices G) e).fla.vars) :
    x ∈ (R.contract N (loopVertices G)).stateVars N ∨ (x ∈ e.fla.vars ∧ R.AuxFor [e.src] x) := by
  simp only [crossEdge, hs, if_true] at hx
  rw [varSubstitute, Fla.mem_vars_subst] at hx
  obtain ⟨y, hy, hx⟩ := hx
  rw [← List.append_nil (List.zip _ _)] at hx
  by_cases hy' : y ∈ R.stateVars e.src
  · have := fn_zip_mem (stateVars_nodup h.wf e.src) (ts := (argNames R e.src).map fun n => (Tm.var (.ver n 0) : Tm T))
      (by simp [argNames_length, PRepr.stateVars]) hy' []
    obtain ⟨n, hn, e1⟩ := List.mem_map.1 this
    rw [← e1] at hx
    simp only [Tm.vars, List.mem_singleton] at hx
    subst hx
    exact .inl (state_contract (arg_mem hs hn))
  · rw [fn_zip_skip' hy', fn_nil] at hx
    simp only [Tm.vars, List.mem_singleton] at hx
    subst hx
    simp only [Fla.vars, locFla, Tm.vars, List.mem_append, List.mem_singleton] at hy
    rcases hy with hy | rfl
    · rcases h.label e he x hy with h1 | h1 | h1
      · exact absurd h1 hy'
      · rw [ht, fls_next h.wf] at h1; simp at h1
      · exact .inr ⟨hy, h1⟩
    · exact .inl (state_contract (loc_mem hs))

/-- The variables of the new self loop. -/
theorem loop_vars_of (hR : R.WF) {vs : List Pred} {x : Var} (hx : x ∈ (loopEdge R N vs G).fla.vars) :
    x ∈ (R.contract N vs).stateVars N ∨ x ∈ (R.contract N vs).nextVars N ∨
      ∃ j, x = .ver (.et j) 0 := by
  simp only [loopEdge] at hx
  obtain ⟨f, hf, hx⟩ := Fla.mem_vars_disj.1 hx
  obtain ⟨e, he, j, rfl⟩ := mem_loopParts hf
  obtain ⟨heG, hin⟩ := List.mem_filter.1 he
  simp only [innerEdge, Bool.and_eq_true, decide_eq_true_eq] at hin
  simp only [translateEdge] at hx
  obtain ⟨f, hf, hx⟩ := Fla.mem_vars_conj.1 hx
  simp only [List.mem_cons, List.not_mem_nil, or_false] at hf
  rcases hf with rfl | rfl | rfl | rfl
  · split at hx
    · simp [Fla.vars] at hx
    · simp only [Fla.vars, locFla, Tm.vars, List.mem_singleton] at hx
      subst hx
      exact .inl (state_contract (loc_mem hin.1))
  · rw [varSubstitute, Fla.mem_vars_subst] at hx
    obtain ⟨y, hy, hx⟩ := hx
    by_cases ha : y ∈ firstOcc (edgeAux R e)
    · rw [etSubst] at hx
      have := fn_zip_mem (firstOcc_nodup (edgeAux R e))
        (ts := (List.range (firstOcc (edgeAux R e)).length).map fun i => (Tm.var (.ver (.et (j + i)) 0) : Tm T)) (by simp) ha
        ((R.stateVars e.src).zip ((argNames R e.src).map fun n => Tm.var (.ver n 0)) ++
          (R.nextVars e.tgt).zip ((argNames R e.tgt).map fun n => Tm.var (.ver n 1)))
      obtain ⟨n, hn, e1⟩ := List.mem_map.1 this
      rw [← e1] at hx
      simp only [Tm.vars, List.mem_singleton] at hx
      exact .inr (.inr ⟨_, hx⟩)
    · rw [etSubst, fn_zip_skip' ha] at hx
      by_cases hy' : y ∈ R.stateVars e.src
      · have := fn_zip_mem (stateVars_nodup hR e.src) (ts := (argNames R e.src).map fun n => (Tm.var (.ver n 0) : Tm T))
          (by simp [argNames_length, PRepr.stateVars]) hy'
          ((R.nextVars e.tgt).zip ((argNames R e.tgt).map fun n => Tm.var (.ver n 1)))
        obtain ⟨n, hn, e1⟩ := List.mem_map.1 this
        rw [← e1] at hx
        simp only [Tm.vars, List.mem_singleton] at hx
        subst hx
        exact .inl (state_contract (arg_mem hin.1 hn))
      · rw [fn_zip_skip' hy', ← List.append_nil (List.zip _ _)] at hx
        have hn : y ∈ R.nextVars e.tgt := by
          rcases etSubst_other (R := R) j hy with h1 | h1 | ⟨i, h1⟩
          · exact absurd h1 hy'
          · exact h1
          · exact absurd (List.mem_of_getElem? h1) ha
        have := fn_zip_mem (nextVars_nodup hR e.tgt) (ts := (argNames R e.tgt).map fun n => (Tm.var (.ver n 1) : Tm T))
          (by simp [argNames_length, PRepr.nextVars]) hn []
        obtain ⟨n, hn, e1⟩ := List.mem_map.1 this
        rw [← e1] at hx
        simp only [Tm.vars, List.mem_singleton] at hx
        subst hx
        exact .inr (.inl (next_contract (arg_mem hin.2 hn)))
  · simp only [Fla.vars, locFla, Tm.vars, List.mem_singleton] at hx
    subst hx
    exact .inr (.inl (next_contract (loc_mem hin.2)))
  · simp only [otherLocs] at hx
    obtain ⟨f, hf, hx⟩ := Fla.mem_vars_conj.1 hx
    obtain ⟨q, hq, hf⟩ := List.mem_flatMap.1 hf
    rcases List.mem_append.1 hf with hf | hf
    · split at hf
      · simp only [List.mem_singleton] at hf
        subst hf
        simp only [Fla.vars, locFla, Tm.vars, List.mem_singleton] at hx
        subst hx
        exact .inr (.inl (next_contract (loc_mem hq)))
      · simp at hf
    · split at hf
      · simp only [List.mem_singleton] at hf
        subst hf
        simp only [Fla.vars, locFla, Tm.vars, List.mem_singleton] at hx
        subst hx
        exact .inl (state_contract (loc_mem hq))
      · simp at hf

theorem loop_vars (h : SLOk R N G) {x : Var} (hx : x ∈ (loopEdge R N (loopVertices G) G).fla.vars) :
    x ∈ (R.contract N (loopVertices G)).stateVars N ∨ x ∈ (R.contract N (loopVertices G)).nextVars N ∨
      ∃ j, x = .ver (.et j) 0 := loop_vars_of h.wf hx

/-- The variables of any edge of the contracted graph. -/
theorem contracted_vars (h : SLOk R N G) {l : LEdge T} (hl : l ∈ contractedGraph R N G) {x : Var} (hx : x ∈ l.fla.vars) :
    x ∈ (R.contract N (loopVertices G)).stateVars l.src ∨ x ∈ (R.contract N (loopVertices G)).nextVars l.tgt ∨
      (l = loopEdge R N (loopVertices G) G ∧ ∃ j, x = .ver (.et j) 0) ∨
      ∃ e ∈ G, l = crossEdge R N (loopVertices G) e ∧ x ∈ e.fla.vars ∧ R.AuxFor [e.src] x := by
  rcases (mem_contracted h).1 hl with rfl | ⟨e, he, rfl, hc | hc⟩
  · rcases loop_vars h hx with h1 | h1 | h1
    · exact .inl h1
    · exact .inr (.inl h1)
    · exact .inr (.inr (.inl ⟨rfl, h1⟩))
  · rcases cross_in_vars h he hc.1 hc.2 hx with h1 | h1
    · exact .inr (.inl (by rw [(cross_in_ends h hc.1 hc.2).2]; exact h1))
    · exact .inr (.inr (.inr ⟨e, he, rfl, h1⟩))
  · rcases cross_out_vars h he hc.1 hc.2 hx with h1 | h1
    · exact .inl (by rw [(cross_out_ends hc.1 hc.2).1]; exact h1)
    · exact .inr (.inr (.inr ⟨e, he, rfl, h1⟩))

theorem contracted_ends (h : SLOk R N G) {l : LEdge T} (hl : l ∈ contractedGraph R N G) :
    (l.src = N ∧ l.tgt = N) ∨ (l.src = .tru ∧ l.tgt = N) ∨ (l.src = N ∧ l.tgt = .fls) := by
  rcases (mem_contracted h).1 hl with rfl | ⟨e, he, rfl, hc | hc⟩
  · exact .inl ⟨rfl, rfl⟩
  · exact .inr (.inl (cross_in_ends h hc.1 hc.2))
  · exact .inr (.inr (cross_out_ends hc.1 hc.2))

theorem not_args_contract (h : SLOk R N G) {n : Name} (hp : n.Plain) {s : Pred} (hs : s = N ∨ s = .tru ∨ s = .fls) :
    n ∉ (R.contract N (loopVertices G)).args s := by
  intro hm
  rcases hs with rfl | rfl | rfl
  · rw [contract_args_new] at hm; exact contractedArgs_not_plain hm hp
  · rw [(contract_wf h.contr).tru] at hm; simp at hm
  · rw [(contract_wf h.contr).fls] at hm; simp at hm

theorem contracted_labelOk (h : SLOk R N G) : ∀ l ∈ contractedGraph R N G, l.LabelOk (R.contract N (loopVertices G)) := by
  intro l hl x hx
  rcases contracted_vars h hl hx with h1 | h1 | ⟨rfl, j, rfl⟩ | ⟨e, he, rfl, hx', ha⟩
  · exact .inl h1
  · exact .inr (.inl h1)
  · exact .inr (.inr (.inl ⟨_, rfl, et_auxName h.argNames⟩))
  · have hp := h.labelNames e he x hx'
    rcases ha with ⟨n, rfl, hn⟩ | ⟨n, rfl, _⟩
    · exact .inr (.inr (.inl ⟨n, rfl, auxName_contract hn hp⟩))
    · refine .inr (.inr (.inr ⟨n, rfl, fun s hs => not_args_contract h hp ?_⟩))
      simp only [List.mem_singleton] at hs
      subst hs
      rcases contracted_ends h hl with h2 | h2 | h2
      · exact .inl h2.1
      · exact .inr (.inl h2.1)
      · exact .inl h2.1

theorem crossEdge_id (vs : List Pred) (e : LEdge T) : (crossEdge R N vs e).id = e.id := by
  unfold crossEdge
  split
  · rfl
  · split <;> rfl

theorem le_foldl_max : ∀ (l : List Nat) (a : Nat), a ≤ l.foldl max a ∧ ∀ n ∈ l, n ≤ l.foldl max a
  | [], a => by simp
  | b :: l, a => by
    obtain ⟨h1, h2⟩ := le_foldl_max l (max a b)
    simp only [List.foldl_cons, List.mem_cons, forall_eq_or_imp]
    exact ⟨by omega, by omega, h2⟩

theorem contracted_ids (h : SLOk R N G) : ((contractedGraph R N G).map LEdge.id).Nodup := by
  simp only [contractedGraph, contractVertices, List.map_append, List.map_cons, List.map_nil, List.map_map]
  rw [List.nodup_append]
  have e1 : (LEdge.id ∘ crossEdge R N (loopVertices G)) = (LEdge.id : LEdge T → Nat) := funext fun e => crossEdge_id _ e
  rw [e1]
  refine ⟨(List.Sublist.map _ List.filter_sublist).nodup h.ids, by simp, ?_⟩
  intro a ha b hb hab
  simp only [List.mem_singleton, loopEdge] at hb
  obtain ⟨e, he, rfl⟩ := List.mem_map.1 ha
  have := (le_foldl_max (G.map LEdge.id) 0).2 e.id (List.mem_map.2 ⟨e, (List.mem_filter.1 he).1, rfl⟩)
  omega

theorem contracted_auxDisjoint (h : SLOk R N G) : (contractedGraph R N G).AuxDisjoint (R.contract N (loopVertices G)) := by
  intro l hl l' hl' hne x ha hx hx'
  have ns : ∀ {l : LEdge T}, x ∉ (R.contract N (loopVertices G)).stateVars l.src := fun h1 => ha.not_state _ h1
  have nn : ∀ {l : LEdge T}, x ∉ (R.contract N (loopVertices G)).nextVars l.tgt := fun h1 => ha.not_next _ h1
  rcases contracted_vars h hl hx with h1 | h1 | ⟨rfl, j, rfl⟩ | ⟨e, he, rfl, hx1, ha1⟩
  · exact ns h1
  · exact nn h1
  · rcases contracted_vars h hl' hx' with h1 | h1 | ⟨rfl, _⟩ | ⟨e, he, rfl, hx1, ha1⟩
    · exact ns h1
    · exact nn h1
    · exact hne rfl
    · have := h.labelNames e he _ hx1
      cases this
  · rcases contracted_vars h hl' hx' with h1 | h1 | ⟨rfl, j, rfl⟩ | ⟨e', he', rfl, hx2, ha2⟩
    · exact ns h1
    · exact nn h1
    · have := h.labelNames e he _ hx1
      cases this
    · exact h.aux e he e' he' (by rintro rfl; exact hne rfl) x ha1 hx1 hx2

theorem contracted_src (h : SLOk R N G) : ∀ l ∈ contractedGraph R N G, ∀ n, .src n 0 ∈ l.fla.vars →
    ∀ p, (contractedGraph R N G).Vertex p → n ∉ (R.contract N (loopVertices G)).args p := by
  rintro l hl n hx p ⟨l', hl', hp⟩
  have hpl : n.Plain := by
    rcases contracted_vars h hl hx with h1 | h1 | ⟨rfl, j, e⟩ | ⟨e, he, rfl, hx1, ha1⟩
    · obtain ⟨_, _, e⟩ := List.mem_map.1 h1; cases e
    · obtain ⟨_, _, e⟩ := List.mem_map.1 h1; cases e
    · cases e
    · exact h.labelNames e he _ hx1
  refine not_args_contract h hpl ?_
  rcases contracted_ends h hl' with h2 | h2 | h2 <;> rcases hp with rfl | rfl <;> simp [h2]

/-- The final graph has one edge of each kind, and the rules of the contracted graph. -/
theorem final_shape (h : SLOk R N G) (S : Smt T) (hin : ∃ e ∈ G, e.src = .tru) (hout : ∃ e ∈ G, e.tgt = .fls) :
    ∃ eI eL eQ, TSShape (finalGraph S R N G) N eI eL eQ ∧ (∀ e ∈ finalGraph S R N G, e = eI ∨ e = eL ∨ e = eQ) ∧
      (∀ l ∈ finalGraph S R N G, l.LabelOk (R.contract N (loopVertices G))) ∧
      (finalGraph S R N G).AuxDisjoint (R.contract N (loopVertices G)) ∧
      ∀ r, lgraphRules (R.contract N (loopVertices G)) (finalGraph S R N G) r ↔
        lgraphRules (R.contract N (loopVertices G)) (contractedGraph R N G) r := by
  have hR' := contract_wf h.contr
  generalize hR'' : R.contract N (loopVertices G) = R' at hR'
  have hl := contracted_labelOk h
  have hd := contracted_auxDisjoint h
  have hsr := contracted_src h
  rw [hR''] at hl hd hsr
  obtain ⟨K, hok⟩ := toHyper_ok hR' hl (contracted_ids h) hd hsr
  have hm := merge_ok hok
  obtain ⟨hr1, hr2⟩ := C44_toHyperGraph_rules hR' hl
  have hsh : ∀ e ∈ (mergeMultiEdges (toHyperGraph R' (contractedGraph R N G))).1, ∃ l ∈ contractedGraph R N G,
      e.src = [l.src] ∧ e.tgt = l.tgt := by
    intro e he
    obtain ⟨y, hy, h1, h2⟩ := merge_shape hok.ids he
    obtain ⟨i, l, hi, rfl⟩ := mem_toHyperGraph.1 hy
    exact ⟨l, List.mem_of_getElem? hi, h1.symm, h2.symm⟩
  have hnorm : isNormalGraph (mergeMultiEdges (toHyperGraph R' (contractedGraph R N G))).1 = true := by
    rw [isNormalGraph, List.all_eq_true]
    intro e he
    obtain ⟨l, _, h1, _⟩ := hsh e he
    simp [h1]
  have hF : finalGraph S R N G = toNormalGraph R' (mergeMultiEdges (toHyperGraph R' (contractedGraph R N G))).1 := by
    rw [← hR'']; rfl
  have hrules : ∀ r, lgraphRules R' (finalGraph S R N G) r ↔ lgraphRules R' (contractedGraph R N G) r := by
    intro r
    rw [hF, C44_toNormalGraph_rules hR' hnorm (fun e he => hm.labelOk he), ← merge_rules hok.ids, hr1]
  have hends : ∀ e ∈ finalGraph S R N G, ∃ l ∈ contractedGraph R N G, e.src = l.src ∧ e.tgt = l.tgt := by
    intro e he
    rw [hF] at he
    obtain ⟨e', he', s, hs, rfl⟩ := mem_toNormalGraph.1 he
    obtain ⟨l, hl', h1, h2⟩ := hsh e' he'
    rw [hs, List.cons.injEq] at h1
    exact ⟨l, hl', h1.1, h2⟩
  have hback : ∀ l ∈ contractedGraph R N G, ∃ e ∈ finalGraph S R N G, e.src = l.src ∧ e.tgt = l.tgt := by
    intro l hl'
    obtain ⟨i, hi⟩ := List.getElem?_of_mem hl'
    have hmem : toHyperEdge R' l i ∈ toHyperGraph R' (contractedGraph R N G) := mem_toHyperGraph.2 ⟨i, l, hi, rfl⟩
    have : ∃ e ∈ (mergeMultiEdges (toHyperGraph R' (contractedGraph R N G))).1, e.src = [l.src] ∧ e.tgt = l.tgt := by
      by_cases hrc : ∃ rc ∈ mergedRecords (toHyperGraph R' (contractedGraph R N G)), toHyperEdge R' l i ∈ rc.1
      · obtain ⟨rc, hrc, hmm⟩ := hrc
        obtain ⟨s, t, e0, h0, h2, hs, ht, hall, _⟩ := record_spec hrc
        refine ⟨rc.2, (mem_applyRecords hok.ids).2 (.inl ⟨rc, hrc, rfl⟩), ?_, ?_⟩
        · rw [hs, ← (hall _ hmm).2.1]; rfl
        · rw [ht, ← (hall _ hmm).2.2]; rfl
      · exact ⟨_, (mem_applyRecords hok.ids).2 (.inr ⟨hmem, fun rc h1 h2 => hrc ⟨rc, h1, h2⟩⟩), rfl, rfl⟩
    obtain ⟨e, he, h1, h2⟩ := this
    refine ⟨toNormalEdge R' l.src e, ?_, rfl, h2⟩
    rw [hF]
    exact mem_toNormalGraph.2 ⟨e, he, _, h1, rfl⟩
  have huniq : ∀ e ∈ finalGraph S R N G, ∀ e' ∈ finalGraph S R N G, e.src = e'.src → e.tgt = e'.tgt → e = e' := by
    intro e he e' he' h1 h2
    rw [hF] at he he'
    obtain ⟨f, hf, s, hs, rfl⟩ := mem_toNormalGraph.1 he
    obtain ⟨f', hf', s', hs', rfl⟩ := mem_toNormalGraph.1 he'
    simp only [toNormalEdge] at h1 h2
    subst h1
    rw [merge_unique hok.ids hf hf' hs rfl hs' h2.symm]
  have hnd : (finalGraph S R N G).Nodup := by
    rw [hF]
    exact List.Nodup.of_map _ (normal_ids (R := R') hm)
  obtain ⟨e1, he1, hs1⟩ := hin
  obtain ⟨e2, he2, ht2⟩ := hout
  have c1 : e1.src = .tru ∧ e1.tgt ∈ loopVertices G := by
    rcases h.cases he1 with hc | hc | hc
    · exact hc
    · rw [hs1] at hc; exact absurd hc.1 h.contr.tru
    · rw [hs1] at hc; exact absurd hc.1 h.contr.tru
  have c2 : e2.src ∈ loopVertices G ∧ e2.tgt = .fls := by
    rcases h.cases he2 with hc | hc | hc
    · rw [ht2] at hc; exact absurd hc.2 h.contr.fls
    · rw [ht2] at hc; exact absurd hc.2 h.contr.fls
    · exact hc
  obtain ⟨eI, mI, sI, tI⟩ := hback _ ((mem_contracted h).2 (.inr ⟨e1, he1, rfl, .inl c1⟩))
  obtain ⟨eQ, mQ, sQ, tQ⟩ := hback _ ((mem_contracted h).2 (.inr ⟨e2, he2, rfl, .inr c2⟩))
  obtain ⟨eL, mL, sL, tL⟩ := hback _ ((mem_contracted h).2 (.inl rfl))
  rw [(cross_in_ends h c1.1 c1.2).1] at sI
  rw [(cross_in_ends h c1.1 c1.2).2] at tI
  rw [(cross_out_ends c2.1 c2.2).1] at sQ
  rw [(cross_out_ends c2.1 c2.2).2] at tQ
  simp only [loopEdge] at sL tL
  have hall : ∀ e ∈ finalGraph S R N G, e = eI ∨ e = eL ∨ e = eQ := by
    intro e he
    obtain ⟨l, hl', h1, h2⟩ := hends e he
    rcases contracted_ends h hl' with hc | hc | hc
    · exact .inr (.inl (huniq e he eL mL (by rw [h1, sL, hc.1]) (by rw [h2, tL, hc.2])))
    · exact .inl (huniq e he eI mI (by rw [h1, sI, hc.1]) (by rw [h2, tI, hc.2]))
    · exact .inr (.inr (huniq e he eQ mQ (by rw [h1, sQ, hc.1]) (by rw [h2, tQ, hc.2])))
  refine ⟨eI, eL, eQ, shape_of_three h.newNe hnd mI mL mQ sI tI sL tL sQ tQ hall, hall, ?_, ?_, hrules⟩
  · rw [hF]; exact normal_labelOk hR' hm
  · rw [hF]; exact normal_auxDisjoint hR' hm

end

end Golem
