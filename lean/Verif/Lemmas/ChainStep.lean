import Verif.Lemmas.ChainContract

/-! One step of the chain summarizer. -/

namespace Golem
variable {T : Theory}

theorem mem_innerOf {chain : List (Edge T)} {v : Pred} : v ∈ innerOf chain ↔ ∃ i e, i + 1 < chain.length ∧ chain[i]? = some e ∧ e.tgt = v := by
  unfold innerOf
  rw [List.mem_map]
  constructor
  · rintro ⟨e, he, rfl⟩
    obtain ⟨i, h1, h2⟩ := mem_dropLast_index.1 he
    exact ⟨i, e, h1, h2, rfl⟩
  · rintro ⟨i, e, h1, h2, rfl⟩
    exact ⟨e, mem_dropLast_index.2 ⟨i, h1, h2⟩, rfl⟩

section
variable {G : Graph T} {chain : List (Edge T)} {u w : Pred}

theorem LinChain.targets (h : LinChain G chain u w) : chain.map Edge.tgt = innerOf chain ++ [w] := by
  have hne := h.links.ne
  unfold innerOf
  conv => lhs; rw [← List.dropLast_concat_getLast hne]
  rw [List.map_append]
  simp only [List.map_cons, List.map_nil]
  rw [h.path.last (List.getLast?_eq_some_getLast hne)]

theorem LinChain.ends (h : LinChain G chain u w) : u ≠ w ∧ u ∉ innerOf chain ∧ w ∉ innerOf chain := by
  have hnd := h.nodup
  rw [h.targets, List.nodup_cons, List.nodup_append] at hnd
  simp only [List.mem_append, List.mem_singleton, not_or] at hnd
  exact ⟨hnd.1.2, hnd.1.1, fun hw => hnd.2.2.2 w hw w rfl rfl⟩

theorem LinChain.in_chain (h : LinChain G chain u w) {e : Edge T} (he : e ∈ G) (ht : e.tgt ∈ innerOf chain) : e ∈ chain := by
  obtain ⟨f, hf, hft⟩ := List.mem_map.1 ht
  have hf' := List.dropLast_subset _ hf
  rw [(h.inner _ ht).uniq he (h.mem f hf') rfl hft]
  exact hf'

theorem LinChain.out_chain (h : LinChain G chain u w) {e : Edge T} (he : e ∈ G) {v : Pred} (hv : v ∈ innerOf chain)
    (hs : v ∈ e.src) : e ∈ chain := by
  obtain ⟨i, f, hi, hf, rfl⟩ := mem_innerOf.1 hv
  have hn : chain[i + 1]? = some chain[i + 1] := List.getElem?_eq_getElem hi
  obtain ⟨_, o, hT⟩ := h.inner _ hv
  rw [hT.out e he hs, ← hT.out chain[i + 1] (h.mem _ (List.getElem_mem _)) (by rw [h.path.next hf hn]; simp)]
  exact List.getElem_mem _

/-- Every edge of the chain touches an inner vertex. -/
theorem LinChain.touches (h : LinChain G chain u w) {e : Edge T} (he : e ∈ chain) :
    e.tgt ∈ innerOf chain ∨ ∃ v ∈ innerOf chain, e.src = [v] := by
  obtain ⟨i, hi, hie⟩ := List.getElem_of_mem he
  have hie' : chain[i]? = some e := by rw [List.getElem?_eq_getElem hi, hie]
  have := h.len
  by_cases hl : i + 1 < chain.length
  · exact .inl (mem_innerOf.2 ⟨i, e, hl, hie', rfl⟩)
  · right
    rcases h.path.sources hie' with ⟨rfl, _⟩ | ⟨j, e', rfl, he', hs⟩
    · omega
    · exact ⟨e'.tgt, mem_innerOf.2 ⟨j, e', by omega, he', rfl⟩, hs⟩

theorem LinChain.sources (h : LinChain G chain u w) {e : Edge T} (he : e ∈ chain) : ∃ v, e.src = [v] ∧ (v = u ∨ v ∈ innerOf chain) := by
  obtain ⟨i, hi, hie⟩ := List.getElem_of_mem he
  have hie' : chain[i]? = some e := by rw [List.getElem?_eq_getElem hi, hie]
  rcases h.path.sources hie' with ⟨_, hs⟩ | ⟨j, e', rfl, he', hs⟩
  · exact ⟨u, hs, .inl rfl⟩
  · exact ⟨_, hs, .inr (mem_innerOf.2 ⟨j, e', by omega, he', rfl⟩)⟩

theorem LinChain.tgts (h : LinChain G chain u w) {e : Edge T} (he : e ∈ chain) : e.tgt = w ∨ e.tgt ∈ innerOf chain := by
  have : e.tgt ∈ chain.map Edge.tgt := List.mem_map_of_mem he
  rw [h.targets, List.mem_append, List.mem_singleton] at this
  exact this.symm

end

/-- A chain has been replaced by a summary. -/
structure ChainMerged (R : PRepr) (G G' : Graph T) (chain : List (Edge T)) (s : Edge T) (u w : Pred) : Prop where
  lin : LinChain G chain u w
  src : s.src = [u]
  tgt : s.tgt = w
  fires : ∀ f g, s.Fires R [f] g ↔ ChainFires R chain f g
  edges : ∀ e, e ∈ G' ↔ (e ∈ G ∧ e ∉ chain) ∨ e = s
  fresh : s ∉ G

/-- An isolated cycle has been removed. -/
structure CycleRemoved (G G' : Graph T) (chain : List (Edge T)) (s : Edge T) (u w : Pred) : Prop where
  cyc : CycleChain G chain u w
  src : s.src = [u]
  edges : ∀ e, e ∈ G' ↔ e ∈ G ∧ e.tgt ∉ innerOf chain ∧ ∀ v ∈ e.src, v ∉ innerOf chain
  fresh : s ∉ G

section
variable {R : PRepr} {st : GS T} {E : Elim T} {chain : List (Edge T)} {u w : Pred}

theorem mergeTrivialChain_edge (h : HPath u chain w) (hne : chain ≠ []) :
    (mergeTrivialChain R E st chain).2 = ⟨[u], w, chainLabel R E u w chain, st.freeId⟩ := by
  have h1 : (chain.head?.bind fun e => e.src.head?).getD .tru = u := by
    cases chain with
    | nil => exact absurd rfl hne
    | cons e es => simp [h.cons_inv.1]
  have h2 : (chain.getLast?.map Edge.tgt).getD .fls = w := by
    rw [List.getLast?_eq_some_getLast hne]
    exact h.last (List.getLast?_eq_some_getLast hne)
  simp only [mergeTrivialChain, h1, h2]

theorem contractTrivialChain_edge : (contractTrivialChain R E st chain).2 = (mergeTrivialChain R E st chain).2 := rfl

theorem contractTrivialChain_edges : (contractTrivialChain R E st chain).1.edges =
    (innerOf chain).foldl deleteNode (st.edges ++ [(contractTrivialChain R E st chain).2]) := rfl

theorem fires_summary (hR : R.WF) (hE : E.Exact) (hst : st.Ok R) (h : Links st.edges u chain w) {n : Nat} (f g : Fact T) :
    (⟨[u], w, chainLabel R E u w chain, n⟩ : Edge T).Fires R [f] g ↔ ChainFires R chain f g := by
  constructor
  · rintro ⟨ρ, hl, hb, hg⟩
    obtain ⟨ρ', h1, h2⟩ := hE.except.lift _ _ _ hl
    rw [chainSubst_eval hR hst h] at h2
    have := chainFla_fires hR hst h h2
    have hf : f = (u, (R.srcVars u 0).map ρ') := by
      unfold Edge.srcFacts at hb
      simp only [instances_one] at hb
      have : f = (u, (R.srcVars u 0).map ρ) := by simpa using hb
      rw [this]
      simp only [Prod.mk.injEq, true_and]
      exact List.map_congr_left fun x hx => (h1 x (List.mem_append_left _ hx)).symm
    have hg' : g = (w, (R.tgtVars w).map ρ') := by
      rw [hg]
      unfold Edge.tgtFact
      simp only [Prod.mk.injEq, true_and]
      exact List.map_congr_left fun x hx => (h1 x (List.mem_append_right _ hx)).symm
    rw [hf, hg']
    exact this
  · intro hc
    obtain ⟨ρ, h1, rfl, rfl⟩ := fires_chainFla hR hst h hc
    exact ⟨ρ, hE.except.weaker _ _ _ ((chainSubst_eval hR hst h ρ).2 h1), rfl, rfl⟩

/-- The variables of a summary. -/
theorem chainLabel_vars (hR : R.WF) (hE : E.Exact) (hst : st.Ok R) (h : LinChain st.edges chain u w) {x : Var}
    (hx : x ∈ (chainLabel R E u w chain).vars) : x ∈ R.srcVars u 0 ∨ x ∈ R.tgtVars w ∨
      (∃ v ∈ innerOf chain, x ∈ R.srcVars v 0) ∨ ∃ e ∈ chain, x ∈ e.fla.vars ∧ st.edges.Aux R x := by
  have hx := hE.except.vars _ _ x hx
  unfold varSubstitute at hx
  obtain ⟨y, hy, hxy⟩ := Fla.mem_vars_subst.1 hx
  obtain ⟨g, hg, hyg⟩ := Fla.mem_vars_conj.1 hy
  obtain ⟨e, he, rfl⟩ := List.mem_map.1 hg
  by_cases hyt : ∃ f ∈ chain.dropLast, y ∈ R.tgtVars f.tgt
  · have key : ∀ es : List (Edge T), (∃ f ∈ es.dropLast, y ∈ R.tgtVars f.tgt) → x ∈ ((chainSubst R es).fn y : Tm T).vars →
        ∃ f ∈ es.dropLast, x ∈ R.srcVars f.tgt 0 := by
      intro es
      induction es with
      | nil => rintro ⟨f, hf, _⟩; simp at hf
      | cons a es ih =>
        cases es with
        | nil => rintro ⟨f, hf, _⟩; simp at hf
        | cons b es =>
          rintro ⟨f, hf, hyf⟩ hx
          rw [List.dropLast_cons_cons] at hf ⊢
          simp only [chainSubst] at hx
          by_cases hya : y ∈ R.tgtVars a.tgt
          · obtain ⟨n, hn, rfl⟩ := R.mem_tgtVars.1 hya
            rw [tgtToSrc_mem hR hn] at hx
            simp only [Tm.vars, List.mem_singleton] at hx
            exact ⟨a, by simp, R.mem_srcVars.2 ⟨n, hn, hx⟩⟩
          · rw [tgtToSrc_skip hya] at hx
            rcases List.mem_cons.1 hf with rfl | hf
            · exact absurd hyf hya
            · obtain ⟨f', hf', h'⟩ := ih ⟨f, hf, hyf⟩ hx
              exact ⟨f', List.mem_cons_of_mem _ hf', h'⟩
    obtain ⟨f, hf, hxf⟩ := key chain hyt hxy
    exact .inr (.inr (.inl ⟨f.tgt, List.mem_map_of_mem hf, hxf⟩))
  · rw [chainSubst_nodup_skip fun f hf hyf => hyt ⟨f, hf, hyf⟩] at hxy
    simp only [Tm.vars, List.mem_singleton] at hxy
    subst hxy
    rcases hst.label e (h.mem e he) x hyg with ho | ho
    · obtain ⟨v, hv, hv'⟩ := h.sources he
      rw [hv, own_one] at ho
      rcases ho with ho | ho
      · rcases hv' with rfl | hv'
        · exact .inl ho
        · exact .inr (.inr (.inl ⟨v, hv', ho⟩))
      · rcases h.tgts he with ht | ht
        · rw [ht] at ho; exact .inr (.inl ho)
        · exfalso
          obtain ⟨f, hf, hft⟩ := List.mem_map.1 ht
          exact hyt ⟨f, hf, by rw [hft]; exact ho⟩
    · exact .inr (.inr (.inr ⟨e, he, hyg, ho⟩))

theorem contract_lin (hR : R.WF) (hE : E.Exact) (hst : st.Ok R) (h : LinChain st.edges chain u w) :
    ChainMerged R st.edges (contractTrivialChain R E st chain).1.edges chain (contractTrivialChain R E st chain).2 u w := by
  have he := mergeTrivialChain_edge (R := R) (E := E) (st := st) h.path h.links.ne
  obtain ⟨h1, h2, h3⟩ := h.ends
  refine ⟨h, ?_, ?_, ?_, ?_, ?_⟩
  · rw [contractTrivialChain_edge, he]
  · rw [contractTrivialChain_edge, he]
  · intro f g
    rw [contractTrivialChain_edge, he]
    exact fires_summary hR hE hst h.links f g
  · intro e
    rw [contractTrivialChain_edges, mem_deleteNodes, List.mem_append, List.mem_singleton, contractTrivialChain_edge]
    constructor
    · rintro ⟨h4 | h4, h5, h6⟩
      · refine .inl ⟨h4, fun h7 => ?_⟩
        rcases h.touches h7 with h8 | ⟨v, hv, h8⟩
        · exact h5 h8
        · exact h6 v (by rw [h8]; simp) hv
      · exact .inr h4
    · rintro (⟨h4, h5⟩ | h4)
      · exact ⟨.inl h4, fun h6 => h5 (h.in_chain h4 h6), fun s hs h6 => h5 (h.out_chain h4 h6 hs)⟩
      · refine ⟨.inr h4, ?_, ?_⟩
        · rw [h4, he]; exact h3
        · rw [h4, he]
          intro s hs
          simp only [List.mem_singleton] at hs
          rw [hs]; exact h2
  · intro hm
    have := hst.idlt _ hm
    rw [contractTrivialChain_edge, he] at this
    simp at this

theorem contract_cyc (hst : st.Ok R) (h : CycleChain st.edges chain u w) :
    CycleRemoved st.edges (contractTrivialChain R E st chain).1.edges chain (contractTrivialChain R E st chain).2 u w := by
  have he := mergeTrivialChain_edge (R := R) (E := E) (st := st) h.path h.ne
  refine ⟨h, ?_, ?_, ?_⟩
  · rw [contractTrivialChain_edge, he]
  · intro e
    rw [contractTrivialChain_edges, mem_deleteNodes, List.mem_append, List.mem_singleton, contractTrivialChain_edge]
    constructor
    · rintro ⟨h4 | h4, h5, h6⟩
      · exact ⟨h4, h5, h6⟩
      · exact absurd h.start (h6 u (by rw [h4, he]; simp))
    · rintro ⟨h4, h5, h6⟩; exact ⟨.inl h4, h5, h6⟩
  · intro hm
    have := hst.idlt _ hm
    rw [contractTrivialChain_edge, he] at this
    simp at this

theorem GS.Ok.freeId (h : st.Ok R) {n : Nat} (hn : st.freeId ≤ n) : GS.Ok R { st with freeId := n } :=
  ⟨h.ids, fun e he => Nat.lt_of_lt_of_le (h.idlt e he) hn, h.srcNe, h.tru, h.label, h.sep, h.gaux, h.auxg⟩

theorem foldl_deleteNode_eq (ps : List Pred) (G : Graph T) :
    ps.foldl deleteNode G = G.filter fun e => decide (e.tgt ∉ ps ∧ ∀ s ∈ e.src, s ∉ ps) := by
  induction ps generalizing G with
  | nil => exact (List.filter_eq_self.2 (by simp)).symm
  | cons p ps ih =>
    rw [List.foldl_cons, ih]
    unfold deleteNode
    rw [List.filter_filter]
    apply List.filter_congr
    intro e _
    simp only [List.mem_cons, not_or, ← Bool.decide_and, decide_eq_decide]
    constructor
    · rintro ⟨⟨h4, h5⟩, h2, h3⟩
      exact ⟨⟨h2, h4⟩, fun s hs => ⟨fun h => h3 (h ▸ hs), h5 s hs⟩⟩
    · rintro ⟨⟨h2, h4⟩, h5⟩
      exact ⟨⟨h4, fun s hs => (h5 s hs).2⟩, h2, fun h => (h5 p h).1 rfl⟩

theorem contract_cyc_ok (hR : R.WF) (hst : st.Ok R) (h : CycleChain st.edges chain u w) :
    (contractTrivialChain R E st chain).1.Ok R := by
  have he := mergeTrivialChain_edge (R := R) (E := E) (st := st) h.path h.ne
  have hs : (contractTrivialChain R E st chain).1.edges =
      st.edges.filter fun e => decide (e.tgt ∉ innerOf chain ∧ ∀ s ∈ e.src, s ∉ innerOf chain) := by
    rw [contractTrivialChain_edges, foldl_deleteNode_eq, List.filter_append, contractTrivialChain_edge, he]
    rw [List.filter_cons_of_neg, List.filter_nil, List.append_nil]
    simp only [decide_eq_true_eq, not_and]
    intro _ h'
    exact h' u (by simp) h.start
  have := (hst.sub hR (es := (contractTrivialChain R E st chain).1.edges) (by rw [hs]; exact List.filter_sublist)).freeId
    (n := st.freeId + 1) (Nat.le_succ _)
  exact this

theorem contract_lin_ok (hR : R.WF) (hE : E.Exact) (hst : st.Ok R) (h : LinChain st.edges chain u w) :
    (contractTrivialChain R E st chain).1.Ok R := by
  have he := mergeTrivialChain_edge (R := R) (E := E) (st := st) h.path h.links.ne
  have hM := contract_lin hR hE hst h
  have hee : (contractTrivialChain R E st chain).2 = ⟨[u], w, chainLabel R E u w chain, st.freeId⟩ := by
    rw [contractTrivialChain_edge, he]
  generalize hs : (contractTrivialChain R E st chain).2 = s at hM hee
  generalize hG' : (contractTrivialChain R E st chain).1.edges = G' at hM
  obtain ⟨h1, h2, h3⟩ := h.ends
  have hvert : ∀ p, Graph.Vertex G' p → st.edges.Vertex p ∧ p ∉ innerOf chain := by
    rintro p ⟨e, hem, hp⟩
    rcases (hM.edges e).1 hem with ⟨h4, h5⟩ | rfl
    · refine ⟨⟨e, h4, hp⟩, fun h6 => h5 ?_⟩
      rcases hp with rfl | hp
      · exact h.in_chain h4 h6
      · exact h.out_chain h4 h6 hp
    · rcases hp with rfl | hp
      · rw [hM.tgt]; exact ⟨h.links.vertex _ (List.mem_cons_of_mem _ (h.path.end_mem h.links.ne)), h3⟩
      · rw [hM.src] at hp
        simp only [List.mem_singleton] at hp
        subst hp; exact ⟨h.links.vertex _ (by simp), h2⟩
  have hauxUp : ∀ x, st.edges.Aux R x → Graph.Aux R G' x := by
    rintro x (hx | ⟨n, rfl, hn⟩)
    · exact .inl hx
    · exact .inr ⟨n, rfl, fun p hp => hn p (hvert p hp).1⟩
  have hauxDown : ∀ e ∈ st.edges, e ∉ chain → ∀ x ∈ e.fla.vars, Graph.Aux R G' x → st.edges.Aux R x := by
    intro e hem hec x hx ha
    rcases hst.label e hem x hx with ho | ho
    · exact absurd ha (own_not_aux hR (fun s' hs' => vertex_src ((hM.edges e).2 (.inl ⟨hem, hec⟩)) hs') ho)
    · exact ho
  have hvars : ∀ x ∈ s.fla.vars, x ∈ R.own s.src s.tgt ∨ (∃ v ∈ innerOf chain, x ∈ R.srcVars v 0) ∨
      ∃ e ∈ chain, x ∈ e.fla.vars ∧ st.edges.Aux R x := by
    intro x hx
    rw [hee] at hx ⊢
    rcases chainLabel_vars hR hE hst h hx with h4 | h4 | h4 | h4
    · exact .inl (own_one.2 (.inl h4))
    · exact .inl (own_one.2 (.inr h4))
    · exact .inr (.inl h4)
    · exact .inr (.inr h4)
  have hinnerAux : ∀ v ∈ innerOf chain, ∀ x ∈ R.srcVars v 0, Graph.Aux R G' x := by
    intro v hv x hx
    obtain ⟨n, hn, rfl⟩ := R.mem_srcVars.1 hx
    refine .inr ⟨n, rfl, fun p hp hnp => ?_⟩
    have hpv : p ≠ v := by rintro rfl; exact (hvert p hp).2 hv
    exact hR.disjoint _ _ hpv n hnp hn
  have hsG' : s ∈ G' := (hM.edges s).2 (.inr rfl)
  have hsown : ∀ x ∈ R.own s.src s.tgt, ¬ Graph.Aux R G' x := fun x hx =>
    own_not_aux hR (fun p hp => vertex_src hsG' hp) hx
  have hsep : ∀ x ∈ s.fla.vars, Graph.Aux R G' x → ∀ e ∈ st.edges, e ∉ chain → x ∉ e.fla.vars := by
    intro x hx ha e hem hec hxe
    rcases hvars x hx with h4 | ⟨v, hv, h4⟩ | ⟨f, hf, hxf, h4⟩
    · exact hsown x h4 ha
    · rcases hst.label e hem x hxe with ho | ho
      · rcases mem_own.1 ho with ⟨q, hq, ho⟩ | ho
        · have hqs := mem_of_mem_instances hq
          refine R.srcVars_disjoint hR ?_ ho h4
          intro e'
          rw [Prod.mk.injEq] at e'
          rw [e'.1] at hqs
          exact hec (h.out_chain hem hv hqs)
        · exact srcVars_not_tgt h4 ho
      · obtain ⟨i, f, _, hf, rfl⟩ := mem_innerOf.1 hv
        exact aux_not_src ho (vertex_tgt (h.mem f (List.mem_of_getElem? hf))) h4
    · exact hst.sep f (h.mem f hf) e hem (by rintro rfl; exact hec hf) x hxf h4 hxe
  have hmem : ∀ e, e ∈ (contractTrivialChain R E st chain).1.edges ↔ (e ∈ st.edges ∧ e ∉ chain) ∨ e = s := by
    rw [hG']; exact hM.edges
  have hsid : s.id = st.freeId := by rw [hee]
  refine ⟨?_, ?_, ?_, ?_, ?_, ?_, ?_, ?_⟩
  · rw [contractTrivialChain_edges]
    apply deleteNodes_ids
    unfold Graph.IdsNodup
    rw [List.map_append, List.nodup_append]
    refine ⟨hst.ids, by simp, ?_⟩
    intro a ha b hb
    obtain ⟨e, hem, rfl⟩ := List.mem_map.1 ha
    simp only [List.map_cons, List.map_nil, List.mem_singleton] at hb
    have := hst.idlt e hem
    rw [hb, hs, hsid]; omega
  · intro e hem
    show e.id < st.freeId + 1
    rcases (hmem e).1 hem with ⟨h4, _⟩ | rfl
    · have := hst.idlt e h4; omega
    · omega
  · intro e hem
    rcases (hmem e).1 hem with ⟨h4, _⟩ | rfl
    · exact hst.srcNe e h4
    · rw [hM.src]; simp
  · intro e hem
    rcases (hmem e).1 hem with ⟨h4, _⟩ | rfl
    · exact hst.tru e h4
    · rw [hM.src]; simp
  · intro e hem x hx
    rw [hG']
    rcases (hmem e).1 hem with ⟨h4, _⟩ | rfl
    · exact (hst.label e h4 x hx).imp_right (hauxUp x)
    · rcases hvars x hx with h5 | ⟨v, hv, h5⟩ | ⟨f, _, _, h5⟩
      · exact .inl h5
      · exact .inr (hinnerAux v hv x h5)
      · exact .inr (hauxUp x h5)
  · intro e hem e' hem' hne x hx ha
    rw [hG'] at ha
    rcases (hmem e).1 hem with ⟨h4, h5⟩ | rfl <;> rcases (hmem e').1 hem' with ⟨h6, h7⟩ | rfl
    · exact hst.sep e h4 e' h6 hne x hx (hauxDown e h4 h5 x hx ha)
    · intro hx'; exact hsep x hx' ha e h4 h5 hx
    · exact hsep x hx ha e' h6 h7
    · exact absurd rfl hne
  · intro e hem k hk
    show k < st.gaux
    rcases (hmem e).1 hem with ⟨h4, _⟩ | rfl
    · exact hst.gaux e h4 k hk
    · rcases hvars _ hk with h5 | ⟨v, hv, h5⟩ | ⟨f, hf, hxf, _⟩
      · exact absurd h5 own_not_ver
      · obtain ⟨_, _, e'⟩ := R.mem_srcVars.1 h5; cases e'
      · exact hst.gaux f (h.mem f hf) k hxf
  · intro e hem k hk
    show k < st.auxg
    rcases (hmem e).1 hem with ⟨h4, _⟩ | rfl
    · exact hst.auxg e h4 k hk
    · rcases hvars _ hk with h5 | ⟨v, hv, h5⟩ | ⟨f, hf, hxf, _⟩
      · exact absurd h5 own_not_ver
      · obtain ⟨_, _, e'⟩ := R.mem_srcVars.1 h5; cases e'
      · exact hst.auxg f (h.mem f hf) k hxf

/-- The number of edges decreases. -/
theorem contract_shorter (hst : st.Ok R) (hE : E.Exact) (hR : R.WF)
    (h : LinChain st.edges chain u w ∨ CycleChain st.edges chain u w) :
    (contractTrivialChain R E st chain).1.edges.length < st.edges.length := by
  have key : ∀ (e1 e2 : Edge T), e1 ≠ e2 → e1 ∈ st.edges ++ [(contractTrivialChain R E st chain).2] →
      e2 ∈ st.edges ++ [(contractTrivialChain R E st chain).2] →
      e1 ∉ (contractTrivialChain R E st chain).1.edges → e2 ∉ (contractTrivialChain R E st chain).1.edges →
      (contractTrivialChain R E st chain).1.Ok R → (contractTrivialChain R E st chain).1.edges.length < st.edges.length := by
    intro e1 e2 hne h1 h2 h3 h4 hok
    have := length_le_of_nodup (l := e1 :: e2 :: (contractTrivialChain R E st chain).1.edges)
      (G := st.edges ++ [(contractTrivialChain R E st chain).2])
      (List.nodup_cons.2 ⟨by simp [hne, h3], List.nodup_cons.2 ⟨h4, ids_nodup hok.ids⟩⟩) (by
        intro e he
        rcases List.mem_cons.1 he with rfl | he
        · exact h1
        rcases List.mem_cons.1 he with rfl | he
        · exact h2
        rw [contractTrivialChain_edges, mem_deleteNodes] at he
        exact he.1)
    simp at this
    omega
  rcases h with h | h
  · have hM := contract_lin hR hE hst h
    have hlen := h.len
    obtain ⟨e1, e2, es, hc⟩ : ∃ e1 e2 es, chain = e1 :: e2 :: es := by
      match chain, hlen with
      | e1 :: e2 :: es, _ => exact ⟨e1, e2, es, rfl⟩
    have hnd := h.nodup
    have m1 : e1 ∈ chain := by rw [hc]; simp
    have m2 : e2 ∈ chain := by rw [hc]; simp
    have hdel : ∀ e ∈ chain, e ∉ (contractTrivialChain R E st chain).1.edges := by
      intro e he hem
      rcases (hM.edges e).1 hem with ⟨_, h5⟩ | h5
      · exact h5 he
      · exact hM.fresh (h5 ▸ h.mem e he)
    refine key e1 e2 ?_ (List.mem_append_left _ (h.mem e1 m1)) (List.mem_append_left _ (h.mem e2 m2)) (hdel e1 m1) (hdel e2 m2)
      (contract_lin_ok hR hE hst h)
    rintro rfl
    rw [hc] at hnd
    simp at hnd
  · have hC := contract_cyc (E := E) hst h
    obtain ⟨i, o, s, hT, _⟩ := h.closed u h.start
    have h1 : i ∉ (contractTrivialChain R E st chain).1.edges := fun hm => ((hC.edges i).1 hm).2.1 (by rw [hT.ti]; exact h.start)
    have h2 : (contractTrivialChain R E st chain).2 ∉ (contractTrivialChain R E st chain).1.edges :=
      fun hm => hC.fresh ((hC.edges _).1 hm).1
    refine key i _ ?_ (List.mem_append_left _ hT.mi) (List.mem_append_right _ (by simp)) h1 h2 (contract_cyc_ok hR hst h)
    intro e
    exact hC.fresh (e ▸ hT.mi)

/-! ### Derivable facts -/

theorem ChainFires.path {R : PRepr} {es : List (Edge T)} {u w : Pred} {f g : Fact T} (h : HPath u es w) (hf : f.1 = u)
    (hc : ChainFires R es f g) : g.1 = w := by
  induction es generalizing u f with
  | nil => cases h; cases hc; exact hf
  | cons e es ih =>
    obtain ⟨k, h1, h2⟩ := hc
    exact ih h.cons_inv.2 h1.tgt h2

theorem HPath.split {u w : Pred} {as bs : List (Edge T)} (h : HPath u (as ++ bs) w) : ∃ v, HPath u as v ∧ HPath v bs w := by
  induction as generalizing u with
  | nil => exact ⟨u, .nil _, h⟩
  | cons a as ih =>
    obtain ⟨v, h1, h2⟩ := ih h.cons_inv.2
    exact ⟨v, .cons h.cons_inv.1 h1, h2⟩

theorem merged_derivable {G G' : Graph T} {s : Edge T} (h : ChainMerged R G G' chain s u w) (htru : .tru ∉ innerOf chain)
    {f : Fact T} (hf : f.1 ∉ innerOf chain) : Derivable (graphRules R G) f ↔ Derivable (graphRules R G') f := by
  have hl := h.lin
  constructor
  · intro hd
    let Q : Fact T → Prop := fun f =>
      (f.1 ∉ innerOf chain → Derivable (graphRules R G') f) ∧
      (f.1 ∈ innerOf chain → ∃ pre post f0, chain = pre ++ post ∧ pre ≠ [] ∧ f0.1 = u ∧ Derivable (graphRules R G') f0 ∧
        ChainFires R pre f0 f)
    have hQ : SatisfiesRules (graphRules R G) Q := by
      refine ⟨⟨fun _ => .entry, fun h' => absurd h' htru⟩, ?_⟩
      rintro ⟨b, hd⟩ hr hb
      obtain ⟨e, he, hfire⟩ := graphRules_iff.1 hr
      simp only at hb hfire ⊢
      have hdt := hfire.tgt
      by_cases hec : e ∈ chain
      · obtain ⟨pre, post, hsplit⟩ := List.append_of_mem hec
        -- the edges up to and including `e` derive the new fact
        have hpre : ∃ f0, f0.1 = u ∧ Derivable (graphRules R G') f0 ∧ ChainFires R (pre ++ [e]) f0 hd := by
          have hpath := hl.path
          rw [hsplit] at hpath
          obtain ⟨v, hp1, hp2⟩ := hpath.split
          obtain ⟨fv, rfl, hfv⟩ := fires_one hfire hp2.cons_inv.1
          have hq := hb fv (by simp)
          cases hpn : pre with
          | nil =>
            rw [hpn] at hp1
            cases hp1
            exact ⟨fv, hfv, hq.1 (by rw [hfv]; exact hl.ends.2.1), ⟨hd, hfire, rfl⟩⟩
          | cons p0 ps =>
            have hpne : pre ≠ [] := by rw [hpn]; simp
            have hvin : v ∈ innerOf chain := by
              have hlast := hp1.last (List.getLast?_eq_some_getLast hpne)
              rw [← hlast]
              unfold innerOf
              rw [hsplit, List.dropLast_append_of_ne_nil (by simp)]
              exact List.mem_map_of_mem (List.mem_append_left _ (List.getLast_mem _))
            obtain ⟨pre', post', f0, hs', hne', hf0, hd0, hc0⟩ := hq.2 (by rw [hfv]; exact hvin)
            have hlen : pre'.length = pre.length := by
              have hpath' := hl.path
              rw [hs'] at hpath'
              obtain ⟨v', hp1', _⟩ := hpath'.split
              have hv' : v' = v := by rw [← hfv]; exact (hc0.path hp1' hf0).symm
              subst hv'
              have hnd := (List.nodup_cons.1 hl.nodup).2
              have hl1 := hp1.last (List.getLast?_eq_some_getLast hpne)
              have hl2 := hp1'.last (List.getLast?_eq_some_getLast hne')
              have hp0 : 0 < pre.length := List.length_pos_iff.2 hpne
              have hp0' : 0 < pre'.length := List.length_pos_iff.2 hne'
              have g1 : (chain.map Edge.tgt)[pre.length - 1]? = some v' := by
                rw [List.getElem?_map, hsplit, List.getElem?_append_left (by omega), ← List.getLast?_eq_getElem?,
                  List.getLast?_eq_some_getLast hpne, Option.map_some, hl1]
              have g2 : (chain.map Edge.tgt)[pre'.length - 1]? = some v' := by
                rw [List.getElem?_map, hs', List.getElem?_append_left (by omega), ← List.getLast?_eq_getElem?,
                  List.getLast?_eq_some_getLast hne', Option.map_some, hl2]
              have := (List.getElem?_inj (List.getElem?_lt g1) hnd).1 (g1.trans g2.symm)
              omega
            have hpp : pre' = pre := by
              have := hs'.symm.trans hsplit
              exact (List.append_inj this hlen).1
            rw [← hpn]
            subst hpp
            exact ⟨f0, hf0, hd0, ChainFires.append.2 ⟨fv, hc0, hd, hfire, rfl⟩⟩
        obtain ⟨f0, hf0, hd0, hc0⟩ := hpre
        refine ⟨fun hn => ?_, fun _ => ⟨pre ++ [e], post, f0, by rw [hsplit]; simp, by simp, hf0, hd0, hc0⟩⟩
        have hpn : post = [] := by
          cases hp : post with
          | nil => rfl
          | cons p0 ps =>
            exfalso
            apply hn
            rw [hdt]
            unfold innerOf
            rw [hsplit, hp, List.dropLast_append_of_ne_nil (by simp), List.dropLast_cons_cons]
            exact List.mem_map_of_mem (by simp)
        refine derivable_fires ((h.edges s).2 (.inr rfl)) ((h.fires f0 hd).2 ?_) (by simpa using hd0)
        rw [hsplit, hpn]
        exact hc0
      · have he' : e ∈ G' := (h.edges e).2 (.inl ⟨he, hec⟩)
        refine ⟨fun _ => derivable_fires he' hfire fun f hf => (hb f hf).1 fun hin => ?_, fun hin => ?_⟩
        · have : f.1 ∈ e.src := by rw [← hfire.src]; exact List.mem_map_of_mem hf
          exact hec (hl.out_chain he hin this)
        · rw [hdt] at hin
          exact absurd (hl.in_chain he hin) hec
    exact (hd.sound hQ).1 hf
  · intro hd
    refine Derivable.sound (M := Derivable (graphRules R G)) ⟨.entry, ?_⟩ hd
    rintro ⟨b, hd⟩ hr hb
    obtain ⟨e, he, hfire⟩ := graphRules_iff.1 hr
    simp only at hb hfire ⊢
    rcases (h.edges e).1 he with ⟨he, _⟩ | rfl
    · exact derivable_fires he hfire hb
    · obtain ⟨fu, rfl, hfu⟩ := fires_one hfire h.src
      have hc := (h.fires fu hd).1 hfire
      have hd0 := hb fu (by simp)
      have : ∀ (es : List (Edge T)) (f g : Fact T), (∀ e ∈ es, e ∈ G) → Derivable (graphRules R G) f → ChainFires R es f g →
          Derivable (graphRules R G) g := by
        intro es
        induction es with
        | nil => intro f g _ hf hc; cases hc; exact hf
        | cons a es ih =>
          intro f g hm hf ⟨k, h1, h2⟩
          exact ih k g (fun e he => hm e (List.mem_cons_of_mem _ he))
            (derivable_fires (hm a (by simp)) h1 (by simpa using hf)) h2
      exact this chain fu hd hl.mem hd0 hc

/-- An isolated cycle derives nothing. -/
theorem cycle_derivable {G G' : Graph T} {s : Edge T} (h : CycleRemoved G G' chain s u w) (htru : .tru ∉ innerOf chain)
    (f : Fact T) : Derivable (graphRules R G) f ↔ Derivable (graphRules R G') f := by
  constructor
  · intro hd
    have hQ : SatisfiesRules (graphRules R G) fun f => f.1 ∉ innerOf chain ∧ Derivable (graphRules R G') f := by
      refine ⟨⟨htru, .entry⟩, ?_⟩
      rintro ⟨b, hd⟩ hr hb
      obtain ⟨e, he, hfire⟩ := graphRules_iff.1 hr
      simp only at hb hfire ⊢
      have hsrc : ∀ v ∈ e.src, v ∉ innerOf chain := by
        intro v hv
        obtain ⟨f, hf, rfl⟩ := fires_body_mem hfire hv
        exact (hb f hf).1
      have htgt : e.tgt ∉ innerOf chain := by
        intro hin
        obtain ⟨i, o, s, hT, hi, hs, _⟩ := h.cyc.closed _ hin
        rw [hT.inc e he rfl] at hsrc
        exact hsrc s (by rw [hi]; simp) hs
      refine ⟨by rw [hfire.tgt]; exact htgt, ?_⟩
      exact derivable_fires ((h.edges e).2 ⟨he, htgt, hsrc⟩) hfire fun f hf => (hb f hf).2
    exact (hd.sound hQ).2
  · exact Derivable.mono fun r hr => by
      obtain ⟨e, he, hfire⟩ := graphRules_iff.1 hr
      exact graphRules_iff.2 ⟨e, ((h.edges e).1 he).1, hfire⟩

/-! ### Trivial vertices -/

/-- Contracting makes no vertex trivial, and the end points of the summary are not trivial afterwards. -/
theorem merged_triv {G G' : Graph T} {s : Edge T} (h : ChainMerged R G G' chain s u w) {z : Pred} (hz : IsTriv G' z) :
    IsTriv G z ∧ z ≠ u ∧ z ≠ w := by
  obtain ⟨i, o, hT⟩ := hz
  have hl := h.lin
  obtain ⟨huw, hu, hw⟩ := hl.ends
  have hsG : s ∈ G' := (h.edges s).2 (.inr rfl)
  obtain ⟨first, rest, hfirst⟩ : ∃ first rest, chain = first :: rest := by
    cases hc : chain with
    | nil => exact absurd hc hl.links.ne
    | cons a b => exact ⟨a, b, rfl⟩
  have hfsrc : first.src = [u] := by have := hl.path; rw [hfirst] at this; exact this.cons_inv.1
  have hfm : first ∈ chain := by rw [hfirst]; simp
  -- `z` is no inner vertex
  have hzin : z ∉ innerOf chain := by
    intro hin
    rcases (h.edges i).1 hT.mi with ⟨h1, h2⟩ | h1
    · exact h2 (hl.in_chain h1 (by rw [hT.ti]; exact hin))
    · have := hT.ti
      rw [h1, h.tgt] at this
      exact hw (this ▸ hin)
  -- the last edge of the chain
  have hlast : chain.getLast hl.links.ne ∈ chain := List.getLast_mem _
  have hlt : (chain.getLast hl.links.ne).tgt = w := hl.path.last (List.getLast?_eq_some_getLast _)
  have hzw : z ≠ w := by
    rintro rfl
    have his : i = s := (hT.inc s hsG h.tgt).symm
    have hos : o ≠ s := fun e => hT.ne (his.trans e.symm)
    obtain ⟨ho, hoc⟩ := ((h.edges o).1 hT.mo).resolve_right hos
    apply hl.last
    obtain ⟨v, hv, hv'⟩ := hl.sources hlast
    refine ⟨chain.getLast hl.links.ne, o, hl.mem _ hlast, ho, hlt, ?_, ?_, hT.so, ⟨v, hv, ?_⟩, ?_⟩
    · intro e he het
      by_cases hec : e ∈ chain
      · refine unique_of_count (g := Edge.tgt) (b := z) ?_ hec hlast het hlt
        exact List.nodup_iff_count.1 (List.nodup_cons.1 hl.nodup).2 _
      · have := hT.inc e ((h.edges e).2 (.inl ⟨he, hec⟩)) het
        rw [his] at this
        exact absurd (this ▸ he) h.fresh
    · intro e he hes
      by_cases hec : e ∈ chain
      · obtain ⟨v', hv1, hv2⟩ := hl.sources hec
        rw [hv1] at hes
        simp only [List.mem_singleton] at hes
        subst hes
        rcases hv2 with rfl | hv2
        · exact absurd rfl huw
        · exact absurd hv2 hw
      · exact hT.out e ((h.edges e).2 (.inl ⟨he, hec⟩)) hes
    · intro hvo
      rcases hl.touches hlast with h1 | ⟨v', h1, h2⟩
      · rw [hlt] at h1; exact hw h1
      · rw [hv] at h2
        simp at h2
        subst h2
        exact hoc (hl.in_chain ho (by rw [← hvo]; exact h1))
    · intro e
      exact hoc (e ▸ hlast)
  have hzu : z ≠ u := by
    rintro rfl
    have hos : o = s := (hT.out s hsG (by rw [h.src]; simp)).symm
    have his : i ≠ s := fun e => hT.ne (e.trans hos.symm)
    obtain ⟨hi, hic⟩ := ((h.edges i).1 hT.mi).resolve_right his
    obtain ⟨x, hx, hxo⟩ := hT.si
    rw [hos, h.tgt] at hxo
    have htriv : Triv G z i first := by
      refine ⟨hi, hl.mem _ hfm, hT.ti, ?_, ?_, hfsrc, ⟨x, hx, ?_⟩, ?_⟩
      · intro e he het
        by_cases hec : e ∈ chain
        · exfalso
          rcases hl.tgts hec with h1 | h1
          · exact huw (het.symm.trans h1)
          · rw [het] at h1; exact hu h1
        · exact hT.inc e ((h.edges e).2 (.inl ⟨he, hec⟩)) het
      · intro e he hes
        by_cases hec : e ∈ chain
        · obtain ⟨k, hk, hke⟩ := List.getElem_of_mem hec
          have hk' : chain[k]? = some e := by rw [List.getElem?_eq_getElem hk, hke]
          rcases hl.path.sources hk' with ⟨rfl, _⟩ | ⟨j, e', rfl, he', hs⟩
          · rw [hfirst] at hk'; simpa using hk'.symm
          · exfalso
            rw [hs] at hes
            simp only [List.mem_singleton] at hes
            exact hu (mem_innerOf.2 ⟨j, e', by omega, he', hes.symm⟩)
        · have := hT.out e ((h.edges e).2 (.inl ⟨he, hec⟩)) hes
          rw [hos] at this
          exact absurd (this ▸ he) h.fresh
      · rintro rfl
        rcases hl.tgts hfm with h1 | h1
        · exact hxo h1
        · exact hic (hl.out_chain hi h1 (by rw [hx]; simp))
      · rintro rfl; exact hic hfm
    rcases hl.first with h1 | ⟨i', o', h1, h2⟩
    · exact h1 ⟨i, first, htriv⟩
    · have := h1.inc i hi hT.ti
      rw [← this, hx] at h2
      simp at h2
      exact hxo h2
  refine ⟨?_, hzu, hzw⟩
  have his : i ≠ s := by rintro rfl; exact hzw (hT.ti.symm.trans h.tgt)
  have hos : o ≠ s := by
    rintro rfl
    have := hT.so
    rw [h.src] at this
    simp at this
    exact hzu this.symm
  obtain ⟨hi, _⟩ := ((h.edges i).1 hT.mi).resolve_right his
  obtain ⟨ho, _⟩ := ((h.edges o).1 hT.mo).resolve_right hos
  refine ⟨i, o, hi, ho, hT.ti, ?_, ?_, hT.so, hT.si, hT.ne⟩
  · intro e he het
    refine hT.inc e ((h.edges e).2 (.inl ⟨he, fun hec => ?_⟩)) het
    rcases hl.tgts hec with h1 | h1
    · exact hzw (het.symm.trans h1)
    · rw [het] at h1; exact hzin h1
  · intro e he hes
    refine hT.out e ((h.edges e).2 (.inl ⟨he, fun hec => ?_⟩)) hes
    obtain ⟨v, hv, hv'⟩ := hl.sources hec
    rw [hv] at hes
    simp only [List.mem_singleton] at hes
    subst hes
    rcases hv' with h1 | h1
    · exact hzu h1
    · exact hzin h1

theorem cycle_triv {G G' : Graph T} {s : Edge T} (h : CycleRemoved G G' chain s u w) {z : Pred} (hz : IsTriv G' z) :
    IsTriv G z := by
  obtain ⟨i, o, hT⟩ := hz
  obtain ⟨hi, hi1, _⟩ := (h.edges i).1 hT.mi
  obtain ⟨ho, _, _⟩ := (h.edges o).1 hT.mo
  have hzin : z ∉ innerOf chain := by rw [← hT.ti]; exact hi1
  have hin : ∀ e ∈ G, e.tgt ∉ innerOf chain → ∀ v ∈ e.src, v ∉ innerOf chain := by
    intro e he hn v hv hvin
    obtain ⟨i', o', s', hT', _, _, ho'⟩ := h.cyc.closed v hvin
    rw [← hT'.out e he hv] at ho'
    exact hn ho'
  refine ⟨i, o, hi, ho, hT.ti, ?_, ?_, hT.so, hT.si, hT.ne⟩
  · intro e he het
    have hn : e.tgt ∉ innerOf chain := by rw [het]; exact hzin
    exact hT.inc e ((h.edges e).2 ⟨he, hn, hin e he hn⟩) het
  · intro e he hes
    have hn : e.tgt ∉ innerOf chain := by
      intro h1
      obtain ⟨i', o', s', hT', hi', hs', _⟩ := h.cyc.closed _ h1
      rw [hT'.inc e he rfl, hi'] at hes
      simp only [List.mem_singleton] at hes
      subst hes; exact hzin hs'
    exact hT.out e ((h.edges e).2 ⟨he, hn, hin e he hn⟩) hes

end
end Golem
