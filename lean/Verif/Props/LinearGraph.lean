import Verif.Lemmas.LinearGraph
import Verif.Lemmas.Smt

/-! C44: converting between hypergraphs and linear graphs is exact. -/

namespace Golem
variable {T : Theory}

theorem instances_single (s : Pred) : instances [s] = [(s, 0)] := by simp [instances, instancesAux]

theorem toNormalEdge_holds {R : PRepr} {s : Pred} {e : Edge T} (hR : R.WF) (ρ : Valuation T) :
    (∀ n ∈ R.args s, (((toNormalSubst R s e).fn (.src n 0)).eval ρ = ρ (.ver n 0))) ∧
    (∀ n ∈ R.args e.tgt, ((toNormalSubst R s e).fn (.tgt n)).eval ρ = ρ (.ver n 1)) ∧
    (∀ n k, ((toNormalSubst R s e).fn (.ver n k)).eval ρ = ρ (.ver n k)) ∧
    (∀ n, n ∉ R.args s → ((toNormalSubst R s e).fn (.src n 0)).eval ρ = ρ (.src n 0)) := by
  refine ⟨?_, ?_, ?_, ?_⟩
  · intro n hn
    have := map_fn_zip (T := T) (R.args s) (fun n => Var.src n ((0 : Nat) : Int)) (fun n => Var.ver n 0)
      (R.srcVars_nodup hR s 0) hn ((R.tgtVars e.tgt).zip ((R.args e.tgt).map fun n => Tm.var (.ver n 1)))
    exact congrArg (Tm.eval ρ) this
  · intro n hn
    simp only [toNormalSubst, PRepr.srcVars, PRepr.tgtVars]
    rw [fn_zip_skip _ _ _ (by intro m _ h; cases h), ← List.append_nil (List.zip _ _),
      map_fn_zip _ _ _ (R.tgtVars_nodup hR e.tgt) hn]
    simp [Tm.eval]
  · intro n k
    simp only [toNormalSubst, PRepr.srcVars, PRepr.tgtVars]
    rw [fn_zip_skip _ _ _ (by intro m _ h; cases h), ← List.append_nil (List.zip _ _),
      fn_zip_skip _ _ _ (by intro m _ h; cases h), fn_nil]
    simp [Tm.eval]
  · intro n hn
    simp only [toNormalSubst, PRepr.srcVars, PRepr.tgtVars]
    rw [fn_zip_skip _ _ _ (by intro m hm h; cases h; exact hn hm), ← List.append_nil (List.zip _ _),
      fn_zip_skip _ _ _ (by intro m _ h; cases h), fn_nil]
    simp [Tm.eval]

/-- C44, one edge: the linear edge relates exactly the facts the hyperedge relates. -/
theorem C44_toNormalEdge {R : PRepr} (hR : R.WF) {s : Pred} {e : Edge T} (hs : e.src = [s]) (hl : e.LabelOk R)
    (f g : Fact T) : (toNormalEdge R s e).Fires R f g ↔ e.Fires R [f] g := by
  have hsrc : ∀ ρ : Valuation T, e.srcFacts R ρ = [(s, (R.srcVars s 0).map ρ)] := by
    intro ρ; simp [Edge.srcFacts, hs, instances_single]
  constructor
  · rintro ⟨ρ, h, rfl, rfl⟩
    rw [toNormalEdge, varSubstitute_holds] at h
    refine ⟨_, h, ?_, ?_⟩
    · rw [hsrc]
      simp only [LEdge.srcFact, toNormalEdge, PRepr.stateVars, PRepr.srcVars, List.map_map, List.cons.injEq, Prod.mk.injEq,
        true_and, and_true]
      apply List.map_congr_left
      intro n hn
      exact ((toNormalEdge_holds (e := e) hR ρ).1 n hn).symm
    · simp only [LEdge.tgtFact, Edge.tgtFact, toNormalEdge, PRepr.nextVars, PRepr.tgtVars, List.map_map, Prod.mk.injEq, true_and]
      apply List.map_congr_left
      intro n hn
      exact ((toNormalEdge_holds (s := s) (e := e) hR ρ).2.1 n hn).symm
  · rintro ⟨ρ, h, hf, rfl⟩
    rw [hsrc] at hf
    simp only [List.cons.injEq, and_true] at hf
    subst hf
    classical
    let ρ' : Valuation T := fun x => match x with
      | .ver n k => if k = 0 ∧ n ∈ R.args s then ρ (.src n 0)
          else if k = 1 ∧ n ∈ R.args e.tgt then ρ (.tgt n) else ρ (.ver n k)
      | x => ρ x
    refine ⟨ρ', ?_, ?_, ?_⟩
    · rw [toNormalEdge, varSubstitute_holds]
      refine (Fla.holds_congr fun x hx => ?_).1 h
      rcases hl x hx with ⟨q, hq, hx⟩ | hx | ⟨n, rfl, hn⟩ | ⟨n, rfl, hn⟩
      · rw [hs, instances_single] at hq
        simp only [List.mem_singleton] at hq
        subst hq
        obtain ⟨n, hn, rfl⟩ := R.mem_srcVars.1 hx
        rw [show (SubstMap.fn _ (Var.src n ((0 : Nat) : Int))).eval ρ' = _ from (toNormalEdge_holds (e := e) hR ρ').1 n hn]
        simp [ρ', hn]
      · obtain ⟨n, hn, rfl⟩ := R.mem_tgtVars.1 hx
        rw [show (SubstMap.fn _ (Var.tgt n)).eval ρ' = _ from (toNormalEdge_holds (s := s) (e := e) hR ρ').2.1 n hn]
        simp [ρ', hn]
      · rw [show (SubstMap.fn _ (Var.ver n 0)).eval ρ' = _ from (toNormalEdge_holds (s := s) (e := e) hR ρ').2.2.1 n 0]
        simp [ρ', hn s]
      · rw [show (SubstMap.fn _ (Var.src n 0)).eval ρ' = _ from
          (toNormalEdge_holds (s := s) (e := e) hR ρ').2.2.2 n (hn s (by simp [hs]))]
    · simp only [LEdge.srcFact, toNormalEdge, PRepr.stateVars, PRepr.srcVars, List.map_map, Prod.mk.injEq, true_and]
      apply List.map_congr_left
      intro n hn
      simp [ρ', hn]
    · simp only [LEdge.tgtFact, Edge.tgtFact, toNormalEdge, PRepr.nextVars, PRepr.tgtVars, List.map_map, Prod.mk.injEq, true_and]
      apply List.map_congr_left
      intro n hn
      simp [ρ', hn]

theorem toHyperSubst_eval {R : PRepr} {e : LEdge T} (hR : R.WF) (ρ : Valuation T) :
    (∀ n ∈ R.args e.src, ((toHyperSubst R e).fn (.ver n 0)).eval ρ = ρ (.src n 0)) ∧
    (∀ n ∈ R.args e.tgt, ((toHyperSubst R e).fn (.ver n 1)).eval ρ = ρ (.tgt n)) ∧
    (∀ n, R.AuxName n → ∀ k, ((toHyperSubst R e).fn (.ver n k)).eval ρ = ρ (.ver n k)) ∧
    (∀ n k, ((toHyperSubst R e).fn (.src n k)).eval ρ = ρ (.src n k)) := by
  have nd : ∀ (p : Pred) (k : Int), ((R.args p).map (Var.ver · k)).Nodup := fun p k =>
    nodup_map_of_inj (fun _ _ h => by cases h; rfl) (hR.nodup p)
  refine ⟨?_, ?_, ?_, ?_⟩
  · intro n hn
    simp only [toHyperSubst, PRepr.stateVars]
    rw [map_fn_zip _ _ _ (nd _ _) hn]; simp [Tm.eval]
  · intro n hn
    simp only [toHyperSubst, PRepr.stateVars, PRepr.nextVars]
    rw [fn_zip_skip _ _ _ (by intro m _ h; cases h), ← List.append_nil (List.zip _ _), map_fn_zip _ _ _ (nd _ _) hn]
    simp [Tm.eval]
  · intro n hn k
    simp only [toHyperSubst, PRepr.stateVars, PRepr.nextVars]
    rw [fn_zip_skip _ _ _ (by intro m hm h; cases h; exact hn _ hm), ← List.append_nil (List.zip _ _),
      fn_zip_skip _ _ _ (by intro m hm h; cases h; exact hn _ hm), fn_nil]
    simp [Tm.eval]
  · intro n k
    simp only [toHyperSubst, PRepr.stateVars, PRepr.nextVars]
    rw [fn_zip_skip _ _ _ (by intro m hm h; cases h), ← List.append_nil (List.zip _ _),
      fn_zip_skip _ _ _ (by intro m hm h; cases h), fn_nil]
    simp [Tm.eval]

/-- C44, one edge, the other direction. -/
theorem C44_toHyperEdge {R : PRepr} (hR : R.WF) {e : LEdge T} {id : Nat} (hl : e.LabelOk R) (b : List (Fact T))
    (g : Fact T) : (toHyperEdge R e id).Fires R b g ↔ ∃ f, b = [f] ∧ e.Fires R f g := by
  have hsrc : ∀ ρ : Valuation T, (toHyperEdge R e id).srcFacts R ρ = [(e.src, (R.srcVars e.src 0).map ρ)] := by
    intro ρ; simp [Edge.srcFacts, toHyperEdge, instances_single]
  constructor
  · rintro ⟨ρ, h, rfl, rfl⟩
    rw [toHyperEdge, varSubstitute_holds] at h
    refine ⟨_, hsrc ρ, _, h, ?_, ?_⟩
    · simp only [LEdge.srcFact, PRepr.stateVars, PRepr.srcVars, List.map_map, Prod.mk.injEq, true_and]
      apply List.map_congr_left
      intro n hn
      exact ((toHyperSubst_eval hR ρ).1 n hn).symm
    · simp only [LEdge.tgtFact, Edge.tgtFact, toHyperEdge, PRepr.nextVars, PRepr.tgtVars, List.map_map, Prod.mk.injEq, true_and]
      apply List.map_congr_left
      intro n hn
      exact ((toHyperSubst_eval hR ρ).2.1 n hn).symm
  · rintro ⟨f, rfl, ρ, h, rfl, rfl⟩
    classical
    let ρ' : Valuation T := fun x => match x with
      | .src n k => if n ∈ R.args e.src then ρ (.ver n 0) else ρ (.src n k)
      | .tgt n => ρ (.ver n 1)
      | x => ρ x
    refine ⟨ρ', ?_, ?_, ?_⟩
    · rw [toHyperEdge, varSubstitute_holds]
      refine (Fla.holds_congr fun x hx => ?_).1 h
      rcases hl x hx with hx | hx | ⟨n, rfl, hn⟩ | ⟨n, rfl, hn⟩
      · simp only [PRepr.stateVars, List.mem_map] at hx
        obtain ⟨n, hn, rfl⟩ := hx
        rw [show (SubstMap.fn _ (Var.ver n 0)).eval ρ' = _ from (toHyperSubst_eval hR ρ').1 n hn]
        simp [ρ', hn]
      · simp only [PRepr.nextVars, List.mem_map] at hx
        obtain ⟨n, hn, rfl⟩ := hx
        rw [show (SubstMap.fn _ (Var.ver n 1)).eval ρ' = _ from (toHyperSubst_eval hR ρ').2.1 n hn]
      · rw [show (SubstMap.fn _ (Var.ver n 0)).eval ρ' = _ from (toHyperSubst_eval hR ρ').2.2.1 n hn 0]
      · rw [show (SubstMap.fn _ (Var.src n 0)).eval ρ' = _ from (toHyperSubst_eval hR ρ').2.2.2 n 0]
        simp [ρ', hn e.src (by simp)]
    · rw [hsrc]
      simp only [LEdge.srcFact, PRepr.stateVars, PRepr.srcVars, List.map_map, List.cons.injEq, Prod.mk.injEq, true_and, and_true]
      apply List.map_congr_left
      intro n hn
      simp [ρ', hn]
    · simp only [LEdge.tgtFact, Edge.tgtFact, toHyperEdge, PRepr.nextVars, PRepr.tgtVars, List.map_map, ρ', Function.comp_def]

theorem isNormalGraph_src {G : Graph T} (h : isNormalGraph G = true) {e : Edge T} (he : e ∈ G) : ∃ s, e.src = [s] := by
  have := (List.all_eq_true.1 h) e he
  simp only [beq_iff_eq] at this
  exact List.length_eq_one_iff.1 this

theorem mem_toNormalGraph {R : PRepr} {G : Graph T} {l : LEdge T} :
    l ∈ toNormalGraph R G ↔ ∃ e ∈ G, ∃ s, e.src = [s] ∧ l = toNormalEdge R s e := by
  unfold toNormalGraph
  rw [List.mem_filterMap]
  constructor
  · rintro ⟨e, he, h⟩
    split at h
    · rename_i s hs; exact ⟨e, he, s, hs, by simpa using h.symm⟩
    · simp at h
  · rintro ⟨e, he, s, hs, rfl⟩
    exact ⟨e, he, by simp [hs]⟩

/-- The labels of the linear graph obey the linear discipline. -/
theorem toNormalEdge_labelOk {R : PRepr} (hR : R.WF) {s : Pred} {e : Edge T} (hs : e.src = [s]) (hl : e.LabelOk R) :
    (toNormalEdge R s e).LabelOk R := by
  intro x hx
  rw [toNormalEdge, varSubstitute, Fla.mem_vars_subst] at hx
  obtain ⟨y, hy, hx⟩ := hx
  rcases hl y hy with ⟨q, hq, hy⟩ | hy | ⟨n, rfl, hn⟩ | ⟨n, rfl, hn⟩
  · rw [hs, instances_single] at hq
    simp only [List.mem_singleton] at hq
    subst hq
    obtain ⟨n, hn, rfl⟩ := R.mem_srcVars.1 hy
    left
    simp only [toNormalSubst, PRepr.srcVars] at hx
    rw [map_fn_zip _ _ _ (R.srcVars_nodup hR s 0) hn] at hx
    simp only [Tm.vars, List.mem_singleton] at hx
    exact List.mem_map.2 ⟨n, hn, hx.symm⟩
  · obtain ⟨n, hn, rfl⟩ := R.mem_tgtVars.1 hy
    right; left
    simp only [toNormalSubst, PRepr.srcVars, PRepr.tgtVars] at hx
    rw [fn_zip_skip _ _ _ (by intro m _ h; cases h), ← List.append_nil (List.zip _ _),
      map_fn_zip _ _ _ (R.tgtVars_nodup hR e.tgt) hn] at hx
    simp only [Tm.vars, List.mem_singleton] at hx
    exact List.mem_map.2 ⟨n, hn, hx.symm⟩
  · right; right
    simp only [toNormalSubst, PRepr.srcVars, PRepr.tgtVars] at hx
    rw [fn_zip_skip _ _ _ (by intro m _ h; cases h), ← List.append_nil (List.zip _ _),
      fn_zip_skip _ _ _ (by intro m _ h; cases h), fn_nil] at hx
    simp only [Tm.vars, List.mem_singleton] at hx
    exact .inl ⟨n, hx, hn⟩
  · right; right
    simp only [toNormalSubst, PRepr.srcVars, PRepr.tgtVars] at hx
    rw [fn_zip_skip _ _ _ (by intro m hm h; cases h; exact hn s (by simp [hs]) hm), ← List.append_nil (List.zip _ _),
      fn_zip_skip _ _ _ (by intro m _ h; cases h), fn_nil] at hx
    simp only [Tm.vars, List.mem_singleton] at hx
    exact .inr ⟨n, hx, fun s' hs' => hn s' (by simpa [hs, toNormalEdge] using hs')⟩

/-- C44. A normal hypergraph and its linear graph stand for the same ground rules. -/
theorem C44_toNormalGraph_rules {R : PRepr} (hR : R.WF) {G : Graph T} (hn : isNormalGraph G = true)
    (hl : ∀ e ∈ G, e.LabelOk R) (r : GRule T) : lgraphRules R (toNormalGraph R G) r ↔ graphRules R G r := by
  rw [lgraphRules_iff, graphRules_iff]
  constructor
  · rintro ⟨l, hlm, f, hb, hF⟩
    obtain ⟨e, he, s, hs, rfl⟩ := mem_toNormalGraph.1 hlm
    exact ⟨e, he, hb ▸ (C44_toNormalEdge hR hs (hl e he) f r.head).1 hF⟩
  · rintro ⟨e, he, hF⟩
    obtain ⟨s, hs⟩ := isNormalGraph_src hn he
    have hb := hF.src
    rw [hs] at hb
    obtain ⟨f, hf, _⟩ : ∃ f, r.body = [f] ∧ f.1 = s := by
      match hbody : r.body, hb with
      | [f], hb => exact ⟨f, rfl, by simpa using hb⟩
    exact ⟨_, mem_toNormalGraph.2 ⟨e, he, s, hs, rfl⟩, f, hf,
      (C44_toNormalEdge hR hs (hl e he) f r.head).2 (hf ▸ hF)⟩

/-- C44. So they agree on whether `false` is reachable. -/
theorem C44_toNormalGraph_unsafe {R : PRepr} (hR : R.WF) {G : Graph T} (hn : isNormalGraph G = true)
    (hl : ∀ e ∈ G, e.LabelOk R) : (toNormalGraph R G).Unsafe R ↔ G.Unsafe R := by
  rw [LGraph.unsafe_iff, Graph.Unsafe]
  have : lgraphRules R (toNormalGraph R G) = graphRules R G :=
    funext fun r => propext (C44_toNormalGraph_rules hR hn hl r)
  rw [this]

/-- C44. An UNSAFE witness of the linear graph is one of the hypergraph, unchanged (edges keep their ids). -/
theorem C44_unsafe_witness {R : PRepr} (hR : R.WF) {G : Graph T} (hl : ∀ e ∈ G, e.LabelOk R) {ds : List (DStep T)}
    (h : LUnsafeWitness R (toNormalGraph R G) ds) : UnsafeWitness R G ds where
  first := h.first
  last := h.last
  steps := by
    intro i d hi hd
    obtain ⟨l, hlm, hc, j, p, hp, hj, hjp, hF⟩ := h.steps i d hi hd
    obtain ⟨e, he, s, hs, rfl⟩ := mem_toNormalGraph.1 hlm
    refine ⟨by simp [hp, hj], e, he, hc, ?_⟩
    have : premFacts ds d.premises = [p.fact] := by simp [premFacts, hp, hjp]
    rw [this]
    exact (C44_toNormalEdge hR hs (hl e he) _ _).1 hF

/-- C44. A SAFE witness of the linear graph is one of the hypergraph, unchanged. -/
theorem C44_safe_witness {R : PRepr} (hR : R.WF) {G : Graph T} (hn : isNormalGraph G = true)
    (hl : ∀ e ∈ G, e.LabelOk R) {D : Defs T} (h : LSafeWitness R (toNormalGraph R G) D) : SafeWitness R G D where
  closed := h.closed
  tru := h.tru
  fls := h.fls
  model := by
    refine ⟨⟨⟨.tt, h.tru, fun _ => T.vT, by simp [trueFact, PRepr.baseVars, hR.tru], trivial⟩, ?_⟩, ?_⟩
    · intro r hr hb
      obtain ⟨l, hlm, f, hbody, hF⟩ := lgraphRules_iff.1 ((C44_toNormalGraph_rules hR hn hl r).2 hr)
      exact h.model l hlm f r.head hF (hb f (by simp [hbody]))
    · rintro ⟨d, hd, ρ, _, hh⟩
      simp only [falseFact] at hd
      rw [h.fls] at hd; cases hd
      exact hh
  complete := by
    rintro p ⟨e, he, hp⟩
    obtain ⟨s, hs⟩ := isNormalGraph_src hn he
    refine h.complete p ⟨_, mem_toNormalGraph.2 ⟨e, he, s, hs, rfl⟩, ?_⟩
    rcases hp with hp | hp
    · exact .inl hp
    · rw [hs] at hp; exact .inr (List.mem_singleton.1 hp)
  only := by
    intro p hp
    rcases h.only p hp with ⟨l, hlm, hp⟩ | hp
    · obtain ⟨e, he, s, hs, rfl⟩ := mem_toNormalGraph.1 hlm
      refine .inl ⟨e, he, ?_⟩
      rcases hp with hp | hp
      · exact .inl hp
      · exact .inr (by rw [hs]; exact List.mem_singleton.2 hp)
    · exact .inr hp

theorem mem_toHyperGraph {R : PRepr} {G : LGraph T} {e : Edge T} :
    e ∈ toHyperGraph R G ↔ ∃ (i : Nat) (l : LEdge T), G[i]? = some l ∧ e = toHyperEdge R l i := by
  unfold toHyperGraph
  rw [List.mem_map]
  constructor
  · rintro ⟨⟨l, i⟩, h, rfl⟩
    exact ⟨i, l, List.mk_mem_zipIdx_iff_getElem?.1 h, rfl⟩
  · rintro ⟨i, l, h, rfl⟩
    exact ⟨(l, i), List.mk_mem_zipIdx_iff_getElem?.2 h, rfl⟩

/-- C44. A linear graph and its hypergraph stand for the same ground rules, and the hypergraph is normal. -/
theorem C44_toHyperGraph_rules {R : PRepr} (hR : R.WF) {G : LGraph T} (hl : ∀ e ∈ G, e.LabelOk R) :
    (∀ r, graphRules R (toHyperGraph R G) r ↔ lgraphRules R G r) ∧ isNormalGraph (toHyperGraph R G) = true := by
  refine ⟨fun r => ?_, ?_⟩
  · rw [lgraphRules_iff, graphRules_iff]
    constructor
    · rintro ⟨e, he, hF⟩
      obtain ⟨i, l, hi, rfl⟩ := mem_toHyperGraph.1 he
      have hlm := List.mem_of_getElem? hi
      obtain ⟨f, hb, hF⟩ := (C44_toHyperEdge hR (hl l hlm) _ _).1 hF
      exact ⟨l, hlm, f, hb, hF⟩
    · rintro ⟨l, hlm, f, hb, hF⟩
      obtain ⟨i, hi⟩ := List.getElem?_of_mem hlm
      exact ⟨_, mem_toHyperGraph.2 ⟨i, l, hi, rfl⟩, (C44_toHyperEdge hR (hl l hlm) _ _).2 ⟨f, hb, hF⟩⟩
  · rw [isNormalGraph, List.all_eq_true]
    intro e he
    obtain ⟨i, l, _, rfl⟩ := mem_toHyperGraph.1 he
    rfl

end Golem
