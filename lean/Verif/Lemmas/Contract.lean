import Verif.Lemmas.Merge
import Verif.Lemmas.Transformers.Unreachable

namespace Golem
variable {T : Theory}

/-- Auxiliary variables of a graph: version-zero variables that belong to no predicate, and source variables left over from
predicates that are no longer vertices. -/
def Graph.Aux (R : PRepr) (G : Graph T) (x : Var) : Prop :=
  (∃ n, x = .ver n 0 ∧ R.AuxName n) ∨ ∃ n, x = .src n 0 ∧ ∀ p, G.Vertex p → n ∉ R.args p

/-- Names of generated auxiliary variables are no argument names. -/
def PRepr.FreshNames (R : PRepr) : Prop := ∀ k, R.AuxName (.gaux k) ∧ R.AuxName (.auxg k) ∧ R.AuxName (.paux k)

/-- The invariant of hypergraphs under transformations. -/
structure GS.Ok (R : PRepr) (st : GS T) : Prop where
  ids : st.edges.IdsNodup
  idlt : ∀ e ∈ st.edges, e.id < st.freeId
  srcNe : ∀ e ∈ st.edges, e.src ≠ []
  tru : ∀ e ∈ st.edges, 1 < e.src.length → .tru ∉ e.src
  label : ∀ e ∈ st.edges, ∀ x ∈ e.fla.vars, x ∈ R.own e.src e.tgt ∨ st.edges.Aux R x
  sep : ∀ e ∈ st.edges, ∀ e' ∈ st.edges, e ≠ e' → ∀ x ∈ e.fla.vars, st.edges.Aux R x → x ∉ e'.fla.vars
  gaux : ∀ e ∈ st.edges, ∀ k, .ver (.gaux k) 0 ∈ e.fla.vars → k < st.gaux
  auxg : ∀ e ∈ st.edges, ∀ k, .ver (.auxg k) 0 ∈ e.fla.vars → k < st.auxg

theorem own_not_aux {R : PRepr} (hR : R.WF) {G : Graph T} {ss : List Pred} {t : Pred} (hs : ∀ s ∈ ss, G.Vertex s) {x : Var}
    (hx : x ∈ R.own ss t) : ¬ G.Aux R x := by
  rintro (⟨n, rfl, _⟩ | ⟨n, rfl, hn⟩)
  · exact own_not_ver hx
  · rcases mem_own.1 hx with ⟨q, hq, hx⟩ | hx
    · obtain ⟨m, hm, e⟩ := R.mem_srcVars.1 hx
      rw [Var.src.injEq] at e
      exact hn _ (hs _ (mem_of_mem_instances hq)) (e.1 ▸ hm)
    · obtain ⟨_, _, e⟩ := R.mem_tgtVars.1 hx; cases e

theorem vertex_src {G : Graph T} {e : Edge T} (he : e ∈ G) {s : Pred} (hs : s ∈ e.src) : G.Vertex s := ⟨e, he, .inr hs⟩
theorem vertex_tgt {G : Graph T} {e : Edge T} (he : e ∈ G) : G.Vertex e.tgt := ⟨e, he, .inl rfl⟩

theorem Graph.Vertex.mono {G G' : Graph T} (h : ∀ e ∈ G, e ∈ G') {p : Pred} : G.Vertex p → G'.Vertex p := by
  rintro ⟨e, he, h'⟩; exact ⟨e, h e he, h'⟩

/-- Labels of an invariant graph are as the conversions to linear graphs need them. -/
theorem GS.Ok.labelOk {R : PRepr} {st : GS T} (h : st.Ok R) {e : Edge T} (he : e ∈ st.edges) : e.LabelOk R := by
  intro x hx
  rcases h.label e he x hx with ho | ⟨n, rfl, hn⟩ | ⟨n, rfl, hn⟩
  · rcases mem_own.1 ho with h | h
    · exact .inl h
    · exact .inr (.inl h)
  · exact .inr (.inr (.inl ⟨n, rfl, hn⟩))
  · exact .inr (.inr (.inr ⟨n, rfl, fun s hs => hn s (vertex_src he hs)⟩))

/-- Removing edges keeps the invariant. -/
theorem GS.Ok.sub {R : PRepr} (hR : R.WF) {st : GS T} (h : st.Ok R) {es : List (Edge T)} (hs : es.Sublist st.edges) :
    GS.Ok R { st with edges := es } := by
  have hm : ∀ e ∈ es, e ∈ st.edges := fun e he => hs.subset he
  have haux : ∀ e ∈ es, ∀ x ∈ e.fla.vars, Graph.Aux R es x → st.edges.Aux R x := by
    intro e he x hx ha
    rcases h.label e (hm e he) x hx with ho | ho
    · exact absurd ha (own_not_aux hR (fun s hs => vertex_src he hs) ho)
    · exact ho
  have haux' : ∀ x, st.edges.Aux R x → Graph.Aux R es x := by
    rintro x (h | ⟨n, rfl, hn⟩)
    · exact .inl h
    · exact .inr ⟨n, rfl, fun p hp => hn p (hp.mono hm)⟩
  refine ⟨(hs.map Edge.id).nodup h.ids, fun e he => h.idlt e (hm e he), fun e he => h.srcNe e (hm e he),
    fun e he => h.tru e (hm e he), fun e he x hx => ?_, fun e he e' he' hne x hx ha => ?_, fun e he => h.gaux e (hm e he),
    fun e he => h.auxg e (hm e he)⟩
  · exact (h.label e (hm e he) x hx).imp_right (haux' x)
  · exact h.sep e (hm e he) e' (hm e' he') hne x hx (haux e he x hx ha)

/-! ### One pair of edges -/

/-- A pair of edges that may be merged. -/
structure PairOk (G : Graph T) (u : Pred) (inc out : Edge T) : Prop where
  mi : inc ∈ G
  mo : out ∈ G
  isrc : inc.src = [u]
  ne : u ≠ inc.tgt
  once : out.src.count inc.tgt = 1
  notin : u ∉ out.src
  tgt : out.tgt ≠ inc.tgt

theorem PairOk.mono {G G' : Graph T} {u : Pred} {inc out : Edge T} (h : PairOk G u inc out) (hm : ∀ e ∈ G, e ∈ G') :
    PairOk G' u inc out := ⟨hm _ h.mi, hm _ h.mo, h.isrc, h.ne, h.once, h.notin, h.tgt⟩

theorem instances_one (u : Pred) : instances [u] = [(u, 0)] := rfl

/-- The same, but the outgoing edge may be a self loop. -/
structure MergePair (G : Graph T) (u : Pred) (inc out : Edge T) : Prop where
  mi : inc ∈ G
  mo : out ∈ G
  isrc : inc.src = [u]
  ne : u ≠ inc.tgt
  once : out.src.count inc.tgt = 1
  notin : u ∉ out.src
  dist : inc ≠ out

theorem PairOk.pair {G : Graph T} {u : Pred} {inc out : Edge T} (h : PairOk G u inc out) : MergePair G u inc out :=
  ⟨h.mi, h.mo, h.isrc, h.ne, h.once, h.notin, by rintro rfl; exact h.tgt rfl⟩

theorem MergePair.mergeOk {R : PRepr} (hR : R.WF) {st : GS T} (hst : st.Ok R) {u : Pred} {inc out : Edge T}
    (h : MergePair st.edges u inc out) : MergeOk R u inc out := by
  have hvu : st.edges.Vertex u := vertex_src h.mi (by rw [h.isrc]; simp)
  have hvv : st.edges.Vertex inc.tgt := vertex_tgt h.mi
  have hne : inc ≠ out := h.dist
  have hsrcOut : ∀ s ∈ out.src, st.edges.Vertex s := fun s hs => vertex_src h.mo hs
  have auxNotSrc : ∀ {x : Var} {p : Pred} {i : Nat}, st.edges.Aux R x → st.edges.Vertex p → x ∉ R.srcVars p i := by
    rintro x p i (⟨n, rfl, _⟩ | ⟨n, rfl, hn⟩) hp hx
    · obtain ⟨_, _, e⟩ := R.mem_srcVars.1 hx; cases e
    · obtain ⟨m, hm, e⟩ := R.mem_srcVars.1 hx
      rw [Var.src.injEq] at e
      exact hn p hp (e.1 ▸ hm)
  have ownInc : ∀ x, x ∈ R.own inc.src inc.tgt → x ∈ R.srcVars u 0 ∨ x ∈ R.tgtVars inc.tgt := by
    intro x hx
    rw [h.isrc] at hx
    simpa [mem_own, instances_one] using hx
  have uNotOwnOut : ∀ x ∈ R.srcVars u 0, x ∉ R.own out.src out.tgt := by
    intro x hx ho
    rcases mem_own.1 ho with ⟨q, hq, hx'⟩ | hx'
    · refine R.srcVars_disjoint hR ?_ hx' hx
      intro e; rw [Prod.mk.injEq] at e
      exact h.notin (e.1 ▸ mem_of_mem_instances hq)
    · obtain ⟨_, _, rfl⟩ := R.mem_tgtVars.1 hx'
      obtain ⟨_, _, e⟩ := R.mem_srcVars.1 hx; cases e
  have outU : ∀ x ∈ out.fla.vars, x ∉ R.srcVars u 0 := by
    intro x hx hu
    rcases hst.label out h.mo x hx with ho | ho
    · exact uNotOwnOut x hu ho
    · exact auxNotSrc ho hvu hu
  refine ⟨h.isrc, h.ne, h.once, h.notin, hst.tru out h.mo, ?_, ?_, outU, ?_⟩
  · intro x hx hv
    rcases hst.label inc h.mi x hx with ho | ho
    · rcases ownInc x ho with ho | ho
      · exact R.srcVars_disjoint hR (by simp [h.ne]) ho hv
      · obtain ⟨_, _, rfl⟩ := R.mem_tgtVars.1 ho
        obtain ⟨_, _, e⟩ := R.mem_srcVars.1 hv; cases e
    · exact auxNotSrc ho hvv hv
  · intro x hx ht
    rcases hst.label inc h.mi x hx with ho | ho
    · rcases ownInc x ho with ho | ho
      · exact ⟨fun h' => outU x h' ho, uNotOwnOut x ho⟩
      · exact absurd ho ht
    · exact ⟨hst.sep inc h.mi out h.mo hne x hx ho, fun h' => own_not_aux hR hsrcOut h' ho⟩
  · intro htgt x hx hv
    rcases hst.label out h.mo x hx with ho | ho
    · obtain ⟨n, hn, rfl⟩ := R.mem_tgtVars.1 hv
      rcases mem_own.1 ho with ⟨q, _, ho⟩ | ho
      · obtain ⟨_, _, e⟩ := R.mem_srcVars.1 ho; cases e
      · obtain ⟨m, hm, e⟩ := R.mem_tgtVars.1 ho
        cases e
        exact hR.disjoint _ _ htgt n hm hn
    · obtain ⟨n, hn, rfl⟩ := R.mem_tgtVars.1 hv
      rcases ho with ⟨_, e, _⟩ | ⟨_, e, _⟩ <;> cases e

theorem PairOk.mergeOk {R : PRepr} (hR : R.WF) {st : GS T} (hst : st.Ok R) {u : Pred} {inc out : Edge T}
    (h : PairOk st.edges u inc out) : MergeOk R u inc out := h.pair.mergeOk hR hst

theorem mem_mergeSources_fst {u v : Pred} {srcs : List Pred} {s : Pred} (hs : s ∈ mergeSources u v srcs) :
    s = u ∨ (s ∈ srcs ∧ s ≠ v) := by
  have base : ∀ s ∈ srcs.map (fun p => if p = v then u else p), s = u ∨ (s ∈ srcs ∧ s ≠ v) := by
    intro s hs
    obtain ⟨p, hp, rfl⟩ := List.mem_map.1 hs
    by_cases h : p = v
    · simp [h]
    · simp [h, hp]
  unfold mergeSources at hs
  simp only at hs
  split at hs
  · rename_i hu
    split at hs
    · simp at hs; exact .inl (hs.trans hu.symm)
    · exact base s (List.mem_filter.1 hs).1
  · exact base s hs

theorem mergeSources_ne {u v : Pred} {srcs : List Pred} (h : srcs ≠ []) : mergeSources u v srcs ≠ [] := by
  unfold mergeSources
  simp only
  split
  · split
    · simp
    · rename_i h'; simpa using h'
  · simpa using h

theorem mergeSources_tru {u v : Pred} {srcs : List Pred} (h : 1 < srcs.length → Pred.tru ∉ srcs)
    (hl : 1 < (mergeSources u v srcs).length) : Pred.tru ∉ mergeSources u v srcs := by
  unfold mergeSources at hl ⊢
  simp only at hl ⊢
  by_cases hu : u = .tru
  · rw [if_pos hu] at hl ⊢
    split
    · rename_i h'; rw [if_pos h'] at hl; simp at hl
    · simp
  · rw [if_neg hu] at hl ⊢
    rw [List.length_map] at hl
    intro hm
    obtain ⟨p, hp, e⟩ := List.mem_map.1 hm
    by_cases hv : p = v
    · simp [hv] at e; exact hu e
    · simp [hv] at e; exact h hl (e ▸ hp)

/-- The new edge derives what the two edges derive one after the other. -/
def Composes (R : PRepr) (u : Pred) (e inc out : Edge T) : Prop := ∀ body head,
  e.Fires R body head ↔ ∃ fu fv bo, inc.Fires R [fu] fv ∧ out.Fires R bo head ∧ (∀ f ∈ bo, f.1 = inc.tgt → f = fv) ∧
    body = mergeBody u inc.tgt fu bo

structure Merged (R : PRepr) (u : Pred) (e inc out : Edge T) : Prop where
  src : e.src = mergeSources u inc.tgt out.src
  tgt : e.tgt = out.tgt
  comp : Composes R u e inc out

theorem mergePair_merged {R : PRepr} (hR : R.WF) {E : Elim T} (hE : E.Exact) {st : GS T} (hst : st.Ok R) {u : Pred}
    {inc out : Edge T} (h : MergePair st.edges u inc out) : Merged R u (mergeEdgePair R E st inc out).2 inc out := by
  have hm := h.mergeOk hR hst
  have he := mergedEdge_eq (E := E) (st := st) hm
  refine ⟨?_, ?_, fun body head => ?_⟩
  · exact congrArg Edge.src he
  · show (mergedEdge R E st inc out).tgt = _
    rw [he]
  · refine mergedEdge_fires hR hE hm ?_
    rintro x (hx | hx) k rfl
    · exact hst.auxg inc h.mi k hx
    · exact hst.auxg out h.mo k hx

theorem mergeEdgePair_merged {R : PRepr} (hR : R.WF) {E : Elim T} (hE : E.Exact) {st : GS T} (hst : st.Ok R) {u : Pred}
    {inc out : Edge T} (h : PairOk st.edges u inc out) : Merged R u (mergeEdgePair R E st inc out).2 inc out :=
  mergePair_merged hR hE hst h.pair

theorem mergeEdgePair_edges {R : PRepr} {E : Elim T} {st : GS T} {inc out : Edge T} :
    (mergeEdgePair R E st inc out).1.edges = st.edges ++ [(mergeEdgePair R E st inc out).2] := rfl

theorem mergeEdgePair_auxg {R : PRepr} {E : Elim T} {st : GS T} {u : Pred} {inc out : Edge T} (h : PairOk st.edges u inc out) :
    (mergeEdgePair R E st inc out).1.auxg = st.auxg := by
  show (mergePre R E st.auxg (inc.src.headD .tru) inc out).2.2 = st.auxg
  unfold mergePre
  simp only
  split
  · rfl
  · rw [if_neg h.tgt]

theorem mergePair_auxg {R : PRepr} {E : Elim T} {st : GS T} {inc out : Edge T} :
    st.auxg ≤ (mergeEdgePair R E st inc out).1.auxg := by
  show st.auxg ≤ (mergePre R E st.auxg (inc.src.headD .tru) inc out).2.2
  unfold mergePre
  simp only
  split
  · exact Nat.le_refl _
  · split
    · exact Nat.le_add_right _ _
    · exact Nat.le_refl _

theorem mergePair_ok {R : PRepr} (hR : R.WF) (hF : R.FreshNames) {E : Elim T} {st : GS T} (hst : st.Ok R)
    {u : Pred} {inc out : Edge T} (h : MergePair st.edges u inc out) : (mergeEdgePair R E st inc out).1.Ok R := by
  have hm := h.mergeOk hR hst
  have he := mergedEdge_eq (E := E) (st := st) hm
  generalize hpre : (mergePre R E st.auxg u inc out).2.1 = lab at he
  generalize hc' : (renameAuxiliaries R st.gaux (⟨mergeSources u inc.tgt out.src, out.tgt, lab, st.freeId⟩ : Edge T)).2 = c'
  have hgaux : (mergeEdgePair R E st inc out).1.gaux = c' := by
    have hu : inc.src.headD .tru = u := by rw [h.isrc]; rfl
    rw [← hc', ← hpre]
    simp only [mergeEdgePair, hu, mergePre_src hm]
  have hle : st.gaux ≤ c' := by rw [← hc']; exact Nat.le_add_right _ _
  have hvars : ∀ x ∈ (mergedEdge R E st inc out).fla.vars,
      x ∈ R.own (mergedEdge R E st inc out).src (mergedEdge R E st inc out).tgt ∨
        ∃ k, x = .ver (.gaux k) 0 ∧ st.gaux ≤ k ∧ k < c' := by
    rw [he]
    intro x hx
    rcases renameAuxiliaries_vars hx with h | h
    · exact .inl h.1
    · right
      rw [hc'] at h
      exact h
  have hsrc : (mergedEdge R E st inc out).src = mergeSources u inc.tgt out.src := congrArg Edge.src he
  have htgt : (mergedEdge R E st inc out).tgt = out.tgt := by rw [he]
  have hid : (mergedEdge R E st inc out).id = st.freeId := rfl
  have hedges : (mergeEdgePair R E st inc out).1.edges = st.edges ++ [mergedEdge R E st inc out] := rfl
  have hvnew : ∀ s ∈ (mergedEdge R E st inc out).src, st.edges.Vertex s := by
    intro s hs
    rw [hsrc] at hs
    rcases mem_mergeSources_fst hs with rfl | ⟨hs, _⟩
    · exact vertex_src h.mi (by rw [h.isrc]; simp)
    · exact vertex_src h.mo hs
  have hvert : ∀ p, Graph.Vertex (st.edges ++ [mergedEdge R E st inc out]) p ↔ st.edges.Vertex p := by
    intro p
    constructor
    · rintro ⟨e, he', hp⟩
      rcases List.mem_append.1 he' with he' | he'
      · exact ⟨e, he', hp⟩
      · rw [List.mem_singleton] at he'
        subst he'
        rcases hp with rfl | hp
        · rw [htgt]; exact vertex_tgt h.mo
        · exact hvnew p hp
    · exact Graph.Vertex.mono fun e he => List.mem_append_left _ he
  have haux : ∀ x, Graph.Aux R (st.edges ++ [mergedEdge R E st inc out]) x ↔ st.edges.Aux R x := by
    intro x
    unfold Graph.Aux
    simp only [hvert]
  have hnewAux : ∀ x ∈ (mergedEdge R E st inc out).fla.vars, st.edges.Aux R x →
      ∃ k, x = .ver (.gaux k) 0 ∧ st.gaux ≤ k := by
    intro x hx ha
    rcases hvars x hx with ho | ⟨k, hk, h1, _⟩
    · exact absurd ha (own_not_aux hR hvnew ho)
    · exact ⟨k, hk, h1⟩
  have hsepNew : ∀ x ∈ (mergedEdge R E st inc out).fla.vars, st.edges.Aux R x → ∀ e ∈ st.edges, x ∉ e.fla.vars := by
    intro x hx ha e hem hxe
    obtain ⟨k, rfl, hk⟩ := hnewAux x hx ha
    have := hst.gaux e hem k hxe
    omega
  refine ⟨?_, ?_, ?_, ?_, ?_, ?_, ?_, ?_⟩
  · show ((st.edges ++ [mergedEdge R E st inc out]).map Edge.id).Nodup
    rw [List.map_append, List.nodup_append]
    refine ⟨hst.ids, by simp, ?_⟩
    intro a ha b hb
    obtain ⟨e, hem, rfl⟩ := List.mem_map.1 ha
    simp only [List.map_cons, List.map_nil, List.mem_singleton] at hb
    have := hst.idlt e hem
    omega
  all_goals rw [hedges]
  · intro e hem
    show e.id < st.freeId + 1
    rcases List.mem_append.1 hem with hem | hem
    · have := hst.idlt e hem; omega
    · rw [List.mem_singleton] at hem; subst hem; omega
  · intro e hem
    rcases List.mem_append.1 hem with hem | hem
    · exact hst.srcNe e hem
    · rw [List.mem_singleton] at hem; subst hem
      rw [hsrc]; exact mergeSources_ne (hst.srcNe out h.mo)
  · intro e hem
    rcases List.mem_append.1 hem with hem | hem
    · exact hst.tru e hem
    · rw [List.mem_singleton] at hem; subst hem
      rw [hsrc]; exact mergeSources_tru (hst.tru out h.mo)
  · intro e hem x hx
    rw [haux]
    rcases List.mem_append.1 hem with hem | hem
    · exact hst.label e hem x hx
    · rw [List.mem_singleton] at hem; subst hem
      rcases hvars x hx with ho | ⟨k, rfl, _⟩
      · exact .inl ho
      · exact .inr (.inl ⟨_, rfl, (hF k).1⟩)
  · intro e hem e' hem' hne x hx ha hx'
    rw [haux] at ha
    rcases List.mem_append.1 hem with hem | hem <;> rcases List.mem_append.1 hem' with hem' | hem'
    · exact hst.sep e hem e' hem' hne x hx ha hx'
    · rw [List.mem_singleton] at hem'; subst hem'
      exact hsepNew x hx' ha e hem hx
    · rw [List.mem_singleton] at hem; subst hem
      exact hsepNew x hx ha e' hem' hx'
    · rw [List.mem_singleton] at hem hem'; exact hne (hem.trans hem'.symm)
  · intro e hem k hk
    rw [hgaux]
    rcases List.mem_append.1 hem with hem | hem
    · have := hst.gaux e hem k hk; omega
    · rw [List.mem_singleton] at hem; subst hem
      rcases hvars _ hk with ho | ⟨k', e, _, h2⟩
      · exact absurd ho own_not_ver
      · cases e; exact h2
  · intro e hem k hk
    rcases List.mem_append.1 hem with hem | hem
    · exact Nat.lt_of_lt_of_le (hst.auxg e hem k hk) mergePair_auxg
    · rw [List.mem_singleton] at hem; subst hem
      rcases hvars _ hk with ho | ⟨k', e, _⟩
      · exact absurd ho own_not_ver
      · cases e

theorem mergeEdgePair_ok {R : PRepr} (hR : R.WF) (hF : R.FreshNames) {E : Elim T} {st : GS T} (hst : st.Ok R)
    {u : Pred} {inc out : Edge T} (h : PairOk st.edges u inc out) : (mergeEdgePair R E st inc out).1.Ok R :=
  mergePair_ok hR hF hst h.pair

/-! ### All pairs -/

theorem mergePairs_spec {R : PRepr} (hR : R.WF) (hF : R.FreshNames) {E : Elim T} (hE : E.Exact) :
    ∀ (ps : List (Edge T × Edge T)) (st : GS T), st.Ok R → (∀ p ∈ ps, ∃ u, PairOk st.edges u p.1 p.2) →
      (mergePairs R E ps st).1.Ok R ∧
      (mergePairs R E ps st).1.edges = st.edges ++ (mergePairs R E ps st).2.map Prod.fst ∧
      (mergePairs R E ps st).2.map Prod.snd = ps ∧
      ∀ t ∈ (mergePairs R E ps st).2, (∃ u, PairOk st.edges u t.2.1 t.2.2 ∧ Merged R u t.1 t.2.1 t.2.2) ∧
        st.freeId ≤ t.1.id := by
  intro ps
  induction ps with
  | nil => intro st hst _; simp [mergePairs, hst]
  | cons p ps ih =>
    intro st hst hp
    obtain ⟨i, o⟩ := p
    obtain ⟨u, hu⟩ := hp (i, o) (by simp)
    have h1 := mergeEdgePair_ok hR hF (E := E) hst hu
    have hsub : ∀ e ∈ st.edges, e ∈ (mergeEdgePair R E st i o).1.edges := fun e he => List.mem_append_left _ he
    obtain ⟨a, b, c, d⟩ := ih _ h1 (fun p hp' => by
      obtain ⟨u, hu⟩ := hp p (by simp [hp'])
      exact ⟨u, hu.mono hsub⟩)
    refine ⟨a, ?_, ?_, ?_⟩
    · show (mergePairs R E ps (mergeEdgePair R E st i o).1).1.edges = _
      rw [b, mergeEdgePair_edges]
      simp [mergePairs]
    · simp only [mergePairs, List.map_cons, c]
    · intro t ht
      simp only [mergePairs, List.mem_cons] at ht
      rcases ht with rfl | ht
      · exact ⟨⟨u, hu, mergeEdgePair_merged hR hE hst hu⟩, Nat.le_refl _⟩
      · obtain ⟨⟨u', hu', hm⟩, hid⟩ := d t ht
        have hmem : (t.2.1, t.2.2) ∈ ps := by
          rw [← c]; exact List.mem_map.2 ⟨t, ht, rfl⟩
        obtain ⟨u2, hu2⟩ := hp _ (by simp only [List.mem_cons]; exact .inr hmem)
        have : u' = u2 := by
          have e1 := hu'.isrc
          have e2 := hu2.isrc
          rw [e1] at e2
          simpa using e2
        subst this
        exact ⟨⟨u', hu2, hm⟩, by
          have h' : st.freeId + 1 ≤ t.1.id := hid
          omega⟩

/-! ### Contraction -/

/-- The conditions on a vertex under which it may be contracted. -/
structure ContractOk (G : Graph T) (v : Pred) : Prop where
  simple : ∀ i ∈ G.inEdges v, ∃ u, i.src = [u] ∧ u ≠ v ∧ ∀ o ∈ G.outEdges v, u ∉ o.src
  out : ∀ o ∈ G.outEdges v, o.src.count v = 1 ∧ o.tgt ≠ v
  single : 1 < (G.inEdges v).length → ∀ o ∈ G.outEdges v, o.src.length = 1

theorem mem_inEdges {G : Graph T} {v : Pred} {e : Edge T} : e ∈ G.inEdges v ↔ e ∈ G ∧ e.tgt = v := by
  simp [Graph.inEdges]

theorem mem_outEdges {G : Graph T} {v : Pred} {e : Edge T} : e ∈ G.outEdges v ↔ e ∈ G ∧ v ∈ e.src := by
  simp [Graph.outEdges]

theorem ContractOk.pair {G : Graph T} {v : Pred} (h : ContractOk G v) {i o : Edge T} (hi : i ∈ G.inEdges v)
    (ho : o ∈ G.outEdges v) : ∃ u, PairOk G u i o := by
  obtain ⟨u, h1, h2, h3⟩ := h.simple i hi
  obtain ⟨hiG, rfl⟩ := mem_inEdges.1 hi
  exact ⟨u, hiG, (mem_outEdges.1 ho).1, h1, h2, (h.out o ho).1, h3 o ho, (h.out o ho).2⟩

/-- What `contractVertex` does. -/
structure Contracted (R : PRepr) (G : Graph T) (v : Pred) (G' : Graph T) (c : Contraction T) : Prop where
  inc : c.incoming = G.inEdges v
  out : c.outgoing = G.outEdges v
  pairs : c.replacing.map Prod.snd = edgePairs (G.inEdges v) (G.outEdges v)
  merged : ∀ t ∈ c.replacing, ∃ u, PairOk G u t.2.1 t.2.2 ∧ t.2.1.tgt = v ∧ Merged R u t.1 t.2.1 t.2.2
  edges : G' = deleteNode G v ++ c.replacing.map Prod.fst

theorem mem_edgePairs {is os : List (Edge T)} {p : Edge T × Edge T} : p ∈ edgePairs is os ↔ p.1 ∈ is ∧ p.2 ∈ os := by
  obtain ⟨a, b⟩ := p
  simp [edgePairs]

theorem mem_deleteNode' {G : Graph T} {v : Pred} {e : Edge T} : e ∈ deleteNode G v ↔ e ∈ G ∧ e.tgt ≠ v ∧ v ∉ e.src := by
  simp [deleteNode]

theorem contractVertex_spec {R : PRepr} (hR : R.WF) (hF : R.FreshNames) {E : Elim T} (hE : E.Exact) {st : GS T}
    (hst : st.Ok R) {v : Pred} (h : ContractOk st.edges v) :
    ∃ st' c, contractVertex R E st v = some (st', c) ∧ st'.Ok R ∧ Contracted R st.edges v st'.edges c ∧
      ∀ t ∈ c.replacing, st.freeId ≤ t.1.id := by
  unfold contractVertex
  simp only
  rw [if_neg]
  · obtain ⟨a, b, c, d⟩ := mergePairs_spec hR hF hE (edgePairs (st.edges.inEdges v) (st.edges.outEdges v)) st hst (by
      intro p hp
      obtain ⟨h1, h2⟩ := mem_edgePairs.1 hp
      exact h.pair h1 h2)
    refine ⟨_, _, rfl, a.sub hR List.filter_sublist, ⟨rfl, rfl, c, ?_, ?_⟩, fun t ht => (d t ht).2⟩
    · intro t ht
      obtain ⟨⟨u, hu, hm⟩, _⟩ := d t ht
      refine ⟨u, hu, ?_, hm⟩
      have : (t.2.1, t.2.2) ∈ edgePairs (st.edges.inEdges v) (st.edges.outEdges v) := by
        rw [← c]; exact List.mem_map.2 ⟨t, ht, rfl⟩
      exact (mem_inEdges.1 (mem_edgePairs.1 this).1).2
    · simp only
      rw [b]
      unfold deleteNode
      rw [List.filter_append]
      congr 1
      rw [List.filter_eq_self]
      intro e he
      obtain ⟨t, ht, rfl⟩ := List.mem_map.1 he
      obtain ⟨⟨u, hu, hm⟩, _⟩ := d t ht
      have htv : t.2.1.tgt = v := by
        have : (t.2.1, t.2.2) ∈ edgePairs (st.edges.inEdges v) (st.edges.outEdges v) := by
          rw [← c]; exact List.mem_map.2 ⟨t, ht, rfl⟩
        exact (mem_inEdges.1 (mem_edgePairs.1 this).1).2
      simp only [decide_eq_true_eq, not_or]
      refine ⟨?_, ?_⟩
      · rw [hm.tgt, ← htv]; exact hu.tgt
      · rw [hm.src]
        intro hmem
        rcases mem_mergeSources_fst hmem with h1 | ⟨_, h1⟩
        · exact hu.ne (h1.symm.trans htv.symm)
        · exact h1 htv.symm
  · simp only [Bool.or_eq_true, Bool.and_eq_true, List.any_eq_true,
      decide_eq_true_eq, not_or, not_and, not_exists, Nat.not_lt]
    intro i hi
    obtain ⟨u, h1, _⟩ := h.simple i hi
    refine ⟨by rw [h1]; simp, fun hl o ho => ?_⟩
    rw [h.single hl o ho]; omega

end Golem
