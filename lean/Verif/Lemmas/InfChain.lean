import Verif.Props.DefaultPipeline
import Verif.Props.Unreachable

/-! Infinite chains of facts, and what the graph transformations do to them. -/

namespace Golem
variable {T : Theory}

/-! ### Relations -/

/-- An infinite sequence of steps from `a`. -/
def InfFrom {α : Type} (S : α → α → Prop) (a : α) : Prop := ∃ f : Nat → α, f 0 = a ∧ ∀ i, S (f i) (f (i + 1))

theorem InfFrom.of_post {α : Type} {S : α → α → Prop} {P : α → Prop} (h : ∀ a, P a → ∃ b, S a b ∧ P b) {a : α} (ha : P a) :
    InfFrom S a := by
  classical
  let next : {a // P a} → {a // P a} := fun x => ⟨(h x.1 x.2).choose, (h x.1 x.2).choose_spec.2⟩
  let f : Nat → {a // P a} := fun n => Nat.rec ⟨a, ha⟩ (fun _ x => next x) n
  exact ⟨fun n => (f n).1, rfl, fun i => (h (f i).1 (f i).2).choose_spec.1⟩

theorem InfFrom.step {α : Type} {S : α → α → Prop} {a : α} (h : InfFrom S a) : ∃ b, S a b ∧ InfFrom S b := by
  obtain ⟨f, rfl, hf⟩ := h
  exact ⟨f 1, hf 0, fun n => f (n + 1), rfl, fun i => hf (i + 1)⟩

theorem InfFrom.mono {α : Type} {S S' : α → α → Prop} (h : ∀ a b, S a b → S' a b) {a : α} (ha : InfFrom S a) : InfFrom S' a := by
  obtain ⟨f, h0, hf⟩ := ha
  exact ⟨f, h0, fun i => h _ _ (hf i)⟩

/-- Zero or more steps. -/
inductive StarRel {α : Type} (S : α → α → Prop) : α → α → Prop where
  | refl (a : α) : StarRel S a a
  | head {a b c : α} (h : S a b) (t : StarRel S b c) : StarRel S a c

/-- Every step of `S'` is one or more steps of `S`. -/
theorem InfFrom.unfold {α : Type} {S S' : α → α → Prop} (h : ∀ a b, S' a b → ∃ c, S a c ∧ StarRel S c b) {a : α}
    (ha : InfFrom S' a) : InfFrom S a := by
  refine InfFrom.of_post (P := fun x => ∃ b, StarRel S x b ∧ InfFrom S' b) ?_ ⟨a, .refl a, ha⟩
  rintro x ⟨b, hs, hb⟩
  cases hs with
  | refl =>
    obtain ⟨c, hc, hi⟩ := hb.step
    obtain ⟨d, hd, hs⟩ := h _ _ hc
    exact ⟨d, hd, c, hs, hi⟩
  | head hx ht => exact ⟨_, hx, b, ht, hb⟩

/-! ### Graphs -/

/-- One clause applied to one fact. -/
def Graph.Step (R : PRepr) (G : Graph T) (f g : Fact T) : Prop := ∃ e ∈ G, e.Fires R [f] g

/-- An infinite chain of facts from the entry. -/
def Graph.Diverges (R : PRepr) (G : Graph T) : Prop := InfFrom (G.Step R) trueFact

/-- Every edge has one source. -/
def Graph.OneSource (G : Graph T) : Prop := ∀ e ∈ G, ∃ u, e.src = [u]

theorem OneSource.sub {G G' : Graph T} (h : G.OneSource) (hs : ∀ e ∈ G', e ∈ G) : G'.OneSource := fun e he => h e (hs e he)

theorem fires_from {R : PRepr} {e : Edge T} {f g : Fact T} (h : e.Fires R [f] g) : e.src = [f.1] ∧ e.tgt = g.1 :=
  ⟨by have := h.src; simpa using this.symm, h.tgt.symm⟩

theorem mergeBody_one {u v : Pred} {fu fv : Fact T} (hfu : fu.1 = u) (hfv : fv.1 = v)
    (ht : u = .tru → fu = trueFact) : mergeBody u v fu [fv] = [fu] := by
  unfold mergeBody
  simp only [List.map_cons, List.map_nil, hfv, if_true]
  split
  · rename_i hu
    have := ht hu
    subst this
    rfl
  · rfl

theorem fires_fact_tru {R : PRepr} (hR : R.WF) {e : Edge T} {f g : Fact T} (h : e.Fires R [f] g) (ht : f.1 = .tru) : f = trueFact :=
  fires_tru hR h (by simp) ht

/-- A merged edge with one source is the composition of the two edges. -/
theorem Merged.step {R : PRepr} (hR : R.WF) {u : Pred} {n p e : Edge T} (hM : Merged R u n p e) (hp : p.src = [u])
    (he : e.src = [p.tgt]) {f g : Fact T} : n.Fires R [f] g ↔ ∃ h, p.Fires R [f] h ∧ e.Fires R [h] g := by
  rw [hM.comp]
  constructor
  · rintro ⟨fu, fv, bo, h1, h2, h3, h4⟩
    obtain ⟨x, rfl, hx⟩ := fires_one h2 he
    have := h3 x (by simp) hx
    subst this
    have hfu := (fires_from h1).1
    rw [hp] at hfu
    have hfu : fu.1 = u := by simpa using hfu.symm
    rw [mergeBody_one hfu hx (fun hu => fires_fact_tru hR h1 (hfu.trans hu))] at h4
    cases h4
    exact ⟨x, h1, h2⟩
  · rintro ⟨h, h1, h2⟩
    have hfu := (fires_from h1).1
    rw [hp] at hfu
    have hfu : f.1 = u := by simpa using hfu.symm
    have hx : h.1 = p.tgt := (fires_from h1).2.symm
    refine ⟨f, h, [h], h1, h2, fun x hx _ => by simpa using hx, ?_⟩
    rw [mergeBody_one hfu hx (fun hu => fires_fact_tru hR h1 (hfu.trans hu))]

/-! ### Contraction of a vertex -/

theorem contracted_oneSource {R : PRepr} {G G' : Graph T} {v : Pred} {c : Contraction T}
    (h : Contracted R G v G' c) (h1 : G.OneSource) : G'.OneSource := by
  intro e he
  rw [h.edges] at he
  rcases List.mem_append.1 he with he | he
  · exact h1 e (mem_deleteNode'.1 he).1
  · obtain ⟨t, ht, rfl⟩ := List.mem_map.1 he
    obtain ⟨u, hu, htv, hm⟩ := h.merged t ht
    obtain ⟨w, hw⟩ := h1 _ hu.mo
    have : w = t.2.1.tgt := by
      have := hu.once
      rw [hw] at this
      by_cases e : w = t.2.1.tgt
      · exact e
      · rw [List.count_singleton] at this; simp [e] at this
    refine ⟨u, ?_⟩
    rw [hm.src, hw, this]
    unfold mergeSources
    simp only [List.map_cons, List.map_nil, if_true]
    split
    · rename_i hu; subst hu; rfl
    · rfl

theorem contracted_diverges {R : PRepr} (hR : R.WF) {G G' : Graph T} {v : Pred} {c : Contraction T}
    (hok : ContractOk G v) (hv : v ≠ .tru) (h : Contracted R G v G' c) (h1 : G.OneSource) :
    G.Diverges R ↔ G'.Diverges R := by
  have hsrc : ∀ t ∈ c.replacing, ∃ u, t.2.1.src = [u] ∧ t.2.2.src = [t.2.1.tgt] ∧ t.2.1 ∈ G ∧ t.2.2 ∈ G ∧
      Merged R u t.1 t.2.1 t.2.2 := by
    intro t ht
    obtain ⟨u, hu, htv, hm⟩ := h.merged t ht
    obtain ⟨w, hw⟩ := h1 _ hu.mo
    have : w = t.2.1.tgt := by
      have := hu.once
      rw [hw] at this
      by_cases e : w = t.2.1.tgt
      · exact e
      · rw [List.count_singleton] at this; simp [e] at this
    exact ⟨u, hu.isrc, by rw [hw, this], hu.mi, hu.mo, hm⟩
  constructor
  · intro hd
    refine InfFrom.of_post (P := fun f => f.1 ≠ v ∧ InfFrom (G.Step R) f) ?_ ⟨fun e => hv e.symm, hd⟩
    rintro f ⟨hf, hi⟩
    obtain ⟨g, ⟨k, hk, hkf⟩, hg⟩ := hi.step
    obtain ⟨ks, kt⟩ := fires_from hkf
    by_cases hgv : g.1 = v
    · obtain ⟨x, ⟨l, hl, hlf⟩, hx⟩ := hg.step
      obtain ⟨ls, lt⟩ := fires_from hlf
      have hin : k ∈ G.inEdges v := mem_inEdges.2 ⟨hk, kt.trans hgv⟩
      have hout : l ∈ G.outEdges v := mem_outEdges.2 ⟨hl, by rw [ls, hgv]; simp⟩
      have hp : (k, l) ∈ c.replacing.map Prod.snd := by
        rw [h.pairs]; exact mem_edgePairs.2 ⟨hin, hout⟩
      obtain ⟨t, ht, hte⟩ := List.mem_map.1 hp
      obtain ⟨u, a1, a2, -, -, a5⟩ := hsrc t ht
      refine ⟨x, ⟨t.1, ?_, ?_⟩, ?_, hx⟩
      · rw [h.edges]; exact List.mem_append_right _ (List.mem_map.2 ⟨t, ht, rfl⟩)
      · rw [a5.step hR a1 a2, hte]
        exact ⟨g, hkf, hlf⟩
      · rw [← lt]; exact (hok.out l hout).2
    · refine ⟨g, ⟨k, ?_, hkf⟩, hgv, hg⟩
      rw [h.edges]
      refine List.mem_append_left _ (mem_deleteNode'.2 ⟨hk, by rw [kt]; exact hgv, ?_⟩)
      rw [ks]; simpa using fun e => hf e.symm
  · refine InfFrom.unfold ?_
    rintro f g ⟨e, he, hf⟩
    rw [h.edges] at he
    rcases List.mem_append.1 he with he | he
    · exact ⟨g, ⟨e, (mem_deleteNode'.1 he).1, hf⟩, .refl _⟩
    · obtain ⟨t, ht, rfl⟩ := List.mem_map.1 he
      obtain ⟨u, a1, a2, a3, a4, a5⟩ := hsrc t ht
      obtain ⟨x, x1, x2⟩ := (a5.step hR a1 a2).1 hf
      exact ⟨x, ⟨_, a3, x1⟩, .head ⟨_, a4, x2⟩ (.refl _)⟩

theorem elimSteps_diverges {R : PRepr} (hR : R.WF) {st st' : GS T} {rs : List (Pred × Contraction T)} (h : ElimSteps R st rs st')
    (h1 : st.edges.OneSource) : (st.edges.Diverges R ↔ st'.edges.Diverges R) ∧ st'.edges.OneSource := by
  induction h with
  | nil => exact ⟨Iff.rfl, h1⟩
  | cons hst hok hv hc _ _ _ _ ih =>
    obtain ⟨i1, i2⟩ := ih (contracted_oneSource hc h1)
    exact ⟨(contracted_diverges hR hok hv.1 hc h1).trans i1, i2⟩

/-! ### Chains -/

theorem chainFires_star {R : PRepr} {G : Graph T} : ∀ {es : List (Edge T)}, (∀ e ∈ es, e ∈ G) → ∀ {f g : Fact T},
    ChainFires R es f g → StarRel (G.Step R) f g
  | [], _, _, _, h => by cases h; exact .refl _
  | e :: es, hm, f, g, ⟨x, h1, h2⟩ =>
    .head ⟨e, hm e (by simp), h1⟩ (chainFires_star (fun e he => hm e (by simp [he])) h2)

/-- An infinite chain that enters a chain of edges follows it to its end. -/
theorem follow {R : PRepr} {G : Graph T} {w : Pred} : ∀ {es : List (Edge T)} {f : Fact T}, HPath f.1 es w → (∀ e ∈ es, e ∈ G) →
    (∀ (i : Nat) (e : Edge T), i < es.length → es[i]? = some e → ∀ l ∈ G, l.src = e.src → l = e) → InfFrom (G.Step R) f →
    ∃ g, ChainFires R es f g ∧ InfFrom (G.Step R) g
  | [], f, _, _, _, hi => ⟨f, rfl, hi⟩
  | e :: es, f, hp, hm, hu, hi => by
    obtain ⟨g, ⟨k, hk, hkf⟩, hg⟩ := hi.step
    obtain ⟨ks, kt⟩ := fires_from hkf
    obtain ⟨p1, p2⟩ := hp.cons_inv
    have : k = e := hu 0 e (by simp) rfl k hk (ks.trans p1.symm)
    subst this
    rw [kt] at p2
    obtain ⟨x, x1, x2⟩ := follow p2 (fun e he => hm e (by simp [he])) (fun i e hi hei => hu (i + 1) e (by simp; omega) (by simpa using hei)) hg
    exact ⟨x, ⟨g, hkf, x1⟩, x2⟩

theorem chainMerged_diverges {R : PRepr} {G G' : Graph T} {chain : List (Edge T)} {s : Edge T} {u w : Pred}
    (hends : G.Ends) (h : ChainMerged R G G' chain s u w) : G.Diverges R ↔ G'.Diverges R := by
  obtain ⟨huw, hu, hw⟩ := h.lin.ends
  obtain ⟨e, es, rfl⟩ : ∃ e es, chain = e :: es := List.exists_cons_of_ne_nil h.lin.links.ne
  constructor
  · intro hd
    refine InfFrom.of_post (P := fun f => f.1 ∉ innerOf (e :: es) ∧ InfFrom (G.Step R) f) ?_
      ⟨fun hm => ((h.lin.inner _ hm).ends hends).1 rfl, hd⟩
    rintro f ⟨hf, hi⟩
    obtain ⟨g, ⟨k, hk, hkf⟩, hg⟩ := hi.step
    obtain ⟨ks, kt⟩ := fires_from hkf
    by_cases hc : k ∈ e :: es
    · have hpath := h.lin.path
      obtain ⟨p1, p2⟩ := hpath.cons_inv
      obtain ⟨v, v1, v2⟩ := h.lin.sources hc
      have hfu : f.1 = u := by
        rw [ks] at v1
        simp only [List.cons.injEq, and_true] at v1
        rcases v2 with rfl | v2
        · exact v1
        · exact absurd (v1 ▸ v2) hf
      have hke : k = e := by
        obtain ⟨i, hi, hie⟩ := List.getElem_of_mem hc
        have hie' : (e :: es)[i]? = some k := by rw [List.getElem?_eq_getElem hi, hie]
        rcases hpath.sources hie' with ⟨rfl, _⟩ | ⟨j, e', rfl, he', hs⟩
        · simpa using hie'.symm
        · exfalso
          apply hu
          rw [ks, hfu] at hs
          simp only [List.cons.injEq, and_true] at hs
          rw [hs]
          exact mem_innerOf.2 ⟨j, e', by simp only [List.length_cons] at hi ⊢; omega, he', rfl⟩
      subst hke
      rw [kt] at p2
      obtain ⟨x, x1, x2⟩ := follow (R := R) p2 (fun e he => h.lin.mem e (by simp [he])) (by
        intro i e hi hei l hl hle
        have h1 : (k :: es)[i + 1]? = some e := by simpa using hei
        rcases hpath.sources h1 with ⟨h0, _⟩ | ⟨j, e', hj, he', hs⟩
        · omega
        · have hin : e'.tgt ∈ innerOf (k :: es) := mem_innerOf.2 ⟨j, e', by simp; omega, he', rfl⟩
          obtain ⟨ii, oo, hT⟩ := h.lin.inner _ hin
          rw [hT.out l hl (by rw [hle, hs]; simp),
            hT.out e (h.lin.mem e (List.mem_of_getElem? h1)) (by rw [hs]; simp)]) hg
      refine ⟨x, ⟨s, (h.edges s).2 (.inr rfl), (h.fires f x).2 ⟨g, hkf, x1⟩⟩, ?_, x2⟩
      have hsx : s.Fires R [f] x := (h.fires f x).2 ⟨g, hkf, x1⟩
      rw [← (fires_from hsx).2, h.tgt]
      exact hw
    · refine ⟨g, ⟨k, (h.edges k).2 (.inl ⟨hk, hc⟩), hkf⟩, ?_, hg⟩
      rw [← kt]
      exact fun hm => hc (h.lin.in_chain hk hm)
  · refine InfFrom.unfold ?_
    rintro f g ⟨e, he, hf⟩
    rcases (h.edges e).1 he with ⟨he, _⟩ | rfl
    · exact ⟨g, ⟨e, he, hf⟩, .refl _⟩
    · have hcf := (h.fires f g).1 hf
      have hmem := h.lin.mem
      obtain ⟨x, x1, x2⟩ := hcf
      exact ⟨x, ⟨_, hmem _ (by simp), x1⟩, chainFires_star (fun e he => hmem e (by simp [he])) x2⟩

theorem cycleRemoved_diverges {R : PRepr} {G G' : Graph T} {chain : List (Edge T)} {s : Edge T} {u w : Pred}
    (hends : G.Ends) (h : CycleRemoved G G' chain s u w) : G.Diverges R ↔ G'.Diverges R := by
  constructor
  · intro hd
    refine InfFrom.of_post (P := fun f => f.1 ∉ innerOf chain ∧ InfFrom (G.Step R) f) ?_
      ⟨fun hm => ((h.cyc.inner hm).ends hends).1 rfl, hd⟩
    rintro f ⟨hf, hi⟩
    obtain ⟨g, ⟨k, hk, hkf⟩, hg⟩ := hi.step
    obtain ⟨ks, kt⟩ := fires_from hkf
    have hgn : g.1 ∉ innerOf chain := by
      intro hm
      obtain ⟨i, o, s', hT, is, hs, -⟩ := h.cyc.closed _ hm
      have := hT.inc k hk kt
      subst this
      rw [ks] at is
      simp only [List.cons.injEq, and_true] at is
      exact hf (is ▸ hs)
    refine ⟨g, ⟨k, (h.edges k).2 ⟨hk, by rw [kt]; exact hgn, ?_⟩, hkf⟩, hgn, hg⟩
    intro v hv
    rw [ks] at hv
    simp only [List.mem_singleton] at hv
    rw [hv]; exact hf
  · exact InfFrom.mono fun f g ⟨e, he, hf⟩ => ⟨e, ((h.edges e).1 he).1, hf⟩

theorem chainRun_diverges {R : PRepr} {st st' : GS T} {ss : List (Summary T)} (h : ChainRun R st ss st')
    (h1 : st.edges.OneSource) : (st.edges.Diverges R ↔ st'.edges.Diverges R) ∧ st'.edges.OneSource := by
  induction h with
  | nil => exact ⟨Iff.rfl, h1⟩
  | lin hst hends hM _ _ _ ih =>
    obtain ⟨i1, i2⟩ := ih (fun e he => by
      rcases (hM.edges e).1 he with ⟨h, _⟩ | rfl
      · exact h1 e h
      · exact ⟨_, hM.src⟩)
    exact ⟨(chainMerged_diverges hends hM).trans i1, i2⟩
  | cyc hst hends hM _ _ _ ih =>
    obtain ⟨i1, i2⟩ := ih (fun e he => h1 e ((hM.edges e).1 he).1)
    exact ⟨(cycleRemoved_diverges hends hM).trans i1, i2⟩

/-! ### The edge inliner -/

theorem Blocks.step {R : PRepr} {v : Pred} {p e : Edge T} (h : Blocks R v p e) (hp : p.tgt = v) (he : e.src = [v])
    {f g x : Fact T} (h1 : p.Fires R [f] g) (h2 : e.Fires R [g] x) : False := by
  obtain ⟨ρ, a1, a2, a3⟩ := h1
  obtain ⟨ρ', b1, b2, b3⟩ := h2
  apply h ρ ρ' a1 b1
  rw [a3] at b2
  simp only [Edge.srcFacts, he, instances_one, List.map_cons, List.map_nil, List.cons.injEq, and_true, Edge.tgtFact, hp,
    Prod.mk.injEq, true_and] at b2
  exact b2

theorem inlineRun_diverges {R : PRepr} (hR : R.WF) {st st' : GS T} {es : List (InlineEntry T)} (h : InlineRun R st es st')
    (h1 : st.edges.OneSource) : (st.edges.Diverges R ↔ st'.edges.Diverges R) ∧ st'.edges.OneSource := by
  induction h with
  | nil => exact ⟨Iff.rfl, h1⟩
  | @del st st1 st' es e v hst he hs hv hb hdel _ rest ih =>
    obtain ⟨i1, i2⟩ := ih (by rw [hdel]; exact OneSource.sub h1 fun e he => (List.mem_filter.1 he).1)
    refine ⟨Iff.trans ?_ i1, i2⟩
    have hmem : ∀ k, k ∈ st1.edges ↔ k ∈ st.edges ∧ k ≠ e := by
      intro k
      rw [hdel]
      simp only [deleteEdges, List.mem_filter, decide_eq_true_eq, List.mem_singleton]
      exact ⟨fun ⟨a, b⟩ => ⟨a, fun h => b (by rw [h])⟩, fun ⟨a, b⟩ => ⟨a, fun h => b (ids_inj hst.ok.ids a he h)⟩⟩
    constructor
    · intro hd
      refine InfFrom.of_post (P := fun f => ∃ g k, k ∈ st.edges ∧ k ≠ e ∧ k.Fires R [f] g ∧ InfFrom (st.edges.Step R) g) ?_ ?_
      · rintro f ⟨g, k, hk, hke, hkf, hg⟩
        refine ⟨g, ⟨k, (hmem k).2 ⟨hk, hke⟩, hkf⟩, ?_⟩
        obtain ⟨x, ⟨l, hl, hlf⟩, hx⟩ := hg.step
        refine ⟨x, l, hl, ?_, hlf, hx⟩
        rintro rfl
        have hg1 : g.1 = v := by have := (fires_from hlf).1; rw [hs] at this; simpa using this.symm
        have hkt : k.tgt = v := (fires_from hkf).2.trans hg1
        exact (hb k (mem_inEdges.2 ⟨hk, hkt⟩)).step hkt hs hkf hlf
      · obtain ⟨g, ⟨k, hk, hkf⟩, hg⟩ := InfFrom.step hd
        refine ⟨g, k, hk, ?_, hkf, hg⟩
        rintro rfl
        have := (fires_from hkf).1
        rw [hs] at this
        simp only [trueFact, List.cons.injEq, and_true] at this
        exact hv this
    · exact InfFrom.mono fun f g ⟨k, hk, hf⟩ => ⟨k, ((hmem k).1 hk).1, hf⟩
  | @repl st st1 st' es n e p u hst hp hs hv hb hM hid hdel _ rest ih =>
    have hn : n.src = [u] := by
      rw [hM.src, hs]
      unfold mergeSources
      simp only [List.map_cons, List.map_nil, if_true]
      split
      · rename_i hu; subst hu; rfl
      · rfl
    have hne : n ≠ e := by
      rintro rfl
      have := hst.ok.idlt n hp.mo
      omega
    have hmem : ∀ k, k ∈ st1.edges ↔ (k ∈ st.edges ∧ k ≠ e) ∨ k = n := by
      intro k
      rw [hdel]
      simp only [deleteEdges, List.mem_filter, decide_eq_true_eq, List.mem_singleton, List.mem_append]
      constructor
      · rintro ⟨a | a, b⟩
        · exact .inl ⟨a, fun h => b (by rw [h])⟩
        · exact .inr a
      · rintro (⟨a, b⟩ | rfl)
        · exact ⟨.inl a, fun h => b (ids_inj hst.ok.ids a hp.mo h)⟩
        · refine ⟨.inr rfl, ?_⟩
          have := hst.ok.idlt e hp.mo
          omega
    obtain ⟨i1, i2⟩ := ih (fun k hk => by
      rcases (hmem k).1 hk with ⟨h, _⟩ | rfl
      · exact h1 k h
      · exact ⟨u, hn⟩)
    refine ⟨Iff.trans ?_ i1, i2⟩
    constructor
    · intro hd
      refine InfFrom.of_post (P := fun f => ∃ g k, k ∈ st.edges ∧ k ≠ e ∧ k.Fires R [f] g ∧ InfFrom (st.edges.Step R) g) ?_ ?_
      · rintro f ⟨g, k, hk, hke, hkf, hg⟩
        obtain ⟨x, ⟨l, hl, hlf⟩, hx⟩ := hg.step
        by_cases hle : l = e
        · subst hle
          have hg1 : g.1 = p.tgt := by have := (fires_from hlf).1; rw [hs] at this; simpa using this.symm
          have hkt : k.tgt = p.tgt := (fires_from hkf).2.trans hg1
          have hkp : k = p := Classical.byContradiction fun hn =>
            (hb k (mem_inEdges.2 ⟨hk, hkt⟩) hn).step hkt hs hkf hlf
          subst hkp
          refine ⟨x, ⟨n, (hmem n).2 (.inr rfl), (hM.step hR hp.isrc hs).2 ⟨g, hkf, hlf⟩⟩, ?_⟩
          obtain ⟨y, ⟨m, hm, hmf⟩, hy⟩ := hx.step
          refine ⟨y, m, hm, ?_, hmf, hy⟩
          rintro rfl
          have hx1 : x.1 = k.tgt := by have := (fires_from hmf).1; rw [hs] at this; simpa using this.symm
          have hmt : m.tgt = k.tgt := (fires_from hlf).2.trans hx1
          exact (hb m (mem_inEdges.2 ⟨hm, hmt⟩) (fun h => hke h.symm)).step hmt hs hlf hmf
        · exact ⟨g, ⟨k, (hmem k).2 (.inl ⟨hk, hke⟩), hkf⟩, x, l, hl, hle, hlf, hx⟩
      · obtain ⟨g, ⟨k, hk, hkf⟩, hg⟩ := InfFrom.step hd
        refine ⟨g, k, hk, ?_, hkf, hg⟩
        rintro rfl
        have := (fires_from hkf).1
        rw [hs] at this
        simp only [trueFact, List.cons.injEq, and_true] at this
        exact hv this
    · refine InfFrom.unfold ?_
      rintro f g ⟨k, hk, hf⟩
      rcases (hmem k).1 hk with ⟨h, _⟩ | rfl
      · exact ⟨g, ⟨k, h, hf⟩, .refl _⟩
      · obtain ⟨x, x1, x2⟩ := (hM.step hR hp.isrc hs).1 hf
        exact ⟨x, ⟨p, hp.mi, x1⟩, .head ⟨e, hp.mo, x2⟩ (.refl _)⟩

end Golem
