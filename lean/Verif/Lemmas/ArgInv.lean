import Verif.Lemmas.ArgState
import Verif.Lemmas.ArgDeriv

/-! Invariants of the main loop of the predicate abstraction engine. -/

namespace Golem
variable {T : Theory} {s s' : PaState T} {E : PaEnv T}

/-- What holds whatever the solvers answer. -/
structure PaBase (E : PaEnv T) (s : PaState T) : Prop where
  struct : PaStruct E.G s
  queue : ∀ q ∈ s.queue, s.EdgeOk E.G q

/-- What is fixed during a run. -/
structure PaEnv.Ok (E : PaEnv T) : Prop where
  graph : PaGraph E.R E.G
  ord : ∀ l f, f ∈ E.ord l ↔ f ∈ l
  ordC : ∀ l c, c ∈ E.ordC l ↔ c ∈ l

theorem PaBase.grow (h : PaBase E s) (g : Grow E.G s s') : PaBase E s' := by
  refine ⟨⟨by rw [g.same.nodes]; exact h.struct.root, fun i h0 hi => ?_, fun e he => ?_⟩, g.ok h.queue⟩
  · rw [g.same.nodes] at hi
    obtain ⟨e, h1, h2, h3, h4, h5, h6⟩ := h.struct.inc i h0 hi
    exact ⟨e, by rw [g.same.incoming]; exact h1, h2, by rw [g.same.sym]; exact h3, by rw [g.same.sym]; exact h4, h5,
      by rw [g.same.sym]; exact h6⟩
  · rw [g.same.incoming] at he
    rw [g.same.nodes]
    exact h.struct.tgt e he

theorem PaBase.refined (h : PaBase E s) (g : Refined s s') (h0 : s'.preds 0 = s.preds 0) : PaBase E s' := by
  refine ⟨⟨?_, fun i hi hl => ?_, fun e he => ?_⟩, fun q hq => ?_⟩
  · have h1 : 0 < s'.nodes.length := by rw [g.len]; exact h.struct.pos
    have h2 := congrFun g.sym 0
    have h3 := h.struct.root
    simp only [PaState.sym, PaState.preds, h3, List.getElem?_eq_getElem h1, Option.map_some, Option.getD_some] at h2 h0
    rw [List.getElem?_eq_getElem h1]
    cases hn : s'.nodes[0] with
    | mk a b => rw [hn] at h2 h0; simp only at h2 h0; rw [h2, h0]
  · rw [g.len] at hl
    obtain ⟨e, he⟩ := h.struct.inc i hi hl
    exact ⟨e, g.inc.2 he⟩
  · rw [g.incoming] at he
    rw [g.len]
    exact h.struct.tgt e he
  · rw [g.queue] at hq
    exact g.ext.edgeOk (h.queue q hq)

/-- A new node with its incoming edge. -/
theorem PaBase.insert (h : PaBase E s) {q : PaEdge T} (hq : s.EdgeOk E.G q) (hne : q.edge.tgt ≠ .fls) {n : PaNode T} (hn : n.sym = q.edge.tgt)
    (h1 : s'.nodes = s.nodes ++ [n]) (h2 : s'.incoming = s.incoming ++ [⟨q.sources, s.nodes.length, q.edge⟩])
    (h3 : ∀ q ∈ s'.queue, s'.EdgeOk E.G q) : PaBase E s' ∧ s'.IncOk E.G s.nodes.length ⟨q.sources, s.nodes.length, q.edge⟩ ∧
      ∀ i e, i < s.nodes.length → (s'.IncOk E.G i e ↔ s.IncOk E.G i e) := by
  have hpos := h.struct.pos
  have hx := ext_snoc h1
  have hnew : s'.IncOk E.G s.nodes.length ⟨q.sources, s.nodes.length, q.edge⟩ := by
    refine ⟨?_, hq.mem, by rw [sym_snoc h1, hn], by rw [sym_snoc h1, hn]; exact hne, hq.lt, ?_⟩
    · rw [h2, List.filter_append]
      have : s.incoming.filter (fun e => e.target == s.nodes.length) = [] := by
        rw [List.filter_eq_nil_iff]
        intro e he
        have := (h.struct.tgt e he).2
        simp only [beq_iff_eq]
        omega
      rw [this]
      simp
    · simp only
      rw [hx.map_sym hq.lt, hq.syms]
  have hfil : ∀ i, i < s.nodes.length → s'.incoming.filter (fun e => e.target == i) = s.incoming.filter (fun e => e.target == i) := by
    intro i hi
    have : (s.nodes.length == i) = false := by simp; omega
    rw [h2, List.filter_append]
    simp [this]
  have hold : ∀ i e, i < s.nodes.length → (s'.IncOk E.G i e ↔ s.IncOk E.G i e) := by
    intro i e hi
    constructor
    · rintro ⟨a1, a2, a3, a4, a5, a6⟩
      rw [hx.sym i hi] at a3 a4
      rw [hx.map_sym fun a ha => Nat.lt_trans (a5 a ha) hi] at a6
      exact ⟨by rw [← hfil i hi]; exact a1, a2, a3, a4, a5, a6⟩
    · rintro ⟨a1, a2, a3, a4, a5, a6⟩
      refine ⟨by rw [hfil i hi]; exact a1, a2, ?_, ?_, a5, ?_⟩
      · rw [hx.sym i hi]; exact a3
      · rw [hx.sym i hi]; exact a4
      · rw [hx.map_sym fun a ha => Nat.lt_trans (a5 a ha) hi]; exact a6
  refine ⟨⟨⟨?_, ?_, ?_⟩, h3⟩, hnew, hold⟩
  · rw [h1, List.getElem?_append_left hpos, h.struct.root]
  · intro i h0 hi
    rw [h1, List.length_append, List.length_singleton] at hi
    rcases Nat.lt_or_ge i s.nodes.length with hlt | hge
    · obtain ⟨e, he⟩ := h.struct.inc i h0 hlt
      exact ⟨e, (hold i e hlt).2 he⟩
    · have : i = s.nodes.length := by omega
      subst this
      exact ⟨_, hnew⟩
  · intro e he
    rw [h2] at he
    rw [h1, List.length_append, List.length_singleton]
    rcases List.mem_append.1 he with he | he
    · have := h.struct.tgt e he; omega
    · rw [List.mem_singleton] at he
      subst he
      simp only; omega

/-! ### The loop of `refine` -/

theorem refineLoop_base (hE : E.Ok) (info : List (Pred × Fla T)) : ∀ (ids : List Nat) (s : PaState T) (changed : List Nat), PaBase E s →
    (∀ i ∈ ids, 0 < i ∧ i < s.nodes.length) → ∃ s', E.refineLoop info ids s changed = .done s' ∧ Refined s s' ∧ PaBase E s' := by
  intro ids
  induction ids with
  | nil => intro s c h _; exact ⟨s, rfl, .refl s, h⟩
  | cons i ids ih =>
    intro s c h hi
    obtain ⟨h0, hl⟩ := hi i List.mem_cons_self
    obtain ⟨e, he⟩ := h.struct.inc i h0 hl
    obtain ⟨s1, c1, h1, h2, h3, _⟩ := refineNode_eq (E := E) hE.ord h.struct (info := info) (changed := c) h0 hl he
    obtain ⟨s2, h4, h5, h6⟩ := ih s1 c1 (h.refined h2 (h3 0 (by omega))) fun j hj => by
      rw [h2.len]; exact hi j (List.mem_cons_of_mem _ hj)
    exact ⟨s2, by rw [PaEnv.refineLoop, h1]; exact h4, h2.trans h5, h6⟩

/-- `refine` never fails, and keeps the structure. -/
theorem pa_refine_base (hE : E.Ok) (info : List (Pred × Fla T)) (h : PaBase E s) : ∃ s1 s', E.refineLoop info ((List.range s.nodes.length).drop 1) s [] = .done s1 ∧
    Refined s s1 ∧ PaBase E s1 ∧ E.refine info s = .done s' ∧
    Grow E.G (E.recheckCovered (E.addPredicates info s1)).1 s' ∧ PaBase E s' := by
  obtain ⟨s1, h1, h2, h3⟩ := refineLoop_base hE info ((List.range s.nodes.length).drop 1) s [] h (by
    intro i hi
    obtain ⟨j, hj⟩ := List.getElem?_of_mem hi
    rw [List.getElem?_drop] at hj
    have := List.getElem?_lt hj
    simp only [List.length_range] at this
    rw [List.getElem?_range this] at hj
    cases hj
    omega)
  have hb : PaBase E (E.recheckCovered (E.addPredicates info s1)).1 := by
    refine ⟨⟨h3.struct.root, fun i h0 hi => ?_, h3.struct.tgt⟩, fun q hq => ?_⟩
    · obtain ⟨e, a1, a2, a3, a4, a5, a6⟩ := h3.struct.inc i h0 hi
      exact ⟨e, a1, a2, a3, a4, a5, a6⟩
    · obtain ⟨a1, a2, a3⟩ := h3.queue q hq
      exact ⟨a1, a2, a3⟩
  obtain ⟨g, _⟩ := newEdgesAll_grow hE.graph (E.recheckCovered (E.addPredicates info s1)).2 (E.recheckCovered (E.addPredicates info s1)).1
  refine ⟨s1, _, h1, h2, h3, ?_, g, hb.grow g⟩
  unfold PaEnv.refine
  rw [h1]

/-! ### One iteration -/

/-- One iteration either ends with a counterexample that the interpolating solver found satisfiable, or with a solver that does not
know, or keeps the structure. -/
theorem pa_step_base (hE : E.Ok) (w : Bool) (h : PaBase E s) {q : PaEdge T} (hq : s.EdgeOk E.G q) :
    (∃ tree, q.edge.tgt = .fls ∧ MakeOk E.G s q tree ∧ E.I.check (paLabels E.R tree) = .sat ∧
      E.step w s q = .done (.inl ⟨.unsafeAns, if w then .invalidity (paDerivation E.R tree (E.I.model (paLabels E.R tree))) else .none⟩)) ∨
    (∃ tree, q.edge.tgt = .fls ∧ E.I.check (paLabels E.R tree) ≠ .sat ∧ E.I.check (paLabels E.R tree) ≠ .unsat ∧ E.step w s q = .thrown) ∨
    ∃ s', E.step w s q = .done (.inr s') ∧ PaBase E s' := by
  unfold PaEnv.step
  by_cases hf : (!E.feasible s q) = true
  · rw [if_pos hf]
    exact .inr (.inr ⟨s, rfl, h⟩)
  rw [if_neg hf]
  by_cases ht : q.edge.tgt = .fls
  · rw [if_pos ht]
    obtain ⟨tree, h1, h2⟩ := paMake_ok hE.graph h.struct hq ht
    unfold PaEnv.query
    rw [h1]
    simp only
    cases hc : E.I.check (paLabels E.R tree) with
    | sat => exact .inl ⟨tree, ht, h2, hc, rfl⟩
    | unsat =>
      obtain ⟨_, s', _, _, _, h3, _, h4⟩ := pa_refine_base hE (E.refinement tree) h
      exact .inr (.inr ⟨s', by simp only [h3], h4⟩)
    | unknown => exact .inr (.inl ⟨tree, ht, by rw [hc]; simp, by rw [hc]; simp, rfl⟩)
    | error => exact .inr (.inl ⟨tree, ht, by rw [hc]; simp, by rw [hc]; simp, rfl⟩)
  · rw [if_neg ht]
    refine .inr (.inr ⟨_, rfl, ?_⟩)
    obtain ⟨t1, t2, t3, t4⟩ := tryInsert_eq (s := s) q.edge.tgt (E.ord (E.propagated s (s.man q.edge.tgt) q.sources q.edge.fla))
    have hx := ext_snoc t2
    have hq1 : ∀ q' ∈ (E.computeTarget s q).1.queue, (E.computeTarget s q).1.EdgeOk E.G q' := by
      intro q' hq'
      rw [PaEnv.computeTarget, t4] at hq'
      exact hx.edgeOk (h.queue q' hq')
    have key : ∀ s2 : PaState T, Grow E.G (E.computeTarget s q).1 s2 →
        PaBase E { s2 with incoming := s2.incoming ++ [⟨q.sources, s.nodes.length, q.edge⟩] } := by
      intro s2 g
      refine (h.insert hq ht (n := ⟨q.edge.tgt, E.ord (E.propagated s (s.man q.edge.tgt) q.sources q.edge.fla)⟩) rfl ?_ ?_ ?_).1
      · simp only; rw [g.same.nodes, PaEnv.computeTarget, t2]
      · simp only; rw [g.same.incoming, PaEnv.computeTarget, t3]
      · intro q' hq'
        obtain ⟨a1, a2, a3⟩ := g.ok hq1 q' hq'
        exact ⟨a1, a2, a3⟩
    by_cases hc : (E.computeTarget s q).2 = true
    · simp only [hc, if_true]
      exact key _ (Grow.refl _)
    · simp only [hc, if_false]
      exact key _ (newEdges_grow hE.graph _ _).1

/-- The loop preserves an invariant of its iterations. -/
theorem pa_init_base (hE : E.Ok) : PaBase E E.init := by
  have key : ∀ (es : List (Edge T)) (s : PaState T), (∀ e ∈ es, e ∈ E.G ∧ .tru ∈ e.src) → PaBase E s →
      PaBase E (es.foldl (fun s e => s.enqueue ⟨e, [0]⟩) s) := by
    intro es
    induction es with
    | nil => intro s _ h; exact h
    | cons e es ih =>
      intro s he h
      refine ih _ (fun e' he' => he e' (List.mem_cons_of_mem _ he')) ?_
      obtain ⟨h1, h2⟩ := he e List.mem_cons_self
      have hsame := enqueue_same (s := s) ⟨e, [0]⟩
      refine h.grow ⟨hsame, fun q hq => mem_enqueue.2 (.inr hq), fun hq q hq' => ?_⟩
      rcases mem_enqueue.1 hq' with rfl | hm
      · refine hsame.ext.edgeOk ⟨h1, ?_, ?_⟩
        · intro a ha
          rw [List.mem_singleton] at ha
          subst ha
          exact h.struct.pos
        · simp only [List.map_cons, List.map_nil, h.struct.sym_zero]
          rw [hE.graph.tru e h1 h2]
      · exact hsame.ext.edgeOk (hq q hm)
  refine key _ _ (fun e he => mem_outEdges.1 he) ⟨⟨rfl, ?_, ?_⟩, ?_⟩
  · intro i h0 hi
    simp only [List.length_singleton] at hi
    omega
  · simp
  · simp

end Golem
