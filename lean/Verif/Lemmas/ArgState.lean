import Verif.Lemmas.ArgMake
import Verif.Lemmas.SpacerSafe

/-! The abstract reachability graph grows: what the steps of the engine keep without looking at the answers of the solvers. -/

namespace Golem
variable {T : Theory} {G : Graph T} {s s' : PaState T}

/-- The nodes are still there, with at least their predicates. -/
structure PaState.Ext (s s' : PaState T) : Prop where
  len : s.nodes.length ≤ s'.nodes.length
  sym : ∀ i, i < s.nodes.length → s'.sym i = s.sym i
  preds : ∀ i, ∀ f ∈ s.preds i, f ∈ s'.preds i

theorem PaState.Ext.refl (s : PaState T) : s.Ext s := ⟨Nat.le_refl _, fun _ _ => rfl, fun _ _ h => h⟩

theorem PaState.Ext.trans {s₁ s₂ s₃ : PaState T} (h : s₁.Ext s₂) (h' : s₂.Ext s₃) : s₁.Ext s₃ :=
  ⟨Nat.le_trans h.len h'.len, fun i hi => (h'.sym i (Nat.lt_of_lt_of_le hi h.len)).trans (h.sym i hi),
    fun i f hf => h'.preds i f (h.preds i f hf)⟩

theorem PaState.Ext.map_sym (h : s.Ext s') {l : List Nat} (hl : ∀ a ∈ l, a < s.nodes.length) : l.map s'.sym = l.map s.sym :=
  List.map_congr_left fun a ha => h.sym a (hl a ha)

theorem PaState.Ext.edgeOk (h : s.Ext s') {q : PaEdge T} (hq : s.EdgeOk G q) : s'.EdgeOk G q :=
  ⟨hq.mem, fun a ha => Nat.lt_of_lt_of_le (hq.lt a ha) h.len, by rw [h.map_sym hq.lt, hq.syms]⟩

/-- What a source contributes. -/
theorem allHold_srcStates {l : List Nat} {ρ : Valuation T} : AllHold ρ (s.srcStates l) ↔
    ∀ (j a : Nat) (q : Pred × Nat), l[j]? = some a → (instances (l.map s.sym))[j]? = some q →
      ∀ f ∈ s.preds a, (f.rename (toSrc q.2)).holds ρ := by
  unfold AllHold PaState.srcStates
  constructor
  · intro h j a q h1 h2 f hf
    have hm : (a, q) ∈ l.zip (instances (l.map s.sym)) := by
      refine List.mem_of_getElem? (i := j) ?_
      rw [List.getElem?_zip_eq_some]
      exact ⟨h1, h2⟩
    have := h _ (List.mem_map.2 ⟨_, hm, rfl⟩)
    rw [Fla.holds_rename, Fla.holds_conj] at this
    rw [Fla.holds_rename]
    exact this f hf
  · intro h f hf
    obtain ⟨⟨a, q⟩, hm, rfl⟩ := List.mem_map.1 hf
    obtain ⟨j, hj⟩ := List.getElem?_of_mem hm
    rw [List.getElem?_zip_eq_some] at hj
    rw [Fla.holds_rename, Fla.holds_conj]
    intro f hf
    have := h j a q hj.1 hj.2 f hf
    rwa [Fla.holds_rename] at this

theorem PaState.Ext.srcStates (h : s.Ext s') {l : List Nat} (hl : ∀ a ∈ l, a < s.nodes.length) {ρ : Valuation T}
    (hh : AllHold ρ (s'.srcStates l)) : AllHold ρ (s.srcStates l) := by
  rw [allHold_srcStates] at hh ⊢
  rw [h.map_sym hl] at hh
  exact fun j a q h1 h2 f hf => hh j a q h1 h2 f (h.preds a f hf)

theorem srcStates_congr {l : List Nat} (h : ∀ a ∈ l, s'.sym a = s.sym a ∧ s'.preds a = s.preds a) : s'.srcStates l = s.srcStates l := by
  unfold PaState.srcStates
  have h1 : l.map s'.sym = l.map s.sym := List.map_congr_left fun a ha => (h a ha).1
  rw [h1]
  refine List.map_congr_left fun p hp => ?_
  rw [(h p.1 (List.of_mem_zip hp).1).2]

/-! ### The queue -/

/-- Only the queue changed. -/
structure PaState.SameArg (s s' : PaState T) : Prop where
  man : s'.man = s.man
  nodes : s'.nodes = s.nodes
  incoming : s'.incoming = s.incoming
  covered : s'.covered = s.covered

theorem PaState.SameArg.refl (s : PaState T) : s.SameArg s := ⟨rfl, rfl, rfl, rfl⟩

theorem PaState.SameArg.trans {s₁ s₂ s₃ : PaState T} (h : s₁.SameArg s₂) (h' : s₂.SameArg s₃) : s₁.SameArg s₃ :=
  ⟨h'.man.trans h.man, h'.nodes.trans h.nodes, h'.incoming.trans h.incoming, h'.covered.trans h.covered⟩

theorem PaState.SameArg.sym (h : s.SameArg s') : s'.sym = s.sym := by funext i; simp [PaState.sym, h.nodes]
theorem PaState.SameArg.preds (h : s.SameArg s') : s'.preds = s.preds := by funext i; simp [PaState.preds, h.nodes]
theorem PaState.SameArg.isCovered (h : s.SameArg s') : s'.isCovered = s.isCovered := by funext i; simp [PaState.isCovered, h.covered]
theorem PaState.SameArg.insts (h : s.SameArg s') : s'.instances = s.instances := by
  funext p; simp [PaState.instances, h.nodes, h.sym]
theorem PaState.SameArg.ext (h : s.SameArg s') : s.Ext s' :=
  ⟨by rw [h.nodes], fun i _ => by rw [h.sym], fun i f hf => by rw [h.preds]; exact hf⟩

theorem mem_enqueue {q q' : PaEdge T} : q' ∈ (s.enqueue q).queue ↔ q' = q ∨ q' ∈ s.queue := by
  unfold PaState.enqueue
  split
  · simp
  · simp [or_comm]

theorem enqueue_same (q : PaEdge T) : s.SameArg (s.enqueue q) := by
  unfold PaState.enqueue
  split <;> exact ⟨rfl, rfl, rfl, rfl⟩

theorem mem_insts {p : Pred} {i : Nat} : i ∈ s.instances p ↔ i < s.nodes.length ∧ s.sym i = p := by
  simp [PaState.instances]

/-- A tuple of uncovered nodes for the sources of a clause. -/
structure PaState.Match (s : PaState T) (e : Edge T) (t : List Nat) : Prop where
  lt : ∀ a ∈ t, a < s.nodes.length
  syms : t.map s.sym = e.src
  free : ∀ a ∈ t, s.isCovered a = false

theorem inLists_iff : ∀ {t : List Nat} {ps : List Pred}, InLists t (ps.map fun p => (s.instances p).filter fun i => !s.isCovered i) ↔
    (∀ a ∈ t, a < s.nodes.length) ∧ t.map s.sym = ps ∧ ∀ a ∈ t, s.isCovered a = false
  | [], [] => by simp [InLists]
  | [], _ :: _ => by simp [InLists]
  | _ :: _, [] => by simp [InLists]
  | a :: t, p :: ps => by
    simp only [List.map_cons, InLists, inLists_iff, List.mem_filter, mem_insts, List.forall_mem_cons, List.cons.injEq,
      Bool.not_eq_true']
    grind

/-- `considerTuple` adds the tuple, if at all. -/
structure Grow (G : Graph T) (s s' : PaState T) : Prop where
  same : s.SameArg s'
  sub : ∀ q ∈ s.queue, q ∈ s'.queue
  ok : (∀ q ∈ s.queue, s.EdgeOk G q) → ∀ q ∈ s'.queue, s'.EdgeOk G q

theorem Grow.refl (s : PaState T) : Grow G s s := ⟨.refl s, fun _ h => h, fun h => h⟩

theorem Grow.trans {s₁ s₂ s₃ : PaState T} (h : Grow G s₁ s₂) (h' : Grow G s₂ s₃) : Grow G s₁ s₃ :=
  ⟨h.same.trans h'.same, fun q hq => h'.sub q (h.sub q hq), fun hq => h'.ok (h.ok hq)⟩

theorem Grow.match (h : Grow G s s') {e : Edge T} {t : List Nat} : s'.Match e t ↔ s.Match e t := by
  constructor
  · rintro ⟨h1, h2, h3⟩
    exact ⟨by rw [← h.same.nodes]; exact h1, by rw [← h.same.sym]; exact h2, by rw [← h.same.isCovered]; exact h3⟩
  · rintro ⟨h1, h2, h3⟩
    exact ⟨by rw [h.same.nodes]; exact h1, by rw [h.same.sym]; exact h2, by rw [h.same.isCovered]; exact h3⟩

theorem considerTuple_grow (hid : ∀ e ∈ G, ∀ e' ∈ G, e.id = e'.id → e = e') {id : Nat} {e : Edge T} (he : e ∈ G) {t : List Nat}
    (hm : s.Match e t) : Grow G s (PaState.considerTuple id e s t) ∧
    ((∀ q ∈ s.queue, s.EdgeOk G q) → id ∈ t → (⟨e, t⟩ : PaEdge T) ∈ (PaState.considerTuple id e s t).queue) := by
  unfold PaState.considerTuple
  by_cases h1 : id ∈ t
  · rw [if_neg (fun h => h h1)]
    by_cases h2 : s.has ⟨e, t⟩ = true
    · rw [if_pos h2]
      refine ⟨Grow.refl s, fun hq _ => ?_⟩
      simp only [PaState.has, List.any_eq_true, Bool.and_eq_true, beq_iff_eq] at h2
      obtain ⟨q, hq1, hq2, hq3⟩ := h2
      have := hid _ (hq q hq1).mem _ he hq2
      obtain ⟨qe, qs⟩ := q
      simp only at this hq3
      subst this hq3
      exact hq1
    · rw [if_neg h2]
      refine ⟨⟨enqueue_same _, fun q hq => mem_enqueue.2 (.inr hq), fun hq q hq' => ?_⟩, fun _ _ => mem_enqueue.2 (.inl rfl)⟩
      rcases mem_enqueue.1 hq' with rfl | h
      · exact (enqueue_same _).ext.edgeOk ⟨he, hm.lt, hm.syms⟩
      · exact (enqueue_same _).ext.edgeOk (hq q h)
  · rw [if_pos h1]
    exact ⟨Grow.refl s, fun _ h => absurd h h1⟩

theorem considerTuples_grow (hid : ∀ e ∈ G, ∀ e' ∈ G, e.id = e'.id → e = e') {id : Nat} {e : Edge T} (he : e ∈ G) :
    ∀ (ts : List (List Nat)) (s : PaState T), (∀ t ∈ ts, s.Match e t) → Grow G s (ts.foldl (PaState.considerTuple id e) s) ∧
    ((∀ q ∈ s.queue, s.EdgeOk G q) → ∀ t ∈ ts, id ∈ t → (⟨e, t⟩ : PaEdge T) ∈ (ts.foldl (PaState.considerTuple id e) s).queue) := by
  intro ts
  induction ts with
  | nil => intro s _; exact ⟨Grow.refl s, fun _ t ht => by simp at ht⟩
  | cons t ts ih =>
    intro s h
    obtain ⟨h1, h2⟩ := considerTuple_grow hid (id := id) he (h t List.mem_cons_self)
    obtain ⟨h3, h4⟩ := ih (PaState.considerTuple id e s t) fun t' ht' => h1.match.2 (h t' (List.mem_cons_of_mem _ ht'))
    refine ⟨h1.trans h3, fun hq t' ht' hi => ?_⟩
    rcases List.mem_cons.1 ht' with rfl | ht'
    · exact h3.sub _ (h2 hq hi)
    · exact h4 (h1.ok hq) t' ht' hi

theorem considerClause_grow (hid : ∀ e ∈ G, ∀ e' ∈ G, e.id = e'.id → e = e') {id : Nat} {e : Edge T} (he : e ∈ G) (hne : e.src ≠ []) :
    Grow G s (PaState.considerClause id s e) ∧ ((∀ q ∈ s.queue, s.EdgeOk G q) → ∀ t, s.Match e t → id ∈ t →
      (⟨e, t⟩ : PaEdge T) ∈ (PaState.considerClause id s e).queue) := by
  have hmem : ∀ t, t ∈ paTuples (e.src.map fun p => (s.instances p).filter fun i => !s.isCovered i) ↔ s.Match e t := by
    intro t
    rw [paTuples_mem (by simpa using hne), inLists_iff]
    exact ⟨fun ⟨a, b, c⟩ => ⟨a, b, c⟩, fun ⟨a, b, c⟩ => ⟨a, b, c⟩⟩
  obtain ⟨h1, h2⟩ := considerTuples_grow hid (id := id) he _ s fun t ht => (hmem t).1 ht
  exact ⟨h1, fun hq t ht hi => h2 hq t ((hmem t).2 ht) hi⟩

/-- `newEdges` puts every tuple that contains the node into the queue. -/
theorem newEdges_grow {E : PaEnv T} (hG : PaGraph E.R E.G) (s : PaState T) (id : Nat) : Grow E.G s (E.newEdges s id) ∧
    ((∀ q ∈ s.queue, s.EdgeOk E.G q) → ∀ e ∈ E.G, ∀ t, s.Match e t → id ∈ t → (⟨e, t⟩ : PaEdge T) ∈ (E.newEdges s id).queue) := by
  have key : ∀ (es : List (Edge T)) (s : PaState T), (∀ e ∈ es, e ∈ E.G) → Grow E.G s (es.foldl (PaState.considerClause id) s) ∧
      ((∀ q ∈ s.queue, s.EdgeOk E.G q) → ∀ e ∈ es, ∀ t, s.Match e t → id ∈ t →
        (⟨e, t⟩ : PaEdge T) ∈ (es.foldl (PaState.considerClause id) s).queue) := by
    intro es
    induction es with
    | nil => intro s _; exact ⟨Grow.refl s, fun _ e he => by simp at he⟩
    | cons e es ih =>
      intro s h
      have he := h e List.mem_cons_self
      obtain ⟨h1, h2⟩ := considerClause_grow (s := s) hG.ids (id := id) he (hG.srcNe e he)
      obtain ⟨h3, h4⟩ := ih (PaState.considerClause id s e) fun e' he' => h e' (List.mem_cons_of_mem _ he')
      refine ⟨h1.trans h3, fun hq e' he' t ht hi => ?_⟩
      rcases List.mem_cons.1 he' with rfl | he'
      · exact h3.sub _ (h2 hq t ht hi)
      · exact h4 (h1.ok hq) e' he' t (h1.match.2 ht) hi
  obtain ⟨h1, h2⟩ := key (E.G.outEdges (s.sym id)) s fun e he => (mem_outEdges.1 he).1
  refine ⟨h1, fun hq e he t ht hi => h2 hq e (mem_outEdges.2 ⟨he, ?_⟩) t ht hi⟩
  rw [← ht.syms]
  exact List.mem_map.2 ⟨id, hi, rfl⟩

theorem newEdgesAll_grow {E : PaEnv T} (hG : PaGraph E.R E.G) : ∀ (ids : List Nat) (s : PaState T), Grow E.G s (ids.foldl E.newEdges s) ∧
    ((∀ q ∈ s.queue, s.EdgeOk E.G q) → ∀ id ∈ ids, ∀ e ∈ E.G, ∀ t, s.Match e t → id ∈ t →
      (⟨e, t⟩ : PaEdge T) ∈ (ids.foldl E.newEdges s).queue) := by
  intro ids
  induction ids with
  | nil => intro s; exact ⟨Grow.refl s, fun _ i hi => by simp at hi⟩
  | cons i ids ih =>
    intro s
    obtain ⟨h1, h2⟩ := newEdges_grow hG s i
    obtain ⟨h3, h4⟩ := ih (E.newEdges s i)
    refine ⟨h1.trans h3, fun hq j hj e he t ht hi => ?_⟩
    rcases List.mem_cons.1 hj with rfl | hj
    · exact h3.sub _ (h2 hq e he t ht hi)
    · exact h4 (h1.ok hq) j hj e he t (h1.match.2 ht) hi

/-! ### New nodes -/

theorem tryInsert_eq (p : Pred) (ps : List (Fla T)) : (s.tryInsert p ps).1.man = s.man ∧
    (s.tryInsert p ps).1.nodes = s.nodes ++ [⟨p, ps⟩] ∧ (s.tryInsert p ps).1.incoming = s.incoming ∧
    (s.tryInsert p ps).1.queue = s.queue := by
  unfold PaState.tryInsert
  split <;> exact ⟨rfl, rfl, rfl, rfl⟩

theorem sym_snoc_lt {n : PaNode T} (h : s'.nodes = s.nodes ++ [n]) {i : Nat} (hi : i < s.nodes.length) : s'.sym i = s.sym i := by
  unfold PaState.sym; rw [h, List.getElem?_append_left hi]

theorem preds_snoc_lt {n : PaNode T} (h : s'.nodes = s.nodes ++ [n]) {i : Nat} (hi : i < s.nodes.length) : s'.preds i = s.preds i := by
  unfold PaState.preds; rw [h, List.getElem?_append_left hi]

theorem sym_snoc {n : PaNode T} (h : s'.nodes = s.nodes ++ [n]) : s'.sym s.nodes.length = n.sym := by
  unfold PaState.sym; rw [h, List.getElem?_concat_length]; rfl

theorem preds_snoc {n : PaNode T} (h : s'.nodes = s.nodes ++ [n]) : s'.preds s.nodes.length = n.preds := by
  unfold PaState.preds; rw [h, List.getElem?_concat_length]; rfl

theorem preds_ge {i : Nat} (h : s.nodes.length ≤ i) : s.preds i = [] := by
  unfold PaState.preds; rw [List.getElem?_eq_none h]; rfl

theorem ext_snoc {n : PaNode T} (h : s'.nodes = s.nodes ++ [n]) : s.Ext s' := by
  refine ⟨by rw [h]; simp, fun i hi => sym_snoc_lt h hi, fun i f hf => ?_⟩
  rcases Nat.lt_or_ge i s.nodes.length with hi | hi
  · rw [preds_snoc_lt h hi]; exact hf
  · rw [preds_ge hi] at hf; simp at hf

/-! ### Refinement of the predicates -/

/-- Only the predicates of nodes grow. -/
structure Refined (s s' : PaState T) : Prop where
  man : s'.man = s.man
  incoming : s'.incoming = s.incoming
  covered : s'.covered = s.covered
  queue : s'.queue = s.queue
  len : s'.nodes.length = s.nodes.length
  sym : s'.sym = s.sym
  preds : ∀ i, ∀ f ∈ s.preds i, f ∈ s'.preds i

theorem Refined.refl (s : PaState T) : Refined s s := ⟨rfl, rfl, rfl, rfl, rfl, rfl, fun _ _ h => h⟩

theorem Refined.trans {s₁ s₂ s₃ : PaState T} (h : Refined s₁ s₂) (h' : Refined s₂ s₃) : Refined s₁ s₃ :=
  ⟨h'.man.trans h.man, h'.incoming.trans h.incoming, h'.covered.trans h.covered, h'.queue.trans h.queue, h'.len.trans h.len,
    h'.sym.trans h.sym, fun i f hf => h'.preds i f (h.preds i f hf)⟩

theorem Refined.ext (h : Refined s s') : s.Ext s' := ⟨by rw [h.len], fun i _ => by rw [h.sym], h.preds⟩

theorem Refined.isCovered (h : Refined s s') : s'.isCovered = s.isCovered := by funext i; simp [PaState.isCovered, h.covered]

theorem Refined.inc (h : Refined s s') {i : Nat} {e : ArgEdge T} : s'.IncOk G i e ↔ s.IncOk G i e := by
  constructor
  · rintro ⟨h1, h2, h3, h4, h5, h6⟩
    exact ⟨by rw [← h.incoming]; exact h1, h2, by rw [← h.sym]; exact h3, by rw [← h.sym]; exact h4, h5, by rw [← h.sym]; exact h6⟩
  · rintro ⟨h1, h2, h3, h4, h5, h6⟩
    exact ⟨by rw [h.incoming]; exact h1, h2, by rw [h.sym]; exact h3, by rw [h.sym]; exact h4, h5, by rw [h.sym]; exact h6⟩

/-- What one iteration of `refine` does. -/
theorem refineNode_eq {E : PaEnv T} (hord : ∀ l f, f ∈ E.ord l ↔ f ∈ l) (hs : PaStruct G s) {info : List (Pred × Fla T)}
    {changed : List Nat} {nid : Nat} (h0 : 0 < nid) (hlt : nid < s.nodes.length) {e : ArgEdge T} (he : s.IncOk G nid e) :
    ∃ s' changed', E.refineNode info s changed nid = .done (s', changed') ∧ Refined s s' ∧
      (∀ i, i ≠ nid → s'.preds i = s.preds i) ∧ (∀ i ∈ changed, i ∈ changed') ∧ (∀ i ∈ changed', i ∈ changed ∨ i = nid) ∧
      (s'.preds nid ≠ s.preds nid → nid ∈ changed') ∧
      ∃ cands, (∀ c, c ∈ cands → c ∈ paNew info (s.sym nid) ∨ c ∈ s.man (s.sym nid)) ∧
        (∀ c ∈ paNew info (s.sym nid), c ∈ s.man (s.sym nid) ∨ c ∈ cands) ∧
        ((∃ a ∈ e.sources, a ∈ changed) → ∀ c ∈ s.man (s.sym nid), c ∈ s.preds nid ∨ c ∈ cands) ∧
        ∀ f, f ∈ s'.preds nid ↔ f ∈ s.preds nid ∨ f ∈ E.propagated s cands e.sources e.clause.fla := by
  unfold PaEnv.refineNode
  rw [he.only]
  simp only
  have hprop_nil : E.propagated s [] e.sources e.clause.fla = [] := by
    simp [PaEnv.propagated, checkEntailmentOneByOne]
  by_cases h1 : (!(e.sources.any fun a => decide (a ∈ changed)) && (paNew info (s.sym nid)).isEmpty) = true
  · rw [if_pos h1]
    simp only [Bool.and_eq_true, Bool.not_eq_true', List.isEmpty_iff, List.any_eq_false, decide_eq_true_eq] at h1
    refine ⟨s, changed, rfl, Refined.refl s, fun _ _ => rfl, fun _ h => h, fun _ h => .inl h, fun h => absurd rfl h, [], ?_, ?_, ?_, ?_⟩
    · simp
    · rw [h1.2]; simp
    · rintro ⟨a, ha, hc⟩; exact absurd hc (h1.1 a ha)
    · rw [hprop_nil]; simp
  rw [if_neg h1]
  generalize hC : E.ord ((paNew info (s.sym nid)).filter (fun c => decide (c ∉ s.man (s.sym nid))) ++
    if (e.sources.any fun a => decide (a ∈ changed)) = true then (s.man (s.sym nid)).filter fun c => decide (c ∉ s.preds nid) else []) = cands
  have hc : ∀ c, c ∈ cands ↔ (c ∈ paNew info (s.sym nid) ∧ c ∉ s.man (s.sym nid)) ∨
      ((∃ a ∈ e.sources, a ∈ changed) ∧ c ∈ s.man (s.sym nid) ∧ c ∉ s.preds nid) := by
    intro c
    rw [← hC, hord]
    by_cases h2 : (e.sources.any fun a => decide (a ∈ changed)) = true
    · rw [if_pos h2]
      simp only [List.any_eq_true, decide_eq_true_eq] at h2
      simp [h2]
    · rw [if_neg h2]
      simp only [List.any_eq_true, decide_eq_true_eq] at h2
      simp [h2]
  have c1 : ∀ c, c ∈ cands → c ∈ paNew info (s.sym nid) ∨ c ∈ s.man (s.sym nid) := by
    intro c h; rcases (hc c).1 h with h | h
    · exact .inl h.1
    · exact .inr h.2.1
  have c2 : ∀ c ∈ paNew info (s.sym nid), c ∈ s.man (s.sym nid) ∨ c ∈ cands := by
    intro c h
    by_cases hm : c ∈ s.man (s.sym nid)
    · exact .inl hm
    · exact .inr ((hc c).2 (.inl ⟨h, hm⟩))
  have c3 : (∃ a ∈ e.sources, a ∈ changed) → ∀ c ∈ s.man (s.sym nid), c ∈ s.preds nid ∨ c ∈ cands := by
    intro hx c hm
    by_cases hp : c ∈ s.preds nid
    · exact .inl hp
    · exact .inr ((hc c).2 (.inr ⟨hx, hm, hp⟩))
  by_cases h2 : cands.isEmpty = true
  · rw [if_pos h2]
    rw [List.isEmpty_iff] at h2
    exact ⟨s, changed, rfl, Refined.refl s, fun _ _ => rfl, fun _ h => h, fun _ h => .inl h, fun h => absurd rfl h, cands, c1, c2, c3,
      by rw [h2, hprop_nil]; simp⟩
  rw [if_neg h2]
  by_cases h3 : (E.propagated s cands e.sources e.clause.fla).isEmpty = true
  · rw [if_pos h3]
    rw [List.isEmpty_iff] at h3
    exact ⟨s, changed, rfl, Refined.refl s, fun _ _ => rfl, fun _ h => h, fun _ h => .inl h, fun h => absurd rfl h, cands, c1, c2, c3,
      by rw [h3]; simp⟩
  rw [if_neg h3]
  have hp : ∀ i, ({ s with nodes := s.nodes.modify nid fun a => { a with preds := E.ord (a.preds ++ E.propagated s cands e.sources e.clause.fla) } } :
      PaState T).preds i = if i = nid then E.ord (s.preds nid ++ E.propagated s cands e.sources e.clause.fla) else s.preds i := by
    intro i
    simp only [PaState.preds, List.getElem?_modify]
    by_cases hi : i = nid
    · subst hi
      rw [List.getElem?_eq_getElem hlt]
      simp
    · have hi' : ¬ nid = i := fun h => hi h.symm
      simp [hi, hi']
  have hsy : ({ s with nodes := s.nodes.modify nid fun a => { a with preds := E.ord (a.preds ++ E.propagated s cands e.sources e.clause.fla) } } :
      PaState T).sym = s.sym := by
    funext i
    simp only [PaState.sym, List.getElem?_modify]
    by_cases hi : nid = i
    · subst hi
      rw [List.getElem?_eq_getElem hlt]
      simp
    · simp [hi]
  refine ⟨_, nid :: changed, rfl, ⟨rfl, rfl, rfl, rfl, by simp, hsy, ?_⟩, ?_, fun _ h => List.mem_cons_of_mem _ h,
    fun i hi => ((List.mem_cons.1 hi).symm), fun _ => List.mem_cons_self, cands, c1, c2, c3, ?_⟩
  · intro i f hf
    rw [hp]
    split
    · next hi => subst hi; rw [hord]; exact List.mem_append_left _ hf
    · exact hf
  · intro i hi
    rw [hp, if_neg hi]
  · intro f
    rw [hp, if_pos rfl, hord, List.mem_append]

end Golem
