import Verif.Lemmas.ArgFinal
import Verif.Lemmas.Smt
import Verif.Props.CheckSat

/-! C67: the predicate abstraction engine (`pa`). -/

namespace Golem
variable {T : Theory}

/-- What the engine leaves to the library: sets keep their elements, and `getVertices` lists the vertices. -/
structure PaOrders (ord : List (Fla T) → List (Fla T)) (ordC : List (Nat × Nat) → List (Nat × Nat)) (verts : Graph T → List Pred) : Prop where
  ord : ∀ l f, f ∈ ord l ↔ f ∈ l
  ordC : ∀ l c, c ∈ ordC l ↔ c ∈ l
  verts : ∀ G p, p ∈ verts G ↔ G.Vertex p

section run
variable {E : PaEnv T} {s : PaState T}

/-- All labels of an unfolded proof hold in a model. -/
theorem pa_labels_hold {tree : List (PaTree T)} (hI : E.I.Correct) (h : E.I.check (paLabels E.R tree) = .sat) (n : Nat) (t : PaTree T)
    (ht : tree[n]? = some t) : (paLabel E.R tree (paVersions tree) n t.clause).holds (E.I.model (paLabels E.R tree)) :=
  hI.sat _ h _ (List.mem_of_getElem? (paLabels_get ht))

/-- A proof that consists of one step. -/
theorem makeOk_single {q : PaEdge T} {tree : List (PaTree T)} (h : MakeOk E.G s q tree) (hs : q.edge.src = [.tru]) : tree.length = 1 := by
  have hk : paChildren tree 0 = [] := by
    rcases h.shape.kids 0 _ h.root with ⟨_, h2⟩ | ⟨h1, _⟩
    · exact h2
    · rw [show (⟨none, q.edge, none⟩ : PaTree T).clause.src = q.edge.src from rfl, hs] at h1
      simp at h1
  refine Classical.byContradiction fun hne => ?_
  have hpos := h.shape.pos
  have h1 : 1 < tree.length := by omega
  obtain ⟨_, p, hp, hp1⟩ := h.shape.node 1 tree[1] (by omega) (by simp)
  have : p = 0 := by omega
  subst this
  have : 1 ∈ paChildren tree 0 := mem_paChildren.2 ⟨tree[1], by simp, hp⟩
  rw [hk] at this
  simp at this

/-- The loop, UNSAFE. -/
theorem pa_run_unsafe (hE : E.Ok) (hI : E.I.Correct) (w : Bool) : ∀ (fuel : Nat) (s : PaState T) (r : VerificationResult T), PaBase E s →
    E.run w fuel s = .done r → (r.answer = .unsafeAns → E.G.Unsafe E.R ∧ (w = true → ∃ ds, ds ≠ [] ∧ r.witness = .invalidity ds)) ∧
    (∀ ds, r.witness = .invalidity ds → r.answer = .unsafeAns ∧ UnsafeWitness E.R E.G ds ∧ ShortFor E.G ds) ∧
    (r.answer = .unsafeAns ∨ r.answer = .safe) := by
  intro fuel
  induction fuel with
  | zero => intro s r _ h; cases h
  | succ fuel ih =>
    intro s r hb h
    rw [PaEnv.run] at h
    cases hq : s.queue with
    | nil =>
      rw [hq] at h
      simp only [Outcome.done.injEq] at h
      subst h
      refine ⟨fun h => (by cases h), fun ds h => ?_, .inr rfl⟩
      cases w <;> simp at h
    | cons q rest =>
      rw [hq] at h
      simp only at h
      have hb' : PaBase E { s with queue := rest } :=
        ⟨⟨hb.struct.root, fun i h0 hi => by
            obtain ⟨e, a1, a2, a3, a4, a5, a6⟩ := hb.struct.inc i h0 hi
            exact ⟨e, a1, a2, a3, a4, a5, a6⟩, hb.struct.tgt⟩, fun q' hq' => by
          obtain ⟨a1, a2, a3⟩ := hb.queue q' (by rw [hq]; exact List.mem_cons_of_mem _ hq')
          exact ⟨a1, a2, a3⟩⟩
      have hqo : PaState.EdgeOk E.G { s with queue := rest } q := by
        obtain ⟨a1, a2, a3⟩ := hb.queue q (by rw [hq]; exact List.mem_cons_self)
        exact ⟨a1, a2, a3⟩
      rcases pa_step_base hE w hb' hqo with ⟨tree, _, h1, h2, h3⟩ | ⟨_, _, _, _, h3⟩ | ⟨s', h3, h4⟩
      · rw [h3] at h
        simp only [Outcome.done.injEq] at h
        subst h
        obtain ⟨hd, hlen⟩ := paDerivation_ok hE.graph h1.shape (pa_labels_hold hI h2)
        have hds : ∀ ds, (if w = true then Witness.invalidity (paDerivation E.R tree (E.I.model (paLabels E.R tree))) else .none) = .invalidity ds →
            w = true ∧ ds = paDerivation E.R tree (E.I.model (paLabels E.R tree)) := by
          intro ds h
          cases w <;> simp at h
          exact ⟨rfl, h.symm⟩
        refine ⟨fun _ => ⟨hd.unsafe, fun hw => ?_⟩, fun ds h => ?_, .inl rfl⟩
        · subst hw
          refine ⟨_, ?_, rfl⟩
          intro hnil
          obtain ⟨d, hd0, _⟩ := hd.first
          rw [hnil] at hd0
          simp at hd0
        · obtain ⟨_, rfl⟩ := hds ds h
          refine ⟨rfl, hd, fun hall => ?_⟩
          have hone := makeOk_single h1 (hall _ hqo.mem).1
          rw [hone] at hlen
          obtain ⟨d0, hd0, hf0, _⟩ := hd.first
          obtain ⟨d1, hd1, hf1⟩ := hd.last
          match hl : paDerivation E.R tree (E.I.model (paLabels E.R tree)), hlen with
          | [], _ => rw [hl] at hd0; simp at hd0
          | [a], _ =>
            rw [hl] at hd0 hd1
            simp at hd0 hd1
            subst hd0 hd1
            rw [hf0] at hf1
            cases hf1
          | [a, b], _ => rfl
          | a :: b :: c :: l, hlen => simp at hlen
      · rw [h3] at h; cases h
      · rw [h3] at h
        exact ih s' r h4 h

/-- The loop, SAFE. -/
theorem pa_run_safe (hE : E.Ok) (hv : ∀ p, p ∈ E.verts ↔ E.G.Vertex p) (hS : E.S.Correct) (hc : E.S.Complete) (hI : E.I.Sound) (hT : E.I.TreeItp)
    (w : Bool) : ∀ (fuel : Nat) (s : PaState T) (r : VerificationResult T), PaBase E s → PaSafe E s (fun _ => False) →
    E.run w fuel s = .done r → (r.answer = .safe → ∃ D, SafeWitness E.R E.G D ∧ (w = true → r.witness = .validity D)) ∧
    ∀ D, r.witness = .validity D → r.answer = .safe ∧ SafeWitness E.R E.G D := by
  intro fuel
  induction fuel with
  | zero => intro s r _ _ h; cases h
  | succ fuel ih =>
    intro s r hb hs h
    rw [PaEnv.run] at h
    cases hq : s.queue with
    | nil =>
      rw [hq] at h
      simp only [Outcome.done.injEq] at h
      subst h
      have hd := pa_definitions_ok hE hv hb hs hq
      refine ⟨fun _ => ⟨_, hd, fun hw => by subst hw; rfl⟩, fun D h => ?_⟩
      cases w <;> simp at h
      subst h
      exact ⟨rfl, hd⟩
    | cons q rest =>
      rw [hq] at h
      simp only at h
      have hb' : PaBase E { s with queue := rest } :=
        ⟨⟨hb.struct.root, fun i h0 hi => by
            obtain ⟨e, a1, a2, a3, a4, a5, a6⟩ := hb.struct.inc i h0 hi
            exact ⟨e, a1, a2, a3, a4, a5, a6⟩, hb.struct.tgt⟩, fun q' hq' => by
          obtain ⟨a1, a2, a3⟩ := hb.queue q' (by rw [hq]; exact List.mem_cons_of_mem _ hq')
          exact ⟨a1, a2, a3⟩⟩
      have hqo : PaState.EdgeOk E.G { s with queue := rest } q := by
        obtain ⟨a1, a2, a3⟩ := hb.queue q (by rw [hq]; exact List.mem_cons_self)
        exact ⟨a1, a2, a3⟩
      have hs' : PaSafe E { s with queue := rest } (· = q) := by
        refine ⟨hs.manVars, hs.predVars, fun i h0 hi e he => ?_, fun c hc => ?_, fun e he t ht => ?_⟩
        · obtain ⟨a1, a2, a3, a4, a5, a6⟩ := he
          exact hs.node i h0 hi e ⟨a1, a2, a3, a4, a5, a6⟩
        · obtain ⟨a1, a2, a3, a4⟩ := hs.cover c hc
          exact ⟨a1, a2, a3, a4⟩
        · obtain ⟨a1, a2, a3⟩ := ht
          rcases (hs.closed e he t ⟨a1, a2, a3⟩).resolve_left id with hh | hh | hh
          · rw [hq] at hh
            rcases List.mem_cons.1 hh with hh | hh
            · exact .inl hh
            · exact .inr (.inl hh)
          · exact .inr (.inr (.inl hh))
          · exact .inr (.inr (.inr hh))
      rcases pa_step_base hE w hb' hqo with ⟨tree, _, h1, h2, h3⟩ | ⟨_, _, _, _, h3⟩ | ⟨s', h3, h4⟩
      · rw [h3] at h
        simp only [Outcome.done.injEq] at h
        subst h
        refine ⟨fun h => (by cases h), fun D h => ?_⟩
        cases w <;> simp at h
      · rw [h3] at h; cases h
      · rw [h3] at h
        exact ih s' r h4 (pa_step_safe hE hS hc hI hT w hb' hqo hs' h3) h

/-- The loop never fails with a complete interpolating solver. -/
theorem pa_run_total (hE : E.Ok) (hI : E.I.Complete) (w : Bool) : ∀ (fuel : Nat) (s : PaState T), PaBase E s → E.run w fuel s ≠ .thrown := by
  intro fuel
  induction fuel with
  | zero => intro s _ h; cases h
  | succ fuel ih =>
    intro s hb h
    rw [PaEnv.run] at h
    cases hq : s.queue with
    | nil => rw [hq] at h; cases h
    | cons q rest =>
      rw [hq] at h
      simp only at h
      have hb' : PaBase E { s with queue := rest } :=
        ⟨⟨hb.struct.root, fun i h0 hi => by
            obtain ⟨e, a1, a2, a3, a4, a5, a6⟩ := hb.struct.inc i h0 hi
            exact ⟨e, a1, a2, a3, a4, a5, a6⟩, hb.struct.tgt⟩, fun q' hq' => by
          obtain ⟨a1, a2, a3⟩ := hb.queue q' (by rw [hq]; exact List.mem_cons_of_mem _ hq')
          exact ⟨a1, a2, a3⟩⟩
      have hqo : PaState.EdgeOk E.G { s with queue := rest } q := by
        obtain ⟨a1, a2, a3⟩ := hb.queue q (by rw [hq]; exact List.mem_cons_self)
        exact ⟨a1, a2, a3⟩
      rcases pa_step_base hE w hb' hqo with ⟨tree, _, h1, h2, h3⟩ | ⟨tree, _, h1, h2, h3⟩ | ⟨s', h3, h4⟩
      · rw [h3] at h; cases h
      · rcases hI (paLabels E.R tree) with hh | hh
        · exact h1 hh
        · exact h2 hh
      · rw [h3] at h
        exact ih s' h4 h

end run

section solve
variable {S I : Smt T} {Ex : ElimExcept T} {ord : List (Fla T) → List (Fla T)} {ordC : List (Nat × Nat) → List (Nat × Nat)}
  {verts : Graph T → List Pred} {w hasArrays : Bool} {fuel : Nat} {R : PRepr} {st : GS T} {r : VerificationResult T}

theorem pa_env (hEx : Ex.Exact) (hO : PaOrders ord ordC verts) (hR : R.WF) (hF : R.FreshNames) (hst : st.Inv R) :
    (⟨S, I, R, pauxPass R Ex 0 st.edges, ord, ordC, verts st.edges⟩ : PaEnv T).Ok :=
  ⟨pauxPass_graph hR hF hEx hst 0, hO.ord, hO.ordC⟩

/-- C67, UNSAFE: whatever the solver for the abstraction answers, if the interpolating solver finds real models, the answer UNSAFE is
right, and the derivation is a derivation of `false` from the clauses of the input; with witnesses there always is one. -/
theorem C67_unsafe (hI : I.Correct) (hEx : Ex.Exact) (hO : PaOrders ord ordC verts) (hR : R.WF) (hF : R.FreshNames) (hst : st.Inv R)
    (h : paSolve S I Ex ord ordC verts w hasArrays fuel R st = .done r) :
    (r.answer = .unsafeAns → st.edges.Unsafe R ∧ (w = true → ∃ ds, ds ≠ [] ∧ r.witness = .invalidity ds)) ∧
    ∀ ds, r.witness = .invalidity ds → r.answer = .unsafeAns ∧ UnsafeWitness R st.edges ds ∧ ShortFor st.edges ds := by
  unfold paSolve at h
  by_cases ha : hasArrays = true
  · rw [if_pos ha] at h
    cases h
    exact ⟨fun h => (by cases h), fun _ h => (by cases h)⟩
  · rw [if_neg ha] at h
    have hE := pa_env (S := S) (I := I) hEx hO hR hF hst
    obtain ⟨h1, h2, _⟩ := pa_run_unsafe hE hI w fuel _ r (pa_init_base hE) h
    refine ⟨fun hr => ⟨?_, (h1 hr).2⟩, fun ds hd => ?_⟩
    · have := (h1 hr).1
      unfold Graph.Unsafe at this ⊢
      exact this.mono fun r hr => (pauxPass_rules hEx r).1 hr
    · obtain ⟨a1, a2, a3⟩ := h2 ds hd
      refine ⟨a1, pauxPass_witness hEx a2, fun hall => a3 fun e he => ?_⟩
      obtain ⟨e0, he0, k, rfl⟩ := mem_pauxPass he
      exact hall e0 he0

/-- C67, SAFE: with a solver for the abstraction that decides every query, and tree interpolants from the interpolating solver, the
answer SAFE is right, and the definitions (one for every vertex) are a model of the input. -/
theorem C67_safe (hS : S.Correct) (hc : S.Complete) (hI : I.Sound) (hT : I.TreeItp) (hEx : Ex.Exact) (hO : PaOrders ord ordC verts)
    (hR : R.WF) (hF : R.FreshNames) (hst : st.Inv R) (h : paSolve S I Ex ord ordC verts w hasArrays fuel R st = .done r) :
    (r.answer = .safe → ¬ st.edges.Unsafe R ∧ (w = true → ∃ D, r.witness = .validity D)) ∧
    ∀ D, r.witness = .validity D → r.answer = .safe ∧ SafeWitness R st.edges D := by
  unfold paSolve at h
  by_cases ha : hasArrays = true
  · rw [if_pos ha] at h
    cases h
    exact ⟨fun h => (by cases h), fun _ h => (by cases h)⟩
  · rw [if_neg ha] at h
    have hE := pa_env (S := S) (I := I) hEx hO hR hF hst
    obtain ⟨h1, h2⟩ := pa_run_safe hE (fun p => (hO.verts st.edges p).trans (pauxPass_vertex p).symm) hS hc hI hT w fuel _ r
      (pa_init_base hE) (pa_init_safe hE) h
    refine ⟨fun hr => ?_, fun D hd => ?_⟩
    · obtain ⟨D, d1, d2⟩ := h1 hr
      exact ⟨(pauxPass_safe hEx d1).safe, fun hw => ⟨D, d2 hw⟩⟩
    · obtain ⟨a1, a2⟩ := h2 D hd
      exact ⟨a1, pauxPass_safe hEx a2⟩

/-- C67: every result of the predicate abstraction engine is right, with its witness. -/
theorem C67_result (hS : S.Correct) (hc : S.Complete) (hI : I.Sound) (hT : I.TreeItp) (hEx : Ex.Exact) (hO : PaOrders ord ordC verts)
    (hR : R.WF) (hF : R.FreshNames) (hst : st.Inv R) (h : paSolve S I Ex ord ordC verts w hasArrays fuel R st = .done r) :
    HyperResultOk R st.edges r := by
  obtain ⟨u1, u2⟩ := C67_unsafe hI.correct hEx hO hR hF hst h
  obtain ⟨s1, s2⟩ := C67_safe hS hc hI hT hEx hO hR hF hst h
  exact ⟨fun hr => (u1 hr).1, fun hr => (s1 hr).1, fun D hd _ => ⟨(s2 D hd).1, (s2 D hd).2.good⟩, fun ds hd _ => u2 ds hd⟩

/-- C67, totality: the engine never fails if the interpolating solver decides every query; without arrays, it answers SAFE or UNSAFE
when it stops. -/
theorem C67_total (hEx : Ex.Exact) (hO : PaOrders ord ordC verts) (hR : R.WF) (hF : R.FreshNames) (hst : st.Inv R) :
    (I.Complete → paSolve S I Ex ord ordC verts w hasArrays fuel R st ≠ .thrown) ∧
    (I.Correct → paSolve S I Ex ord ordC verts w false fuel R st = .done r → r.answer = .unsafeAns ∨ r.answer = .safe) := by
  have hE := pa_env (S := S) (I := I) hEx hO hR hF hst
  refine ⟨fun hI h => ?_, fun hI h => ?_⟩
  · unfold paSolve at h
    by_cases ha : hasArrays = true
    · rw [if_pos ha] at h; cases h
    · rw [if_neg ha] at h
      exact pa_run_total hE hI w fuel _ (pa_init_base hE) h
  · unfold paSolve at h
    rw [if_neg (by simp)] at h
    exact (pa_run_unsafe hE hI w fuel _ r (pa_init_base hE) h).2.2

/-- C67: as the engine of a `(check-sat)`. -/
theorem C67_engine (hS : S.Correct) (hc : S.Complete) (hI : I.Sound) (hT : I.TreeItp) (hEx : Ex.Exact) (hO : PaOrders ord ordC verts)
    (w hasArrays : Bool) (fuel : Nat) : CheckEngine.Good (paSolve S I Ex ord ordC verts w hasArrays fuel) :=
  fun _ _ _ hR hF hst _ h => C67_result hS hc hI hT hEx hO hR hF hst h

end solve

/-! ### Refinement rules out the refuted proof -/

/-- The states of a run. -/
inductive PaReach (E : PaEnv T) (w : Bool) : PaState T → Prop where
  | init : PaReach E w E.init
  | step {s s' : PaState T} {q : PaEdge T} {rest : List (PaEdge T)} : PaReach E w s → s.queue = q :: rest →
      E.step w { s with queue := rest } q = .done (.inr s') → PaReach E w s'

section reach
variable {E : PaEnv T}

/-- Taking an edge from the queue. -/
theorem pa_pop {s : PaState T} {q : PaEdge T} {rest : List (PaEdge T)} (hb : PaBase E s) (hs : PaSafe E s (fun _ => False)) (hq : s.queue = q :: rest) :
    PaBase E { s with queue := rest } ∧ PaState.EdgeOk E.G { s with queue := rest } q ∧ PaSafe E { s with queue := rest } (· = q) := by
  refine ⟨⟨⟨hb.struct.root, fun i h0 hi => ?_, hb.struct.tgt⟩, fun q' hq' => ?_⟩, ?_, hs.manVars, hs.predVars, fun i h0 hi e he => ?_, fun c hc => ?_,
    fun e he t ht => ?_⟩
  · obtain ⟨e, a1, a2, a3, a4, a5, a6⟩ := hb.struct.inc i h0 hi
    exact ⟨e, a1, a2, a3, a4, a5, a6⟩
  · obtain ⟨a1, a2, a3⟩ := hb.queue q' (by rw [hq]; exact List.mem_cons_of_mem _ hq')
    exact ⟨a1, a2, a3⟩
  · obtain ⟨a1, a2, a3⟩ := hb.queue q (by rw [hq]; exact List.mem_cons_self)
    exact ⟨a1, a2, a3⟩
  · obtain ⟨a1, a2, a3, a4, a5, a6⟩ := he
    exact hs.node i h0 hi e ⟨a1, a2, a3, a4, a5, a6⟩
  · obtain ⟨a1, a2, a3, a4⟩ := hs.cover c hc
    exact ⟨a1, a2, a3, a4⟩
  · obtain ⟨a1, a2, a3⟩ := ht
    rcases (hs.closed e he t ⟨a1, a2, a3⟩).resolve_left id with hh | hh | hh
    · rw [hq] at hh
      rcases List.mem_cons.1 hh with hh | hh
      · exact .inl hh
      · exact .inr (.inl hh)
    · exact .inr (.inr (.inl hh))
    · exact .inr (.inr (.inr hh))

theorem PaReach.inv (hE : E.Ok) (hS : E.S.Correct) (hc : E.S.Complete) (hI : E.I.Sound) (hT : E.I.TreeItp) {w : Bool} {s : PaState T}
    (h : PaReach E w s) : PaBase E s ∧ PaSafe E s fun _ => False := by
  induction h with
  | init => exact ⟨pa_init_base hE, pa_init_safe hE⟩
  | step _ hq hs ih =>
    obtain ⟨b, hqo, s'⟩ := pa_pop ih.1 ih.2 hq
    refine ⟨?_, pa_step_safe hE hS hc hI hT w b hqo s' hs⟩
    rcases pa_step_base hE w b hqo with ⟨tree, _, h1, h2, h3⟩ | ⟨_, _, _, _, h3⟩ | ⟨s', h3, h4⟩
    · rw [h3] at hs; simp at hs
    · rw [h3] at hs; cases hs
    · rw [h3] at hs
      simp only [Outcome.done.injEq, Sum.inr.injEq] at hs
      subst hs; exact h4

/-- The states that the predicates at the nodes `sources` allow for the sources of a clause: `f` is a predicate at the `i`-th node; its
argument variables stand for the source variables of the `i`-th instance. -/
def PaState.Allows (s : PaState T) (e : Edge T) (sources : List Nat) (ρ : Valuation T) : Prop :=
  ∀ (i a : Nat) (x : Pred × Nat) (f : Fla T), sources[i]? = some a → (Golem.instances e.src)[i]? = some x → f ∈ s.preds a → (f.rename (toSrc x.2)).holds ρ

/-- C67, refinement: in every state of a run, if the edge taken from the queue is a query and the run goes on, then afterwards the query
is infeasible in the refined abstraction: no valuation satisfies the clause and the predicates of its source nodes. -/
theorem C67_refinement (hE : E.Ok) (hS : E.S.Correct) (hc : E.S.Complete) (hI : E.I.Sound) (hT : E.I.TreeItp) {w : Bool} {s s' : PaState T}
    (h : PaReach E w s) {q : PaEdge T} {rest : List (PaEdge T)} (hq : s.queue = q :: rest) (hf : q.edge.tgt = .fls)
    (hs : E.step w { s with queue := rest } q = .done (.inr s')) (ρ : Valuation T) (hρ : q.edge.fla.holds ρ) : ¬ s'.Allows q.edge q.sources ρ := by
  obtain ⟨hb0, hs0⟩ := h.inv hE hS hc hI hT
  obtain ⟨hb, hqo, hsf⟩ := pa_pop hb0 hs0 hq
  have key : s'.Infeasible q ∧ q.sources.map s'.sym = q.edge.src := by
    unfold PaEnv.step at hs
    by_cases hfe : (!E.feasible { s with queue := rest } q) = true
    · rw [if_pos hfe] at hs
      cases hs
      refine ⟨fun ρ hρ hh => ?_, hqo.syms⟩
      simp only [PaEnv.feasible, Bool.not_eq_true', decide_eq_false_iff_not, Classical.not_not] at hfe
      refine hS.unsat _ hfe ⟨ρ, fun f hf' => ?_⟩
      rcases List.mem_cons.1 hf' with rfl | hf'
      · exact hρ
      · exact hh f hf'
    rw [if_neg hfe, if_pos hf] at hs
    obtain ⟨tree, h1, h2⟩ := paMake_ok hE.graph hb.struct hqo hf
    unfold PaEnv.query at hs
    rw [h1] at hs
    simp only at hs
    cases hcI : E.I.check (paLabels E.R tree) with
    | sat => rw [hcI] at hs; simp at hs
    | unsat =>
      rw [hcI] at hs
      simp only at hs
      cases hr : E.refine (E.refinement tree) { s with queue := rest } with
      | done s'' =>
        rw [hr] at hs
        cases hs
        refine ⟨(hsf.refine hE hS hc hI hT hb hqo h2 hcI hr).2, ?_⟩
        obtain ⟨s1, s3, g1, g2, g3, g4, g, hb'⟩ := pa_refine_base hE (E.refinement tree) hb
        obtain rfl : s' = s3 := Outcome.done.inj (hr.symm.trans g4)
        have hsym : s'.sym = s.sym := by
          funext i
          have : s'.nodes = s1.nodes := g.same.nodes
          have h2 : s'.sym i = s1.sym i := by unfold PaState.sym; rw [this]
          rw [h2, g2.sym]; rfl
        rw [hsym]; exact hqo.syms
      | thrown => rw [hr] at hs; cases hs
      | outOfFuel => rw [hr] at hs; cases hs
    | unknown => rw [hcI] at hs; cases hs
    | error => rw [hcI] at hs; cases hs
  intro ha
  refine key.1 ρ hρ fun f hf' => ?_
  unfold PaState.srcStates at hf'
  rw [key.2] at hf'
  obtain ⟨⟨a, x⟩, hm, rfl⟩ := List.mem_map.1 hf'
  obtain ⟨i, hi⟩ := List.getElem?_of_mem hm
  rw [List.getElem?_zip_eq_some] at hi
  rw [Fla.holds_rename]
  refine holds_conj_iff.2 fun g hg => ?_
  have := ha i a x g hi.1 hi.2 hg
  rwa [Fla.holds_rename] at this

end reach

/-! ### The whole `check-sat` -/

section check
variable {S I : Smt T} {Ex : ElimExcept T} {ord : List (Fla T) → List (Fla T)} {ordC : List (Nat × Nat) → List (Nat × Nat)}
  {verts : Graph T → List Pred} {w hasArrays printW validateW : Bool} {pfuel fuel : Nat} {P : Smt T} {El : Elim T} {rw : Fla T → Fla T}
  {order : Graph T → List Pred} {ar : Pred → Nat} {cs : List (Clause T)}

/-- C67, `(check-sat)` with `-e pa`: for all legal clauses (linear or not), `sat` is printed only if they have a model and `unsat` only
if they have none, and a printed refutation is a derivation of `false` from the input clauses. -/
theorem C67_check (hP : P.Sound) (hrw : RewriteExact rw) (hEl : El.Exact) (hEx : Ex.Exact) (ho : IsOrder order) (hS : S.Correct) (hc : S.Complete) (hI : I.Sound)
    (hT : I.TreeItp) (hO : PaOrders ord ordC verts) (hin : LegalInput ar cs) (ha : RewritesApart rw cs) :
    (.answer .safe ∈ (checkSat P rw El order pfuel (paSolve S I Ex ord ordC verts w hasArrays fuel) printW validateW cs).1 → Satisfiable (clauseRules cs)) ∧
    (.answer .unsafeAns ∈ (checkSat P rw El order pfuel (paSolve S I Ex ord ordC verts w hasArrays fuel) printW validateW cs).1 →
      ¬ Satisfiable (clauseRules cs)) ∧
    ∀ a ds, .witness ⟨a, .invalidity ds⟩ ∈ (checkSat P rw El order pfuel (paSolve S I Ex ord ordC verts w hasArrays fuel) printW validateW cs).1 →
      ds = [] ∨ (a = .unsafeAns ∧ UnsafeWitness (normalize cs).1.repr (initialGraph cs).edges ds) := by
  have hg := C67_engine hS hc hI hT hEx hO w hasArrays fuel
  obtain ⟨h1, h2⟩ := C57_check_sat (fuel := pfuel) (printW := printW) (validateW := validateW) hP hrw hEl ho hg.right hin ha
  exact ⟨h1, h2, fun a ds h => C57_unsafe_witness hP hrw hEl ho hg hin ha h⟩

end check

end Golem
