import Verif.Lemmas.NodeElimSafe
import Verif.Props.ToTS

/-! C10, C11: elimination of nodes by contraction. -/

namespace Golem
variable {T : Theory}

/-- The trivial elimination of C33 meets the contract that edge merging relies on. -/
theorem C33_elim (O : SubstOracle T) (A : ArithOps T) (hO : O.Sound (fun _ _ => True) (fun _ _ => True))
    (hA : A.Sound (fun _ _ => True) (fun _ _ => True)) :
    Elim.Exact (T := T) ⟨fun vs f => (tryEliminateVars O A (f.vars.length + 1) vs f).getD f,
      fun vs f => (tryEliminateVarsExcept O A (f.vars.length + 1) vs f).getD f⟩ := by
  have key : ∀ vs (f : Fla T), ∃ g, tryEliminateVars O A (f.vars.length + 1) vs f = some g := by
    intro vs f
    unfold tryEliminateVars
    split
    · exact ⟨f, rfl⟩
    · exact C33_terminates O A _ _ hO _ f _ (by omega)
  have ex : ∀ (vs : List Var) (f g : Fla T), tryEliminateVars O A (f.vars.length + 1) vs f = some g →
      (∀ ρ : Valuation T, f.holds ρ → g.holds ρ) ∧
      (∀ ρ : Valuation T, g.holds ρ → ∃ ρ' : Valuation T, (∀ x, x ∉ vs → ρ' x = ρ x) ∧ f.holds ρ') ∧
      ∀ x ∈ g.vars, x ∈ f.vars := by
    intro vs f g h
    unfold tryEliminateVars at h
    split at h
    · cases h; exact ⟨fun _ h => h, fun ρ h => ⟨ρ, fun _ _ => rfl, h⟩, fun _ h => h⟩
    · obtain ⟨h1, h2, h3⟩ := C33_eliminate_exact O A _ _ hO hA _ _ f g h
      refine ⟨fun ρ hρ => h1 ρ (fun _ => trivial) hρ, fun ρ hρ => ?_, h3⟩
      obtain ⟨ρ', _, h4, h5⟩ := h2 ρ (fun _ => trivial) hρ
      exact ⟨ρ', fun x hx => h4 x (by simpa using hx), h5⟩
  refine ⟨?_, ?_, ?_, C33_elimExcept O A hO hA⟩
  · intro vs f ρ h
    obtain ⟨g, hg⟩ := key vs f
    simp only [hg, Option.getD_some]
    exact (ex vs f g hg).1 ρ h
  · intro vs f ρ h
    obtain ⟨g, hg⟩ := key vs f
    simp only [hg, Option.getD_some] at h
    exact (ex vs f g hg).2.1 ρ h
  · intro vs f x hx
    obtain ⟨g, hg⟩ := key vs f
    simp only [hg, Option.getD_some] at hx
    exact (ex vs f g hg).2.2 x hx

/-- The two guards golem uses. -/
def IsElimGuard (pred : Graph T → Pred → Bool) : Prop :=
  pred = simpleElimPredicate ∨ pred = slightlyBetterPredicate

theorem IsElimGuard.ok {pred : Graph T → Pred → Bool} (h : IsElimGuard pred) (R : PRepr) : GuardOk R pred := by
  rcases h with rfl | rfl
  · exact fun st hst v h => simpleElim_ok hst h
  · exact fun st hst v h => slightlyBetter_ok hst h

/-- C10: `mergeEdgePair` on a pair of edges a guard admits makes an edge that derives exactly what the two edges derive one
after the other. -/
theorem C10_mergeEdgePair {R : PRepr} (hR : R.WF) {E : Elim T} (hE : E.Exact) {st : GS T} (hst : st.Ok R) {u : Pred}
    {inc out : Edge T} (h : PairOk st.edges u inc out) (body : List (Fact T)) (head : Fact T) :
    (mergeEdgePair R E st inc out).2.Fires R body head ↔
      ∃ fu fv bo, inc.Fires R [fu] fv ∧ out.Fires R bo head ∧ (∀ f ∈ bo, f.1 = inc.tgt → f = fv) ∧
        body = mergeBody u inc.tgt fu bo :=
  (mergeEdgePair_merged hR hE hst h).comp body head

/-- C10: eliminating nodes succeeds; the remaining vertices have exactly the derivable facts they had, the eliminated
vertices are gone, no vertex is added, and the result meets the invariant of graphs again. -/
theorem C10_node_elimination {R : PRepr} (hR : R.WF) (hF : R.FreshNames) {E : Elim T} (hE : E.Exact)
    {pred : Graph T → Pred → Bool} (hp : IsElimGuard pred) {st : GS T} (hst : st.Ok R) :
    ∃ st' rs, nodeEliminator R E pred st = .done (st', rs) ∧ st'.Ok R ∧
      (∀ p ∈ rs.map Prod.fst, p ≠ .tru ∧ p ≠ .fls ∧ st.edges.Vertex p ∧ ¬ st'.edges.Vertex p) ∧
      (∀ p, st'.edges.Vertex p → st.edges.Vertex p) ∧
      (∀ p, st.edges.Vertex p → p ≠ .tru → p ≠ .fls → p ∈ rs.map Prod.fst ∨ pred st'.edges p = false) ∧
      ∀ f : Fact T, f.1 ∉ rs.map Prod.fst →
        (Derivable (graphRules R st.edges) f ↔ Derivable (graphRules R st'.edges) f) := by
  obtain ⟨st', rs, h1, h2, h3, h4⟩ := nodeEliminator_spec hR hF hE (hp.ok R) hst
  exact ⟨st', rs, h1, h2.last, fun p hp => ⟨(h3 p hp).2.1, (h3 p hp).2.2, (h3 p hp).1, h2.removed hp⟩,
    fun p hp => h2.vertex_sub hp, h4, fun f hf => h2.derivable hR hf⟩

/-- C10: in particular `false` is derivable after elimination iff it was before. -/
theorem C10_unsafe {R : PRepr} (hR : R.WF) (hF : R.FreshNames) {E : Elim T} (hE : E.Exact)
    {pred : Graph T → Pred → Bool} (hp : IsElimGuard pred) {st : GS T} (hst : st.Ok R) {st' : GS T}
    {rs : List (Pred × Contraction T)} (h : nodeEliminator R E pred st = .done (st', rs)) :
    st.edges.Unsafe R ↔ st'.edges.Unsafe R := by
  obtain ⟨st1, rs1, h1, _, h3, _, _, h5⟩ := C10_node_elimination hR hF hE hp hst
  rw [h] at h1
  cases h1
  exact h5 falseFact fun hm => (h3 _ hm).2.1 rfl

theorem nodeEliminator_steps {R : PRepr} (hR : R.WF) (hF : R.FreshNames) {E : Elim T} (hE : E.Exact)
    {pred : Graph T → Pred → Bool} (hp : IsElimGuard pred) {st : GS T} (hst : st.Ok R) {st' : GS T}
    {rs : List (Pred × Contraction T)} (h : nodeEliminator R E pred st = .done (st', rs)) : ElimSteps R st rs st' ∧
      (∀ p ∈ rs.map Prod.fst, st.edges.Vertex p ∧ p ≠ .tru ∧ p ≠ .fls) ∧
      ∀ p, st.edges.Vertex p → p ≠ .tru → p ≠ .fls → p ∈ rs.map Prod.fst ∨ pred st'.edges p = false := by
  obtain ⟨st1, rs1, h1, h2, h3, h4⟩ := nodeEliminator_spec hR hF hE (hp.ok R) hst
  rw [h] at h1
  cases h1
  exact ⟨h2, h3, h4⟩

/-- A removed vertex has no definition in a witness for the result. -/
theorem removed_undefined {R : PRepr} {st st' : GS T} {rs : List (Pred × Contraction T)} (h : ElimSteps R st rs st')
    {D : Defs T} (honly : ∀ p, (D.get p).isSome → st'.edges.Vertex p ∨ p = .tru ∨ p = .fls)
    (hne : ∀ p ∈ rs.map Prod.fst, p ≠ .tru ∧ p ≠ .fls) : ∀ p ∈ rs.map Prod.fst, D.get p = none := by
  intro p hp
  cases hd : D.get p with
  | none => rfl
  | some d =>
    rcases honly p (by rw [hd]; rfl) with h' | h' | h'
    · exact absurd h' (h.removed hp)
    · exact absurd h' (hne p hp).1
    · exact absurd h' (hne p hp).2

/-- C11: translating a model of the reduced graph either gives up (the empty witness, because a neighbour of an eliminated
vertex has no definition), or yields a model of the input graph; if the given model defines all vertices of its graph, so
does the result, and the result defines only vertices. -/
theorem C11_node_elimination_safe {S : Smt T} (hS : S.Sound) {R : PRepr} (hR : R.WF) (hF : R.FreshNames) {E : Elim T}
    (hE : E.Exact) {pred : Graph T → Pred → Bool} (hp : IsElimGuard pred) {st st' : GS T} (hst : st.Ok R)
    {rs : List (Pred × Contraction T)} (h : nodeEliminator R E pred st = .done (st', rs)) {D D' : Defs T}
    (hD : SafeModel R st'.edges D) (honly : ∀ p, (D.get p).isSome → st'.edges.Vertex p ∨ p = .tru ∨ p = .fls)
    (hr : elimSafe S R rs D = .done D') :
    D' = [] ∨ (SafeModel R st.edges D' ∧ (∀ p, (D'.get p).isSome → st.edges.Vertex p ∨ p = .tru ∨ p = .fls) ∧
      (SafeWitness R st'.edges D → SafeWitness R st.edges D')) := by
  obtain ⟨h2, h3, _⟩ := nodeEliminator_steps hR hF hE hp hst h
  unfold elimSafe at hr
  split at hr
  · rename_i r hr'
    cases r with
    | none => simp at hr; exact .inl hr
    | some D1 =>
      simp only [Option.getD_some, Outcome.done.injEq] at hr
      subst hr
      have hfresh := removed_undefined h2 honly fun p hp => (h3 p hp).2
      obtain ⟨a, b, c, d⟩ := elimSafeLoop_sound hS hR h2 hD hfresh hr'
      have honly' : ∀ p, (D1.get p).isSome → st.edges.Vertex p ∨ p = .tru ∨ p = .fls := by
        intro p hp'
        by_cases hpr : p ∈ rs.map Prod.fst
        · exact .inl (h3 p hpr).1
        · rw [b p hpr] at hp'
          exact (honly p hp').imp_left fun h' => h2.vertex_sub h'
      exact .inr ⟨a, honly', fun hw => ⟨a, d hw.complete, honly'⟩⟩
  · simp at hr
  · simp at hr

/-- Every inner vertex has an incoming and an outgoing edge (as after the removal of unreachable nodes, C08). -/
def Graph.NoDeadEnds (G : Graph T) : Prop :=
  ∀ p, G.Vertex p → p ≠ .tru → p ≠ .fls → (∃ e ∈ G, e.tgt = p) ∧ ∃ e ∈ G, p ∈ e.src

theorem mem_mergeSources_u {u v : Pred} {srcs : List Pred} (hv : v ∈ srcs) (hu : u ≠ .tru) : u ∈ mergeSources u v srcs := by
  unfold mergeSources
  simp only [hu, if_false]
  exact List.mem_map.2 ⟨v, hv, by simp⟩

theorem mem_mergeSources_other {u v p : Pred} {srcs : List Pred} (hp : p ∈ srcs) (hpv : p ≠ v) (hpt : p ≠ .tru) :
    p ∈ mergeSources u v srcs := by
  have hm : p ∈ srcs.map fun p => if p = v then u else p := List.mem_map.2 ⟨p, hp, by simp [hpv]⟩
  unfold mergeSources
  simp only
  split
  · have : p ∈ (srcs.map fun p => if p = v then u else p).filter fun p => decide (p ≠ .tru) :=
      List.mem_filter.2 ⟨hm, by simpa using hpt⟩
    rw [if_neg]
    · exact this
    · intro he
      rw [List.isEmpty_iff] at he
      rw [he] at this; simp at this
  · exact hm

theorem Contracted.noDeadEnds {R : PRepr} {G G' : Graph T} {v : Pred} {c : Contraction T} (hC : Contracted R G v G' c)
    (hok : ContractOk G v) (hv : v ≠ .tru ∧ v ≠ .fls) (hG : G.NoDeadEnds) :
    Graph.NoDeadEnds G' ∧ ∀ p, G.Vertex p → p ≠ .tru → p ≠ .fls → p = v ∨ Graph.Vertex G' p := by
  have hold : ∀ e ∈ G, e.tgt ≠ v → v ∉ e.src → e ∈ G' := by
    intro e he h1 h2
    rw [hC.edges]; exact List.mem_append_left _ (mem_deleteNode'.2 ⟨he, h1, h2⟩)
  have hnew : ∀ i ∈ G.inEdges v, ∀ o ∈ G.outEdges v, ∃ e ∈ G', ∃ u, i.src = [u] ∧ e.src = mergeSources u v o.src ∧
      e.tgt = o.tgt := by
    intro i hi o ho
    have hp : (i, o) ∈ c.replacing.map Prod.snd := by rw [hC.pairs]; exact mem_edgePairs.2 ⟨hi, ho⟩
    obtain ⟨t, ht, hte⟩ := List.mem_map.1 hp
    obtain ⟨u, hu, htv, hm⟩ := hC.merged t ht
    rw [hte] at hu htv hm
    simp only at hu htv hm
    refine ⟨t.1, ?_, u, hu.isrc, ?_, hm.tgt⟩
    · rw [hC.edges]; exact List.mem_append_right _ (List.mem_map.2 ⟨t, ht, rfl⟩)
    · rw [hm.src, htv]
  have key : ∀ p, G.Vertex p → p ≠ .tru → p ≠ .fls → p ≠ v → (∃ e ∈ G', e.tgt = p) ∧ ∃ e ∈ G', p ∈ e.src := by
    intro p hp h1 h2 h3
    obtain ⟨⟨e1, he1, ht1⟩, ⟨e2, he2, hs2⟩⟩ := hG p hp h1 h2
    have hvv : G.Vertex v → (∃ i, i ∈ G.inEdges v) ∧ ∃ o, o ∈ G.outEdges v := by
      intro h
      obtain ⟨⟨i, hi, hi'⟩, ⟨o, ho, ho'⟩⟩ := hG v h hv.1 hv.2
      exact ⟨⟨i, mem_inEdges.2 ⟨hi, hi'⟩⟩, ⟨o, mem_outEdges.2 ⟨ho, ho'⟩⟩⟩
    constructor
    · by_cases hs : v ∈ e1.src
      · obtain ⟨⟨i, hi⟩, _⟩ := hvv ⟨e1, he1, .inr hs⟩
        obtain ⟨e, he, _, _, _, het⟩ := hnew i hi e1 (mem_outEdges.2 ⟨he1, hs⟩)
        exact ⟨e, he, het.trans ht1⟩
      · exact ⟨e1, hold e1 he1 (by rw [ht1]; exact h3) hs, ht1⟩
    · by_cases hs : v ∈ e2.src
      · obtain ⟨⟨i, hi⟩, _⟩ := hvv ⟨e2, he2, .inr hs⟩
        obtain ⟨e, he, u, _, hes, _⟩ := hnew i hi e2 (mem_outEdges.2 ⟨he2, hs⟩)
        exact ⟨e, he, by rw [hes]; exact mem_mergeSources_other hs2 h3 h1⟩
      · by_cases ht : e2.tgt = v
        · obtain ⟨_, ⟨o, ho⟩⟩ := hvv ⟨e2, he2, .inl ht.symm⟩
          obtain ⟨e, he, u, hu, hes, _⟩ := hnew e2 (mem_inEdges.2 ⟨he2, ht⟩) o ho
          rw [hu] at hs2
          simp at hs2
          subst hs2
          exact ⟨e, he, by rw [hes]; exact mem_mergeSources_u (mem_outEdges.1 ho).2 h1⟩
        · exact ⟨e2, hold e2 he2 ht hs, hs2⟩
  refine ⟨fun p hp h1 h2 => key p (hC.vertex_sub hp) h1 h2 ?_, fun p hp h1 h2 => ?_⟩
  · rintro rfl; exact hC.not_vertex hp
  · by_cases h3 : p = v
    · exact .inl h3
    · obtain ⟨⟨e, he, ht⟩, _⟩ := key p hp h1 h2 h3
      exact .inr ⟨e, he, .inl ht.symm⟩

theorem ElimSteps.noDeadEnds {R : PRepr} {st st' : GS T} {rs : List (Pred × Contraction T)} (h : ElimSteps R st rs st')
    (hG : st.edges.NoDeadEnds) : st'.edges.NoDeadEnds ∧
      ∀ p, st.edges.Vertex p → p ≠ .tru → p ≠ .fls → p ∈ rs.map Prod.fst ∨ st'.edges.Vertex p := by
  induction h with
  | nil => exact ⟨hG, fun p hp _ _ => .inr hp⟩
  | cons hst hok hv hC hid hmono hne h ih =>
    obtain ⟨h1, h2⟩ := hC.noDeadEnds hok hv hG
    obtain ⟨h3, h4⟩ := ih h1
    refine ⟨h3, fun p hp a b => ?_⟩
    simp only [List.map_cons, List.mem_cons]
    rcases h2 p hp a b with rfl | h'
    · exact .inl (.inl rfl)
    · exact (h4 p h' a b).imp_left .inr

/-- A vertex without edges meets the second guard. -/
theorem slightlyBetter_isolated {G : Graph T} {p : Pred} (h : ¬ G.Vertex p) : slightlyBetterPredicate G p = true := by
  have h1 : G.inEdges p = [] := by
    apply List.eq_nil_iff_forall_not_mem.2
    intro e he
    obtain ⟨a, b⟩ := mem_inEdges.1 he
    exact h ⟨e, a, .inl b.symm⟩
  have h2 : G.outEdges p = [] := by
    apply List.eq_nil_iff_forall_not_mem.2
    intro e he
    obtain ⟨a, b⟩ := mem_outEdges.1 he
    exact h ⟨e, a, .inr b⟩
  simp [slightlyBetterPredicate, isNonLoopNode, hasHyperEdge, h1, h2]

/-- C11, no failure: with a backend that decides, the translation of a SAFE witness yields a SAFE witness — always for the
eliminator of the transition-system pipeline, and for the other one if the graph has no dead ends. -/
theorem C11_node_elimination_total {S : Smt T} (hS : S.Sound) (hSC : S.Complete) {R : PRepr} (hR : R.WF) (hF : R.FreshNames)
    {E : Elim T} (hE : E.Exact) {pred : Graph T → Pred → Bool} (hp : IsElimGuard pred) {st st' : GS T} (hst : st.Ok R)
    (hG : pred = slightlyBetterPredicate ∨ st.edges.NoDeadEnds)
    {rs : List (Pred × Contraction T)} (h : nodeEliminator R E pred st = .done (st', rs)) {D : Defs T}
    (hD : SafeWitness R st'.edges D) : ∃ D', elimSafe S R rs D = .done D' ∧ SafeWitness R st.edges D' := by
  obtain ⟨h2, h3, h4⟩ := nodeEliminator_steps hR hF hE hp hst h
  have hfresh := removed_undefined h2 hD.only fun p hp => (h3 p hp).2
  have hall : ∀ p, st.edges.Vertex p → p ≠ .tru → p ≠ .fls → p ∈ rs.map Prod.fst ∨ st'.edges.Vertex p := by
    rcases hG with rfl | hG
    · intro p hp a b
      refine (h4 p hp a b).imp_right fun h' => ?_
      apply Classical.byContradiction
      intro hn
      rw [slightlyBetter_isolated hn] at h'
      simp at h'
    · exact (h2.noDeadEnds hG).2
  obtain ⟨D', hD'⟩ := elimSafeLoop_total hS hSC hR h2 hD.toSafeModel hfresh (by
    intro p hp
    by_cases h1 : p = .tru
    · subst h1; exact .inr (by rw [hD.tru]; rfl)
    by_cases h5 : p = .fls
    · subst h5; exact .inr (by rw [hD.fls]; rfl)
    exact (hall p hp h1 h5).imp_right fun h' => hD.complete p h')
  have hr : elimSafe S R rs D = .done D' := by unfold elimSafe; rw [hD']; rfl
  refine ⟨D', hr, ?_⟩
  rcases C11_node_elimination_safe hS hR hF hE hp hst h hD.toSafeModel hD.only hr with h' | ⟨_, _, h'⟩
  · obtain ⟨a, _⟩ := elimSafeLoop_sound hS hR h2 hD.toSafeModel hfresh hD'
    subst h'
    have : Defs.get ([] : Defs T) .tru = some .tt := a.tru
    simp [Defs.get_nil] at this
  · exact h' hD

/-! ### A concrete case -/

namespace NodeElimEx
open ValidatorEx (P R R_wf a)

/-- An elimination that eliminates nothing. -/
def keepE : Elim P := ⟨fun _ f => f, fun _ f => f⟩

theorem keepE_exact : keepE.Exact :=
  ⟨fun _ _ _ h => h, fun _ _ ρ h => ⟨ρ, fun _ _ => rfl, h⟩, fun _ _ _ h => h,
    fun _ _ _ h => h, fun _ _ ρ h => ⟨ρ, fun _ _ => rfl, h⟩, fun _ _ _ h => h⟩

def s (n : Nat) : Fla P := a (.src (.pr n) 0)
def t (n : Nat) : Fla P := a (.tgt (.pr n))
/-- An auxiliary variable. -/
def k : Fla P := a (.ver (.gaux 0) 0)

/-- true → p0(x'): x' ∧ k;  true → p2(x'): x';  p2(x) → p2(x'): x ↔ x';  p0(x), p2(y) → p1(z'): z' ↔ x ∧ y;
p1(x) → p1(x'): x ↔ x';  p1(x) → false: ¬x. -/
def G : Graph P :=
  [⟨[.tru], .p 0, .and (t 0) k, 0⟩, ⟨[.tru], .p 2, t 2, 1⟩, ⟨[.p 2], .p 2, .iff (s 2) (t 2), 2⟩,
   ⟨[.p 0, .p 2], .p 1, .iff (t 1) (.and (s 0) (s 2)), 3⟩, ⟨[.p 1], .p 1, .iff (s 1) (t 1), 4⟩,
   ⟨[.p 1], .fls, .not (s 1), 5⟩]

def st : GS P := ⟨G, 6, 1, 0⟩

theorem fresh : R.FreshNames := by
  intro i
  refine ⟨?_, ?_, ?_⟩ <;> intro p <;> cases p <;> simp [R]

theorem st_ok : st.Ok R := by
  have hv : ∀ e ∈ G, ∀ x ∈ e.fla.vars, x ∈ R.own e.src e.tgt ∨ (e.id = 0 ∧ x = .ver (.gaux 0) 0) := by decide +kernel
  have hn : ∀ x, G.Aux R x → ∀ e ∈ G, x ∈ e.fla.vars → e.id = 0 := by
    intro x hx e he hxe
    rcases hv e he x hxe with h | h
    · exact absurd hx (own_not_aux R_wf (fun _ hs => vertex_src he hs) h)
    · exact h.1
  have hid : Graph.IdsNodup G := by unfold Graph.IdsNodup; decide +kernel
  refine ⟨hid, by decide +kernel, by decide +kernel, by decide +kernel, fun e he x hx => (hv e he x hx).imp_right ?_,
    fun e he e' he' hne x hx ha hx' => ?_, fun e he i hx => ?_, fun e he i hx => ?_⟩
  · rintro ⟨_, rfl⟩
    exact .inl ⟨_, rfl, (fresh 0).1⟩
  · have h1 := hn x ha e he hx
    have h2 := hn x ha e' he' hx'
    have : ∀ e ∈ G, ∀ e' ∈ G, e.id = 0 → e'.id = 0 → e = e' := by decide +kernel
    exact hne (this e he e' he' h1 h2)
  · rcases hv e he _ hx with h | ⟨_, h⟩
    · exact absurd h own_not_ver
    · cases h; decide
  · rcases hv e he _ hx with h | ⟨_, h⟩
    · exact absurd h own_not_ver
    · cases h

/-- The result: `p0` is merged into the hyperedge, and its auxiliary variable gets a new name. -/
def G' : Graph P :=
  [⟨[.tru], .p 2, t 2, 1⟩, ⟨[.p 2], .p 2, .iff (s 2) (t 2), 2⟩, ⟨[.p 1], .p 1, .iff (s 1) (t 1), 4⟩,
   ⟨[.p 1], .fls, .not (s 1), 5⟩,
   ⟨[.p 2], .p 1, .and (.and (a (.ver (.gaux 1) 0)) (a (.ver (.gaux 2) 0))) (.iff (t 1) (.and (a (.ver (.gaux 1) 0)) (s 2))), 6⟩]

def D' : Defs P := [(.tru, .tt), (.fls, .ff), (.p 1, a (.base (.pr 1))), (.p 2, a (.base (.pr 2)))]

/-- The hypotheses of C10 and C11 are met, something is eliminated, and the translated witness is accepted. -/
theorem example_C10_C11 : propSmt.Sound ∧ propSmt.Complete ∧ R.WF ∧ R.FreshNames ∧ keepE.Exact ∧ st.Ok R ∧
    (∃ st' rs, nodeEliminator R keepE simpleElimPredicate st = .done (st', rs) ∧ st'.edges = G' ∧ rs.map Prod.fst = [.p 0] ∧
      validate propSmt R G' ⟨.safe, .validity D'⟩ = .validated ∧
      ∃ D, elimSafe propSmt R rs D' = .done D ∧ validate propSmt R G ⟨.safe, .validity D⟩ = .validated) := by
  refine ⟨propSmt_sound, propSmt_complete, R_wf, fresh, keepE_exact, st_ok, ?_⟩
  obtain ⟨st', rs, h, _⟩ := C10_node_elimination R_wf fresh keepE_exact (.inl rfl) st_ok
  refine ⟨st', rs, h, ?_⟩
  have h1 : (match nodeEliminator R keepE simpleElimPredicate st with
    | .done (st', rs) => decide (st'.edges = G') && decide (rs.map Prod.fst = [.p 0]) &&
        (match elimSafe propSmt R rs D' with
          | .done D => decide (validate propSmt R G ⟨.safe, .validity D⟩ = .validated)
          | _ => false)
    | _ => false) = true := by decide +kernel
  rw [h] at h1
  simp only [Bool.and_eq_true, decide_eq_true_eq] at h1
  refine ⟨h1.1.1, h1.1.2, by decide +kernel, ?_⟩
  have h2 := h1.2
  split at h2
  · rename_i D hD
    exact ⟨D, hD, by simpa using h2⟩
  · simp at h2

end NodeElimEx

end Golem
