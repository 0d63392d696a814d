import Verif.Lemmas.SingleLoopGraph
import Verif.Props.DefaultPipeline

/-! Linear graphs whose labels use none of the names made up by the single-loop transformation: an invariant of the
preprocessing stages. -/

namespace Golem
variable {T : Theory}

def Fla.PlainVars (f : Fla T) : Prop := ∀ x ∈ f.vars, x.nm.Plain

/-- One source, and a label that uses none of the names of the single-loop transformation. -/
def Edge.Tame (e : Edge T) : Prop := e.src.length = 1 ∧ e.fla.PlainVars

def Graph.Tame (G : Graph T) : Prop := ∀ e ∈ G, e.Tame

def PRepr.PlainArgs (R : PRepr) : Prop := ∀ p, ∀ n ∈ R.args p, n.Plain

theorem Graph.Tame.sub {G G' : Graph T} (h : G.Tame) (hs : ∀ e ∈ G', e ∈ G) : G'.Tame := fun e he => h e (hs e he)

theorem plain_subst {f : Fla T} {m : SubstMap T} (hf : f.PlainVars) (hm : ∀ p ∈ m, ∀ x ∈ p.2.vars, x.nm.Plain) :
    (varSubstitute f m).PlainVars := by
  intro x hx
  rw [varSubstitute, Fla.mem_vars_subst] at hx
  obtain ⟨y, hy, hx⟩ := hx
  by_cases h : ∃ p ∈ m, p.1 = y
  · obtain ⟨t, ht⟩ : ∃ t, SubstMap.find m y = some t := by
      cases hq : SubstMap.find m y with
      | some t => exact ⟨t, rfl⟩
      | none =>
        exfalso
        obtain ⟨p, hp, rfl⟩ := h
        unfold SubstMap.find at hq
        rw [List.lookup_eq_none_iff] at hq
        simpa using hq p hp
    have hmem : (y, t) ∈ m := by
      unfold SubstMap.find at ht
      obtain ⟨l1, l2, he, _⟩ := List.lookup_eq_some_iff.1 ht
      rw [he]; simp
    simp only [SubstMap.fn, ht, Option.getD_some] at hx
    exact hm _ hmem _ hx
  · have : SubstMap.find m y = none := SubstMap.find_none (fun p hp e => h ⟨p, hp, e⟩)
    simp only [SubstMap.fn, this, Option.getD_none, Tm.vars, List.mem_singleton] at hx
    subst hx
    exact hf _ hy

theorem plain_zip {xs : List Var} {ys : List Var} (h : ∀ y ∈ ys, y.nm.Plain) :
    ∀ p ∈ (xs.zip (ys.map Tm.var) : SubstMap T), ∀ x ∈ p.2.vars, x.nm.Plain := by
  rintro ⟨a, b⟩ hp x hx
  obtain ⟨y, hy, rfl⟩ := List.mem_map.1 (List.of_mem_zip hp).2
  simp only [Tm.vars, List.mem_singleton] at hx
  subst hx; exact h _ hy

theorem plain_conj {fs : List (Fla T)} (h : ∀ f ∈ fs, f.PlainVars) : (Fla.conj fs).PlainVars := by
  intro x hx
  obtain ⟨f, hf, hx⟩ := (Fla.mem_vars_conj ..).1 hx
  exact h f hf x hx

theorem plain_disj {fs : List (Fla T)} (h : ∀ f ∈ fs, f.PlainVars) : (Fla.disj fs).PlainVars := by
  intro x hx
  obtain ⟨f, hf, hx⟩ := (Fla.mem_vars_disj ..).1 hx
  exact h f hf x hx

section
variable {R : PRepr} (hA : R.PlainArgs)
include hA

theorem plain_tgtToSrc (v : Pred) : ∀ p ∈ (tgtToSrc R v : SubstMap T), ∀ x ∈ p.2.vars, x.nm.Plain := by
  rintro ⟨a, b⟩ hp x hx
  obtain ⟨n, hn, rfl⟩ := List.mem_map.1 (List.of_mem_zip hp).2
  simp only [Tm.vars, List.mem_singleton] at hx
  subst hx; exact hA v n hn

theorem plain_chainSubst (l : List (Edge T)) : ∀ p ∈ chainSubst R l, ∀ x ∈ p.2.vars, x.nm.Plain := by
  fun_induction chainSubst R l with
  | case1 e e' es ih =>
    intro p hp
    rcases List.mem_append.1 hp with h | h
    · exact plain_tgtToSrc hA _ p h
    · exact ih p h
  | case2 => simp

theorem plain_chainLabel {E : Elim T} (hE : E.Exact) (src tgt : Pred) {chain : List (Edge T)} (h : ∀ e ∈ chain, e.fla.PlainVars) :
    (chainLabel R E src tgt chain).PlainVars := by
  intro x hx
  refine plain_subst (plain_conj ?_) (plain_chainSubst hA chain) x (hE.except.vars _ _ x hx)
  intro f hf
  obtain ⟨e, he, rfl⟩ := List.mem_map.1 hf
  exact h e he

theorem mergePre_tame {E : Elim T} (hE : E.Exact) (c : Nat) (u : Pred) {i o : Edge T} (hi : i.Tame) (ho : o.Tame) :
    (mergePre R E c u i o).1.length = 1 ∧ (mergePre R E c u i o).2.1.PlainVars := by
  have hl : (E.vars (R.srcVars i.tgt 0) (.and (varSubstitute i.fla (tgtToSrc R i.tgt)) o.fla)).PlainVars := by
    intro x hx
    have := hE.novars _ _ x hx
    simp only [Fla.vars, List.mem_append] at this
    rcases this with h | h
    · exact plain_subst hi.2 (plain_tgtToSrc hA _) x h
    · exact ho.2 x h
  have hs : (mergeSources u i.tgt o.src).length = 1 := by
    obtain ⟨s, hs⟩ := List.length_eq_one_iff.1 ho.1
    rw [hs]
    unfold mergeSources
    by_cases h1 : u = .tru <;> by_cases h2 : s = i.tgt <;> simp [h1, h2]
    by_cases h3 : s = .tru
    · simp [h3]
    · simp [h3]
  unfold mergePre
  simp only
  split
  · refine ⟨rfl, plain_chainLabel hA hE _ _ ?_⟩
    intro e he
    simp only [List.mem_cons, List.not_mem_nil, or_false] at he
    rcases he with rfl | rfl
    · exact hi.2
    · exact ho.2
  · split
    · refine ⟨hs, plain_subst hl ?_⟩
      rintro ⟨a, b⟩ hp x hx
      unfold loopSubst at hp
      obtain ⟨q, _, he⟩ := List.mem_map.1 hp
      cases he
      simp only [Tm.vars, List.mem_singleton] at hx
      subst hx; rfl
    · exact ⟨hs, hl⟩

theorem mergeEdgePair_tame {E : Elim T} (hE : E.Exact) {st : GS T} {i o : Edge T} (hi : i.Tame) (ho : o.Tame)
    (hst : st.edges.Tame) : (mergeEdgePair R E st i o).1.edges.Tame ∧ (mergeEdgePair R E st i o).2.Tame := by
  obtain ⟨h1, h2⟩ := mergePre_tame hA hE st.auxg (i.src.headD .tru) hi ho
  have h3 : (mergeEdgePair R E st i o).2.Tame := by
    refine ⟨h1, plain_subst h2 ?_⟩
    rintro ⟨a, b⟩ hp x hx
    unfold gauxSubst at hp
    obtain ⟨q, _, he⟩ := List.mem_map.1 hp
    cases he
    simp only [Tm.vars, List.mem_singleton] at hx
    subst hx; rfl
  refine ⟨fun e he => ?_, h3⟩
  rcases List.mem_append.1 he with he | he
  · exact hst e he
  · rw [List.mem_singleton] at he
    subst he; exact h3

theorem mergePairs_tame {E : Elim T} (hE : E.Exact) (ps : List (Edge T × Edge T)) : ∀ {st : GS T}, st.edges.Tame →
    (∀ p ∈ ps, p.1.Tame ∧ p.2.Tame) → (mergePairs R E ps st).1.edges.Tame := by
  induction ps with
  | nil => intro st h _; exact h
  | cons p ps ih =>
    intro st h hp
    obtain ⟨i, o⟩ := p
    obtain ⟨a, b⟩ := hp _ (List.mem_cons_self ..)
    exact ih (mergeEdgePair_tame hA hE a b h).1 fun p hm => hp p (List.mem_cons_of_mem _ hm)

theorem contractVertex_tame {E : Elim T} (hE : E.Exact) {st st' : GS T} {v : Pred} {c : Contraction T} (h : st.edges.Tame)
    (hc : contractVertex R E st v = some (st', c)) : st'.edges.Tame := by
  unfold contractVertex at hc
  simp only at hc
  split at hc
  · cases hc
  · simp only [Option.some.injEq, Prod.mk.injEq] at hc
    obtain ⟨rfl, -⟩ := hc
    refine Graph.Tame.sub (mergePairs_tame hA hE _ h ?_) fun e he => (List.mem_filter.1 he).1
    rintro ⟨i, o⟩ hp
    unfold edgePairs at hp
    obtain ⟨i', hi, hp⟩ := List.mem_flatMap.1 hp
    obtain ⟨o', ho, he⟩ := List.mem_map.1 hp
    cases he
    exact ⟨h _ (List.mem_filter.1 hi).1, h _ (List.mem_filter.1 ho).1⟩

theorem eliminateLoop_tame {E : Elim T} (hE : E.Exact) {pred : Graph T → Pred → Bool} : ∀ (fuel : Nat) {vs : List Pred} {st st' : GS T}
    {rs : List (Pred × Contraction T)}, st.edges.Tame → eliminateLoop R E pred fuel vs st = .done (st', rs) → st'.edges.Tame := by
  intro fuel
  induction fuel with
  | zero =>
    intro vs st st' rs h he
    rw [eliminateLoop.eq_def] at he
    simp only at he
    split at he
    · cases he; exact h
    · simp at he
  | succ fuel ih =>
    intro vs st st' rs h he
    rw [eliminateLoop.eq_def] at he
    simp only at he
    split at he
    · cases he; exact h
    · split at he
      · cases he
      · rename_i st1 c hc
        split at he
        · rename_i st2 rs' h2
          cases he
          exact ih (contractVertex_tame hA hE h hc) h2
        · cases he
        · cases he

theorem elimStage_tame {S : Smt T} {E : Elim T} (hE : E.Exact) {pred : Graph T → Pred → Bool} {st st' : GS T} {b : OBack T}
    (h : st.edges.Tame) (he : elimStage S R E pred st = .done (st', b)) : st'.edges.Tame := by
  unfold elimStage nodeEliminator at he
  split at he
  · rename_i st1 rs h1
    cases he
    exact eliminateLoop_tame hA hE _ h h1
  · cases he
  · cases he

/-! ### Chains -/

omit hA in
theorem chainForward_mem {G : Graph T} {start : Pred} : ∀ (fuel : Nat) {c : Pred} {es : List (Edge T)} {last : Pred},
    chainForward G start fuel c = .done (es, last) → ∀ e ∈ es, e ∈ G := by
  intro fuel
  induction fuel with
  | zero => intro c es last h; simp [chainForward] at h
  | succ fuel ih =>
    intro c es last h
    rw [chainForward] at h
    split at h
    · cases h
    · rename_i o os ho
      have hmem : o ∈ G := (List.mem_filter.1 (by rw [Graph.outEdges] at ho; rw [ho]; simp : o ∈ List.filter _ G)).1
      split at h
      · split at h
        · rename_i es' last' hr
          cases h
          intro e he
          rcases List.mem_cons.1 he with rfl | he
          · exact hmem
          · exact ih hr e he
        · rename_i hr
          exact absurd h (hr _ _)
      · cases h
        simpa using hmem

omit hA in
theorem trivialEdges_mem {G : Graph T} {v : Pred} {i o : Edge T} (h : trivialEdges G v = some (i, o)) : i ∈ G := by
  unfold trivialEdges at h
  split at h
  · rename_i i' o' hi _
    split at h
    · split at h
      · cases h
        exact (List.mem_filter.1 (by rw [Graph.inEdges] at hi; rw [hi]; simp : i ∈ List.filter _ G)).1
      · cases h
    · cases h
  · cases h

omit hA in
theorem chainBackward_mem {G : Graph T} {last : Pred} : ∀ (fuel : Nat) {c : Pred} {es es' : List (Edge T)}, (∀ e ∈ es, e ∈ G) →
    chainBackward G last fuel c es = .done es' → ∀ e ∈ es', e ∈ G := by
  intro fuel
  induction fuel with
  | zero =>
    intro c es es' h hb
    rw [chainBackward.eq_def] at hb
    simp only at hb
    split at hb
    · cases hb; exact h
    · simp at hb
  | succ fuel ih =>
    intro c es es' h hb
    rw [chainBackward.eq_def] at hb
    simp only at hb
    split at hb
    · cases hb; exact h
    · rename_i i o ht
      split at hb
      · cases hb; exact h
      · refine ih ?_ hb
        intro e he
        rcases List.mem_cons.1 he with rfl | he
        · exact trivialEdges_mem ht
        · exact h e he

omit hA in
theorem trivialChain_mem {G : Graph T} {v : Pred} {es : List (Edge T)} (h : trivialChain G v = .done es) : ∀ e ∈ es, e ∈ G := by
  unfold trivialChain at h
  split at h
  · rename_i es' last hf
    exact chainBackward_mem _ (chainForward_mem _ hf) h
  · cases h
  · cases h

theorem contractTrivialChain_tame {E : Elim T} (hE : E.Exact) {st : GS T} {chain : List (Edge T)} (h : st.edges.Tame)
    (hc : ∀ e ∈ chain, e ∈ st.edges) : (contractTrivialChain R E st chain).1.edges.Tame := by
  have : (mergeTrivialChain R E st chain).1.edges.Tame := by
    intro e he
    rcases List.mem_append.1 he with he | he
    · exact h e he
    · rw [List.mem_singleton] at he
      subst he
      exact ⟨rfl, plain_chainLabel hA hE _ _ fun e he => (h e (hc e he)).2⟩
  exact this.sub fun e he => (deleteNodes_sub _ _).subset he

theorem summarizeLoop_tame {E : Elim T} (hE : E.Exact) {order : Graph T → List Pred} : ∀ (fuel : Nat) {st st' : GS T}
    {ss : List (Summary T)}, st.edges.Tame → summarizeLoop R E order fuel st = .done (st', ss) → st'.edges.Tame := by
  intro fuel
  induction fuel with
  | zero =>
    intro st st' ss h hb
    rw [summarizeLoop.eq_def] at hb
    simp only at hb
    split at hb
    · cases hb; exact h
    · simp at hb
  | succ fuel ih =>
    intro st st' ss h hb
    rw [summarizeLoop.eq_def] at hb
    simp only at hb
    split at hb
    · cases hb; exact h
    · split at hb
      · rename_i chain hc
        split at hb
        · rename_i s2 ss2 h2
          cases hb
          exact ih (contractTrivialChain_tame hA hE h (trivialChain_mem hc)) h2
        · cases hb
        · cases hb
      · cases hb
      · cases hb

theorem chainStage_tame {S : Smt T} {E : Elim T} (hE : E.Exact) {order : Graph T → List Pred} {st st' : GS T} {b : OBack T}
    (h : st.edges.Tame) (he : chainStage S R E order st = .done (st', b)) : st'.edges.Tame := by
  unfold chainStage chainSummarizer at he
  split at he
  · rename_i st1 rs h1
    cases he
    exact summarizeLoop_tame hA hE _ h h1
  · cases he
  · cases he

/-! ### The other stages -/

omit hA in
theorem falseStage_tame {st st' : GS T} {b : OBack T} (h : st.edges.Tame) (he : falseStage st = .done (st', b)) : st'.edges.Tame := by
  cases he
  exact h.sub fun e he => (List.mem_filter.1 he).1

omit hA in
theorem unreachableStage_tame {st st' : GS T} {b : OBack T} (h : st.edges.Tame) (he : unreachableStage st = .done (st', b)) :
    st'.edges.Tame := by
  unfold unreachableStage at he
  split at he
  · rename_i G' b' hr
    cases he
    rcases removeUnreachable_shape hr with ⟨hr, -⟩
    exact h.sub hr.subset
  · cases he

omit hA in
theorem mergeStage_tame {S : Smt T} {st st' : GS T} {b : OBack T} (hid : st.edges.IdsNodup) (h : st.edges.Tame)
    (he : mergeStage S R st = .done (st', b)) : st'.edges.Tame := by
  cases he
  intro e he
  rcases (mem_applyRecords hid).1 he with ⟨rc, hrc, rfl⟩ | ⟨he, -⟩
  · obtain ⟨s, t, e0, h0, h2, hs, ht, hall, _⟩ := record_spec hrc
    obtain ⟨hm, -, -⟩ := hall e0 h0
    rw [h2]
    refine ⟨(h e0 hm).1, plain_disj fun f hf => ?_⟩
    obtain ⟨e, he, rfl⟩ := List.mem_map.1 hf
    exact (h e (hall e he).1).2
  · exact h e he

omit hA in
theorem pruneStage_tame {S : Smt T} {st st' : GS T} {b : OBack T} (h : st.edges.Tame)
    (he : pruneStage S st = .done (st', b)) : st'.edges.Tame := by
  simp only [pruneStage, Outcome.done.injEq, Prod.mk.injEq] at he
  obtain ⟨rfl, -⟩ := he
  show Graph.Tame (trivialEdgePruner S st.edges).1
  unfold trivialEdgePruner
  split
  · rename_i e hp
    obtain ⟨hm, -⟩ := List.mem_filter.1 (pruneLoop_sat hp).1
    intro e' he'
    simp only [List.mem_singleton] at he'
    subst he'
    exact h e hm
  · exact h
  · exact h.sub fun e he => (List.mem_filter.1 he).1

omit hA in
theorem simplifyStage_tame {rw : Fla T → Fla T} (hrw : RewriteExact rw) {E : ElimExcept T} (hE : E.Exact) {st st' : GS T} {b : OBack T}
    (h : st.edges.Tame) (he : simplifyStage R rw E st = .done (st', b)) : st'.edges.Tame := by
  cases he
  intro e' he'
  obtain ⟨e, he, rfl⟩ := List.mem_map.1 he'
  refine ⟨(h e he).1, fun x hx => ?_⟩
  obtain ⟨y, hy, rfl⟩ := (Fla.mem_vars_rename ..).1 hx
  have hp : y.nm.Plain := by
    rcases hrw.vars _ _ (hE.vars _ _ y hy) with h1 | ⟨s, rfl⟩
    · exact (h e he).2 y h1
    · rfl
  cases y <;> exact hp

/-! ### Inlining -/

theorem inlineOne_tame {E : Elim T} (hE : E.Exact) {e : Edge T} (ht : e.Tame) {st : GS T} (h : st.edges.Tame) :
    (inlineOne R E e st).1.edges.Tame := by
  unfold inlineOne
  split
  · split
    · exact h
    · split
      · exact h.sub fun e he => (List.mem_filter.1 he).1
      · rename_i p hp
        have hpm : p ∈ st.edges := (List.mem_filter.1 (feasible_sub (hp ▸ List.mem_singleton_self p) : p ∈ st.edges.inEdges _)).1
        split
        · split
          · exact h
          · exact Graph.Tame.sub (mergeEdgePair_tame hA hE (h p hpm) ht h).1 fun e he => (List.mem_filter.1 he).1
        · exact h
      · exact h
  · exact h

theorem inlineRound_tame {E : Elim T} (hE : E.Exact) (l : List (Edge T)) : ∀ {st : GS T}, (∀ e ∈ l, e.Tame) → st.edges.Tame →
    (inlineRound R E l st).1.edges.Tame := by
  induction l with
  | nil => intro st _ h; exact h
  | cons e l ih =>
    intro st hl h
    exact ih (fun e he => hl e (List.mem_cons_of_mem _ he)) (inlineOne_tame hA hE (hl e (List.mem_cons_self ..)) h)

theorem inlineLoop_tame {E : Elim T} (hE : E.Exact) : ∀ (fuel : Nat) {st st' : GS T} {es : List (InlineEntry T)}, st.edges.Tame →
    inlineLoop R E fuel st = .done (st', es) → st'.edges.Tame := by
  intro fuel
  induction fuel with
  | zero => intro st st' es _ h; simp [inlineLoop] at h
  | succ fuel ih =>
    intro st st' es h hl
    have hr := inlineRound_tame hA hE st.edges (fun e he => h e he) h
    rw [inlineLoop] at hl
    split at hl
    · rename_i st1 he
      cases hl
      rw [he] at hr; exact hr
    · rename_i st1 es1 _ he
      rw [he] at hr
      split at hl
      · rename_i st2 es2 h2
        cases hl
        exact ih hr h2
      · rename_i hx
        exact absurd hl (hx _ _)

theorem inlineStage_tame {S : Smt T} {E : Elim T} (hE : E.Exact) {fuel : Nat} {st st' : GS T} {b : OBack T}
    (h : st.edges.Tame) (he : inlineStage S R E fuel st = .done (st', b)) : st'.edges.Tame := by
  unfold inlineStage at he
  split at he
  · rename_i st1 rs h1
    cases he
    exact inlineLoop_tame hA hE _ h h1
  · cases he
  · cases he

end

end Golem
