import Verif.Model.Transformers.Default
import Verif.Lemmas.Pipeline

/-! C56 (first part): the constraint simplifier. -/

namespace Golem
variable {T : Theory}

/-- The contract of the rewriters of OpenSMT the constraint simplifier calls: for formulas without untagged variables, the
result has, besides the variables of the input, only fresh untagged variables with user-style names; it implies the input;
and every solution of the input extends to a solution of the result by a choice of the untagged variables. -/
structure RewriteExact (rw : Fla T → Fla T) : Prop where
  vars : ∀ f x, x ∈ (rw f).vars → x ∈ f.vars ∨ ∃ s, x = .base (.user s)
  stronger : ∀ f ρ, (rw f).holds ρ → f.holds ρ
  lift : ∀ f ρ, (∀ n, .base n ∉ f.vars) → f.holds ρ → ∃ ρ' : Valuation T, (∀ x, (∀ n, x ≠ .base n) → ρ' x = ρ x) ∧ (rw f).holds ρ'

/-- Rewriting the labels of `G` does not clash: names with the form of the introduced ones are no argument names and not in
use, and no two different edges get the same variable. (The code does not ensure the last condition:
`src/transformers/ConstraintSimplifier.cc:72-73`.) -/
structure NoClash (R : PRepr) (rw : Fla T → Fla T) (G : Graph T) : Prop where
  names : ∀ s, R.AuxName (.user s)
  unused : ∀ e ∈ G, ∀ s, .ver (.user s) 0 ∉ e.fla.vars
  apart : ∀ e ∈ G, ∀ e' ∈ G, e ≠ e' → ∀ n, .base n ∈ (rw e.fla).vars → .base n ∉ (rw e'.fla).vars

section
variable {R : PRepr} {rw : Fla T → Fla T} {E : ElimExcept T} {st : GS T}

theorem own_not_base {ss : List Pred} {t : Pred} {n : Name} : .base n ∉ R.own ss t := by
  intro h
  rcases mem_own.1 h with ⟨q, -, h2⟩ | h2
  · obtain ⟨n, -, h2⟩ := List.mem_map.1 h2; simp at h2
  · obtain ⟨n, -, h2⟩ := List.mem_map.1 h2; simp at h2

theorem GS.Ok.noBase (h : st.Ok R) {e : Edge T} (he : e ∈ st.edges) (n : Name) : .base n ∉ e.fla.vars := by
  intro hx
  rcases h.label e he _ hx with h | ⟨n, h, -⟩ | ⟨n, h, -⟩
  · exact own_not_base h
  · cases h
  · cases h

/-- The variables of a simplified label. -/
theorem simplify_vars (hrw : RewriteExact rw) (hE : E.Exact) {e : Edge T} (hb : ∀ n, .base n ∉ e.fla.vars) {x : Var}
    (hx : x ∈ (simplifyEdge R rw E e).fla.vars) :
    x ∈ e.fla.vars ∨ ∃ s, x = .ver (.user s) 0 ∧ .base (.user s) ∈ (rw e.fla).vars := by
  obtain ⟨y, hy, rfl⟩ := Fla.mem_vars_rename.1 hx
  have h1 := hE.vars _ _ _ hy
  rcases hrw.vars _ _ h1 with h | ⟨s, rfl⟩
  · left
    cases y with
    | base n => exact absurd h (hb n)
    | src n i => exact h
    | tgt n => exact h
    | ver n k => exact h
  · exact .inr ⟨s, rfl, h1⟩

/-- The simplified edge derives exactly what the edge derives. -/
theorem simplify_fires (hrw : RewriteExact rw) (hE : E.Exact) {e : Edge T} (hb : ∀ n, .base n ∉ e.fla.vars)
    (hu : ∀ s, .ver (.user s) 0 ∉ e.fla.vars) (hown : ∀ x ∈ R.own e.src e.tgt, ∀ n, x ≠ .base n ∧ x ≠ .ver n 0)
    (body : List (Fact T)) (head : Fact T) : (simplifyEdge R rw E e).Fires R body head ↔ e.Fires R body head := by
  have hfacts : ∀ ρ ρ' : Valuation T, (∀ x ∈ R.own e.src e.tgt, ρ' x = ρ x) →
      e.srcFacts R ρ' = e.srcFacts R ρ ∧ e.tgtFact R ρ' = e.tgtFact R ρ := by
    intro ρ ρ' h
    constructor
    · simp only [Edge.srcFacts]
      refine List.map_congr_left fun q hq => ?_
      simp only [Prod.mk.injEq, true_and]
      exact List.map_congr_left fun x hx => h x (mem_own.2 (.inl ⟨q, hq, hx⟩))
    · simp only [Edge.tgtFact, Prod.mk.injEq, true_and]
      exact List.map_congr_left fun x hx => h x (mem_own.2 (.inr hx))
  constructor
  · rintro ⟨ρ, h, rfl, rfl⟩
    simp only [simplifyEdge, Fla.holds_rename] at h
    obtain ⟨ρ2, h2, h3⟩ := hE.lift _ _ _ h
    obtain ⟨a, b⟩ := hfacts ρ ρ2 fun x hx => by
      rw [h2 x hx]
      cases x with
      | base n => exact absurd rfl (hown _ hx n).1
      | src n i => rfl
      | tgt n => rfl
      | ver n k => rfl
    exact ⟨ρ2, hrw.stronger _ _ h3, a.symm, b.symm⟩
  · rintro ⟨ρ, h, rfl, rfl⟩
    obtain ⟨ρ1, h1, h2⟩ := hrw.lift _ _ hb h
    have h3 := hE.weaker (R.own e.src e.tgt) _ _ h2
    obtain ⟨a, b⟩ := hfacts ρ (fun x => match x with
      | .ver (.user s) 0 => ρ1 (.base (.user s))
      | x => ρ1 x) fun x hx => by
        have hx' := hown x hx
        split
        · exact absurd rfl (hx' _).2
        · exact h1 x fun n => (hx' n).1
    refine ⟨_, ?_, a.symm, b.symm⟩
    simp only [simplifyEdge, Fla.holds_rename]
    refine (Fla.holds_congr fun x hx => ?_).2 h3
    rcases hrw.vars _ _ (hE.vars _ _ _ hx) with h | ⟨s, rfl⟩
    · cases x with
      | base n => exact absurd h (hb n)
      | src n i => rfl
      | tgt n => rfl
      | ver n k =>
        simp only [versionLocal]
        split
        · rename_i s heq; cases heq; exact absurd h (hu s)
        · rfl
    · rfl

end

/-- Replacing edges by edges with the same ends and the same derivations changes neither the rules nor the vertices. -/
theorem map_rules {R : PRepr} {G : Graph T} {f : Edge T → Edge T} (hf : ∀ e ∈ G, (f e).src = e.src ∧ (f e).tgt = e.tgt ∧
    (f e).id = e.id ∧ ∀ b h, (f e).Fires R b h ↔ e.Fires R b h) (r : GRule T) : graphRules R (G.map f) r ↔ graphRules R G r := by
  rw [graphRules_iff, graphRules_iff]
  constructor
  · rintro ⟨e', he', h⟩
    obtain ⟨e, he, rfl⟩ := List.mem_map.1 he'
    exact ⟨e, he, ((hf e he).2.2.2 _ _).1 h⟩
  · rintro ⟨e, he, h⟩
    exact ⟨f e, List.mem_map.2 ⟨e, he, rfl⟩, ((hf e he).2.2.2 _ _).2 h⟩

theorem map_vertex {G : Graph T} {f : Edge T → Edge T} (hf : ∀ e ∈ G, (f e).src = e.src ∧ (f e).tgt = e.tgt) (p : Pred) :
    Graph.Vertex (G.map f) p ↔ G.Vertex p := by
  constructor
  · rintro ⟨e', he', h⟩
    obtain ⟨e, he, rfl⟩ := List.mem_map.1 he'
    obtain ⟨h1, h2⟩ := hf e he
    exact ⟨e, he, by rwa [h1, h2] at h⟩
  · rintro ⟨e, he, h⟩
    obtain ⟨h1, h2⟩ := hf e he
    exact ⟨f e, List.mem_map.2 ⟨e, he, rfl⟩, by rwa [h1, h2]⟩

/-- C56: on a graph in the invariant, without clashes of names, the constraint simplifier keeps the invariant and the
derivable facts; the SAFE witnesses and the UNSAFE witnesses of the two graphs are the same. -/
theorem C56_constraint_simplifier {R : PRepr} {rw : Fla T → Fla T} (hrw : RewriteExact rw) {E : ElimExcept T}
    (hE : E.Exact) {st st' : GS T} {b : OBack T} (hst : st.Inv R) (hn : NoClash R rw st.edges)
    (h : simplifyStage R rw E st = .done (st', b)) :
    st'.Inv R ∧
    (∀ f : Fact T, Derivable (graphRules R st'.edges) f ↔ Derivable (graphRules R st.edges) f) ∧
    (∀ D, b.safe D = .done D ∧ (SafeGood R st'.edges D ↔ SafeGood R st.edges D) ∧
      (SafeWitness R st'.edges D ↔ SafeWitness R st.edges D)) ∧
    (∀ ds, b.uns ds = .done ds ∧ (UnsafeWitness R st'.edges ds ↔ UnsafeWitness R st.edges ds) ∧
      (ShortFor st'.edges ds ↔ ShortFor st.edges ds)) := by
  simp only [simplifyStage, Outcome.done.injEq, Prod.mk.injEq] at h
  obtain ⟨rfl, rfl⟩ := h
  have hf : ∀ e ∈ st.edges, (simplifyEdge R rw E e).src = e.src ∧ (simplifyEdge R rw E e).tgt = e.tgt ∧
      (simplifyEdge R rw E e).id = e.id ∧ ∀ b h, (simplifyEdge R rw E e).Fires R b h ↔ e.Fires R b h := by
    intro e he
    refine ⟨rfl, rfl, rfl, simplify_fires hrw hE (hst.ok.noBase he) (hn.unused e he) fun x hx n => ⟨?_, ?_⟩⟩
    · rintro rfl; exact own_not_base hx
    · rintro rfl; exact own_not_ver hx
  have hV := map_vertex (G := st.edges) (f := simplifyEdge R rw E) fun e he => ⟨(hf e he).1, (hf e he).2.1⟩
  have hRu := map_rules hf
  have hmem : ∀ e', e' ∈ st.edges.map (simplifyEdge R rw E) → ∃ e ∈ st.edges, simplifyEdge R rw E e = e' := fun e' h =>
    List.mem_map.1 h
  have hA : ∀ x, Graph.Aux R (st.edges.map (simplifyEdge R rw E)) x ↔ st.edges.Aux R x := by
    intro x; simp only [Graph.Aux, hV]
  have hvars : ∀ e ∈ st.edges, ∀ x ∈ (simplifyEdge R rw E e).fla.vars, _ := fun e he x hx =>
    simplify_vars hrw hE (hst.ok.noBase he) hx
  refine ⟨⟨⟨?_, ?_, ?_, ?_, ?_, ?_, ?_, ?_⟩, ?_⟩, ?_, ?_, ?_⟩
  · have := hst.ok.ids
    unfold Graph.IdsNodup at this ⊢
    simp only [List.map_map]
    exact this
  · intro e' he'; obtain ⟨e, he, rfl⟩ := hmem _ he'; exact hst.ok.idlt e he
  · intro e' he'; obtain ⟨e, he, rfl⟩ := hmem _ he'; exact hst.ok.srcNe e he
  · intro e' he'; obtain ⟨e, he, rfl⟩ := hmem _ he'; exact hst.ok.tru e he
  · intro e' he' x hx
    obtain ⟨e, he, rfl⟩ := hmem _ he'
    rw [hA]
    rcases hvars e he x hx with h | ⟨s, rfl, -⟩
    · exact hst.ok.label e he x h
    · exact .inr (.inl ⟨_, rfl, hn.names s⟩)
  · intro e1 h1 e2 h2 hne x hx ha hx'
    obtain ⟨e, he, rfl⟩ := hmem _ h1
    obtain ⟨e', he', rfl⟩ := hmem _ h2
    have hee : e ≠ e' := fun h => hne (h ▸ rfl)
    rw [hA] at ha
    rcases hvars e he x hx with h | ⟨s, rfl, h⟩
    · rcases hvars e' he' x hx' with h' | ⟨s, rfl, -⟩
      · exact hst.ok.sep e he e' he' hee x h ha h'
      · exact hn.unused e he s h
    · rcases hvars e' he' _ hx' with h' | ⟨s', hs', h'⟩
      · exact hn.unused e' he' s h'
      · cases hs'; exact hn.apart e he e' he' hee _ h h'
  · intro e' he' k hx
    obtain ⟨e, he, rfl⟩ := hmem _ he'
    rcases hvars e he _ hx with h | ⟨s, hs, -⟩
    · exact hst.ok.gaux e he k h
    · cases hs
  · intro e' he' k hx
    obtain ⟨e, he, rfl⟩ := hmem _ he'
    rcases hvars e he _ hx with h | ⟨s, hs, -⟩
    · exact hst.ok.auxg e he k h
    · cases hs
  · intro e' he'; obtain ⟨e, he, rfl⟩ := hmem _ he'; exact hst.ends e he
  · intro f
    exact ⟨Derivable.mono fun r => (hRu r).1, Derivable.mono fun r => (hRu r).2⟩
  · intro D
    refine ⟨rfl, ?_, ?_⟩
    · exact ⟨fun h => ⟨⟨h.closed, h.tru, h.fls, (isModel_congr hRu _).1 h.model⟩, fun p hp => by simpa [hV] using h.only p hp⟩,
        fun h => ⟨⟨h.closed, h.tru, h.fls, (isModel_congr hRu _).2 h.model⟩, fun p hp => by simpa [hV] using h.only p hp⟩⟩
    · exact ⟨fun h => ⟨⟨h.closed, h.tru, h.fls, (isModel_congr hRu _).1 h.model⟩, fun p hp => h.complete p ((hV p).2 hp),
        fun p hp => by simpa [hV] using h.only p hp⟩,
        fun h => ⟨⟨h.closed, h.tru, h.fls, (isModel_congr hRu _).2 h.model⟩, fun p hp => h.complete p ((hV p).1 hp),
        fun p hp => by simpa [hV] using h.only p hp⟩⟩
  · intro ds
    refine ⟨rfl, ?_, ?_⟩
    · constructor
      · intro h
        refine ⟨h.first, h.last, fun i d hi hd => ?_⟩
        obtain ⟨h1, e', he', h2, h3⟩ := h.steps i d hi hd
        obtain ⟨e, he, rfl⟩ := hmem _ he'
        exact ⟨h1, e, he, h2, ((hf e he).2.2.2 _ _).1 h3⟩
      · intro h
        refine ⟨h.first, h.last, fun i d hi hd => ?_⟩
        obtain ⟨h1, e, he, h2, h3⟩ := h.steps i d hi hd
        exact ⟨h1, _, List.mem_map.2 ⟨e, he, rfl⟩, h2, ((hf e he).2.2.2 _ _).2 h3⟩
    · simp only [ShortFor, List.forall_mem_map]
      rfl

end Golem
