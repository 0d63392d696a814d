import Verif.Lemmas.Transformers.Simple
import Verif.Props.Validator

/-! Properties C06, C07. -/

namespace Golem
variable {T : Theory}

/-- C06, reachability: merging parallel edges changes no reachable fact (of any predicate). -/
theorem C06_merge_same_facts (S : Smt T) (R : PRepr) (G : Graph T) (hG : G.IdsNodup) (f : Fact T) :
    Derivable (graphRules R G) f ↔ Derivable (graphRules R (multiEdgeMerger S R G).1) f :=
  derivable_congr (merge_rules hG) f

/-- C06, SAFE: a SAFE witness of the merged graph, handed back unchanged, is a SAFE witness of the original (and a
complete one if it was complete). -/
theorem C06_merge_safe (S : Smt T) (R : PRepr) (G : Graph T) (hG : G.IdsNodup) :
    SafeBack R (multiEdgeMerger S R G).1 G (multiEdgeMerger S R G).2.safe := by
  intro D h
  have hg : SafeGood R G ((multiEdgeMerger S R G).2.safe D) :=
    { closed := h.closed
      tru := h.tru
      fls := h.fls
      model := (isModel_congr (merge_rules hG) _).2 h.model
      only := fun p hp => (h.only p hp).imp (merge_vertex hG).2 _root_.id }
  exact ⟨hg, fun h' => ⟨hg.toSafeModel, fun p hp => h'.complete p ((merge_vertex hG).1 hp), hg.only⟩⟩

/-- C06, UNSAFE: the translated derivation is either a derivation of the original graph with the same facts and premises
or the empty derivation (no replaced edge could be confirmed); the latter cannot happen if the backend decides every
query. -/
theorem C06_merge_unsafe (S : Smt T) (hS : S.Sound) (R : PRepr) (hR : R.WF) (G : Graph T) (hG : G.IdsNodup)
    (ds : List (DStep T)) (h : UnsafeWitness R (multiEdgeMerger S R G).1 ds) :
    ((multiEdgeMerger S R G).2.uns ds = [] ∨
      (UnsafeWitness R G ((multiEdgeMerger S R G).2.uns ds) ∧
       ((multiEdgeMerger S R G).2.uns ds).map (fun d => (d.premises, d.fact)) = ds.map (fun d => (d.premises, d.fact)))) ∧
    (S.Complete → UnsafeWitness R G ((multiEdgeMerger S R G).2.uns ds)) := by
  simp only [multiEdgeMerger, mergeMultiEdges, mergerUnsafe] at *
  have hstep : ∀ i d, 0 < i → ds[i]? = some d → _ := fun i d hi hd =>
    mergerStep_ok hS hR hG (Nat.le_of_lt (List.getElem?_lt hd)) (h.steps i d hi hd)
  obtain ⟨d0, h0, h0f, h0c⟩ := h.first
  obtain ⟨dl, hl, hlf⟩ := h.last
  have h0' : ds[0]? = some d0 := by rw [← List.head?_eq_getElem?]; exact h0
  have hstep0 : mergerStep S R (mergedRecords G) ds d0 = some d0 := by
    unfold mergerStep
    rw [List.find?_eq_none.2 (by intro r _; simp [h0c])]
  -- the non-failing case
  have main : ∀ ds', ds.mapM (mergerStep S R (mergedRecords G) ds) = some ds' →
      UnsafeWitness R G ds' ∧ ds'.map (fun d => (d.premises, d.fact)) = ds.map (fun d => (d.premises, d.fact)) := by
    intro ds' hds'
    obtain ⟨hlen, hget⟩ := mapM_option_spec hds'
    have hpt : ∀ (i : Nat) (d : DStep T), ds[i]? = some d → ∃ d', ds'[i]? = some d' ∧ d'.premises = d.premises ∧ d'.fact = d.fact ∧
        (0 < i → StepOK R G ds i d') := by
      intro i d hd
      obtain ⟨d', hd', hm⟩ := hget i d hd
      rcases Nat.eq_zero_or_pos i with rfl | hi
      · rw [h0'] at hd; cases hd
        rw [hstep0] at hm; cases hm
        exact ⟨d0, hd', rfl, rfl, fun h => absurd h (by omega)⟩
      · obtain ⟨a, b, c⟩ := (hstep i d hi hd).1 d' hm
        exact ⟨d', hd', a, b, fun _ => c⟩
    have hmap : ds'.map (fun d => (d.premises, d.fact)) = ds.map (fun d => (d.premises, d.fact)) := by
      apply List.ext_getElem?
      intro i
      rw [List.getElem?_map, List.getElem?_map]
      cases hdi : ds[i]? with
      | none =>
        have : ds.length ≤ i := by simpa using hdi
        rw [List.getElem?_eq_none (by omega)]
      | some d =>
        obtain ⟨d', hd', a, b, _⟩ := hpt i d hdi
        simp [hd', a, b]
    have hfacts : ds'.map DStep.fact = ds.map DStep.fact := by
      have := congrArg (List.map Prod.snd) hmap
      simpa [Function.comp_def] using this
    refine ⟨⟨?_, ?_, ?_⟩, hmap⟩
    · obtain ⟨d', hd', hm⟩ := hget 0 d0 h0'
      rw [hstep0] at hm; cases hm
      exact ⟨d0, by rw [List.head?_eq_getElem?]; exact hd', h0f, h0c⟩
    · rw [List.getLast?_eq_getElem?] at hl
      obtain ⟨d', hd', _, b, _⟩ := hpt _ dl hl
      exact ⟨d', by rw [List.getLast?_eq_getElem?, ← hlen]; exact hd', by rw [b]; exact hlf⟩
    · intro i d' hi hd'
      have hlt := List.getElem?_lt hd'
      obtain ⟨d, hd⟩ : ∃ d, ds[i]? = some d := ⟨ds[i]'(by omega), List.getElem?_eq_getElem (by omega)⟩
      obtain ⟨d'', hd'', _, _, c⟩ := hpt i d hd
      rw [hd'] at hd''; cases hd''
      obtain ⟨c1, e, he, c2, c3⟩ := c hi
      exact ⟨c1, e, he, c2, by rw [premFacts_congr hfacts]; exact c3⟩
  by_cases he : (mergedRecords G).isEmpty = true
  · simp only [he, if_true]
    have : UnsafeWitness R G ds := by
      refine ⟨h.first, h.last, fun i d hi hd => ?_⟩
      obtain ⟨a, e, hem, b⟩ := h.steps i d hi hd
      refine ⟨a, e, ?_, b⟩
      rcases (mem_applyRecords hG).1 hem with ⟨r, hr, _⟩ | ⟨x, _⟩
      · rw [List.isEmpty_iff.1 he] at hr; simp at hr
      · exact x
    exact ⟨Or.inr ⟨this, trivial⟩, fun _ => this⟩
  · simp only [he]
    refine ⟨?_, ?_⟩
    · cases hds' : ds.mapM (mergerStep S R (mergedRecords G) ds) with
      | none => left; simp
      | some ds' => right; simpa using main ds' hds'
    · intro hC
      obtain ⟨ds', hds'⟩ := mapM_option_isSome (f := mergerStep S R (mergedRecords G) ds) (l := ds) (by
        intro d hd
        obtain ⟨i, hi, rfl⟩ := List.mem_iff_getElem.1 hd
        rcases Nat.eq_zero_or_pos i with rfl | hpos
        · refine ⟨d0, ?_⟩
          have : ds[0] = d0 := by rw [List.getElem?_eq_getElem hi] at h0'; exact Option.some.inj h0'
          rw [this]; exact hstep0
        · exact (hstep i _ hpos (List.getElem?_eq_getElem hi)).2 hC)
      rw [hds']
      simpa using (main ds' hds').1

/-- C07, reachability. -/
theorem C07_false_edges_same_facts (R : PRepr) (G : Graph T) (f : Fact T) :
    Derivable (graphRules R G) f ↔ Derivable (graphRules R (falseClauseRemoval G).1) f :=
  derivable_congr deleteFalseEdges_rules f

/-- C07, UNSAFE: a derivation of the reduced graph is a derivation of the original. -/
theorem C07_false_edges_unsafe (R : PRepr) (G : Graph T) (ds : List (DStep T))
    (h : UnsafeWitness R (falseClauseRemoval G).1 ds) : UnsafeWitness R G ((falseClauseRemoval G).2.uns ds) :=
  h.mono fun _ he => (List.mem_filter.1 he).1

/-- C07, SAFE: the witness is a model of the original graph, defining nothing but its vertices; it is a complete witness
unless some vertex lost all its edges. -/
theorem C07_false_edges_safe (R : PRepr) (G : Graph T) (D : Defs T) (h : SafeGood R (falseClauseRemoval G).1 D) :
    SafeGood R G ((falseClauseRemoval G).2.safe D) ∧
    (SafeWitness R (falseClauseRemoval G).1 D →
      (∀ p, G.Vertex p → p ≠ .tru → p ≠ .fls → Graph.Vertex (falseClauseRemoval G).1 p) →
      SafeWitness R G ((falseClauseRemoval G).2.safe D)) := by
  have hm : SafeGood R G D := ⟨⟨h.closed, h.tru, h.fls, (isModel_congr deleteFalseEdges_rules _).2 h.model⟩,
    fun p hp => (h.only p hp).imp (by
      rintro ⟨e, he, hv⟩
      exact ⟨e, (List.mem_filter.1 he).1, hv⟩) _root_.id⟩
  refine ⟨hm, fun h' hd => ⟨hm.toSafeModel, fun p hp => ?_, hm.only⟩⟩
  by_cases ht : p = .tru
  · subst ht; exact (show D.get .tru = some .tt from h.tru) ▸ rfl
  by_cases hf : p = .fls
  · subst hf; exact (show D.get .fls = some .ff from h.fls) ▸ rfl
  exact h'.complete p (hd p hp ht hf)

namespace SimpleEx
open ValidatorEx

/-- Two parallel edges into `p0`, one false edge, one direct false edge to the exit. -/
def G : Graph P :=
  [⟨[.tru], .p 0, a xt, 0⟩, ⟨[.tru], .p 0, .not (a xt), 1⟩, ⟨[.p 0], .fls, a xs, 2⟩, ⟨[.p 0], .fls, .ff, 3⟩]

/-- Uses the merged edge 0. -/
def ds : List (DStep P) := [⟨[], trueFact, none⟩, ⟨[0], (.p 0, [true]), some 0⟩, ⟨[1], falseFact, some 2⟩]

theorem G_ids : G.IdsNodup := by unfold Graph.IdsNodup; decide

/-- Hypotheses of C06 hold for a graph in which edges are really merged, and the back-translation succeeds. -/
example : G.IdsNodup ∧ (multiEdgeMerger propSmt R G).1.length = 2 ∧
    validate propSmt R (multiEdgeMerger propSmt R G).1 ⟨.unsafeAns, .invalidity ds⟩ = .validated ∧
    validate propSmt R G ⟨.unsafeAns, .invalidity ((multiEdgeMerger propSmt R G).2.uns ds)⟩ = .validated :=
  ⟨G_ids, by decide +kernel, by decide +kernel, by decide +kernel⟩

end SimpleEx

open SimpleEx ValidatorEx in
/-- C07, limit: a vertex all of whose edges are labelled false disappears, and nobody defines it afterwards: the
translated witness of a safe system is then rejected by the validator (";Missing definition of a predicate"). -/
theorem C07_dropped_vertex_has_no_definition :
    let G : Graph propTheory := [⟨[.tru], .p 0, .ff, 0⟩]
    let D : Defs propTheory := [(.tru, .tt), (.fls, .ff)]
    SafeWitness ValidatorEx.R (falseClauseRemoval G).1 D ∧
    validate propSmt ValidatorEx.R G ⟨.safe, .validity ((falseClauseRemoval G).2.safe D)⟩ = .notValidated := by
  refine ⟨⟨⟨?_, rfl, rfl, ⟨⟨?_, ?_⟩, ?_⟩⟩, ?_, ?_⟩, by decide +kernel⟩
  · intro p d hd x hx
    cases p <;> simp [Defs.get_cons, Defs.get_nil] at hd
    · subst hd; simp [Fla.vars] at hx
    · subst hd; simp [Fla.vars] at hx
  · exact ⟨.tt, rfl, fun _ => true, rfl, trivial⟩
  · rintro r ⟨e, he, _⟩
    simp [falseClauseRemoval, deleteFalseEdges] at he
  · rintro ⟨d, hd, ρ, _, hh⟩
    simp [Defs.get_cons, falseFact] at hd
    subst hd; exact hh
  · rintro p ⟨e, he, _⟩
    simp [falseClauseRemoval, deleteFalseEdges] at he
  · intro p hp
    simp only [Defs.get_cons, Defs.get_nil] at hp
    split at hp
    · right; left; assumption
    · split at hp
      · right; right; assumption
      · simp at hp

end Golem
