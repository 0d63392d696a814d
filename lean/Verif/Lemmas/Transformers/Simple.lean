import Verif.Model.Transformers.Simple
import Verif.Lemmas.Witness

namespace Golem
variable {T : Theory}

/-- The keys of the edge map are distinct (`std::map<EId, DirectedHyperEdge>`, `src/graph/ChcGraph.h:226`). -/
def Graph.IdsNodup (G : Graph T) : Prop := (G.map Edge.id).Nodup

theorem Graph.IdsNodup.eq {G : Graph T} (h : G.IdsNodup) {e e' : Edge T} (he : e ∈ G) (he' : e' ∈ G)
    (hid : e.id = e'.id) : e = e' := by
  induction G with
  | nil => simp at he
  | cons a G ih =>
    simp only [Graph.IdsNodup, List.map_cons, List.nodup_cons] at h
    rcases List.mem_cons.1 he with h1 | h1 <;> rcases List.mem_cons.1 he' with h2 | h2
    · rw [h1, h2]
    · exact absurd (List.mem_map_of_mem (f := Edge.id) h2) (by rw [← hid, h1]; exact h.1)
    · exact absurd (List.mem_map_of_mem (f := Edge.id) h1) (by rw [hid, h2]; exact h.1)
    · exact ih h.2 h1 h2

theorem mem_firstOcc {α : Type} [DecidableEq α] {l : List α} {x : α} : x ∈ firstOcc l ↔ x ∈ l := by
  induction l with
  | nil => simp [firstOcc]
  | cons a l ih =>
    simp only [firstOcc, List.mem_cons, List.mem_filter, ih, decide_eq_true_eq]
    by_cases h : x = a <;> simp [h]

/-- Same rules, same reachable facts. -/
theorem derivable_congr {R R' : Rules T} (h : ∀ r, R r ↔ R' r) (f : Fact T) : Derivable R f ↔ Derivable R' f :=
  ⟨Derivable.mono fun r => (h r).1, Derivable.mono fun r => (h r).2⟩

theorem isModel_congr {R R' : Rules T} (h : ∀ r, R r ↔ R' r) (M : Fact T → Prop) : IsModel R M ↔ IsModel R' M := by
  unfold IsModel SatisfiesRules
  simp [h]

/-! ### deleteFalseEdges -/

theorem fires_ff {R : PRepr} {e : Edge T} (h : e.fla = .ff) {b : List (Fact T)} {f : Fact T} : ¬ e.Fires R b f := by
  rintro ⟨ρ, h', _⟩; rw [h] at h'; exact h'

theorem deleteFalseEdges_rules {R : PRepr} {G : Graph T} (r : GRule T) :
    graphRules R G r ↔ graphRules R (deleteFalseEdges G) r := by
  rw [graphRules_iff, graphRules_iff]
  constructor
  · rintro ⟨e, he, hf⟩
    exact ⟨e, List.mem_filter.2 ⟨he, by simpa using fun h => fires_ff h hf⟩, hf⟩
  · rintro ⟨e, he, hf⟩
    exact ⟨e, (List.mem_filter.1 he).1, hf⟩

/-- An UNSAFE witness only depends on the edges it uses. -/
theorem UnsafeWitness.mono {R : PRepr} {G G' : Graph T} (h : ∀ e ∈ G, e ∈ G') {ds : List (DStep T)}
    (hw : UnsafeWitness R G ds) : UnsafeWitness R G' ds where
  first := hw.first
  last := hw.last
  steps i d hi hd := by
    obtain ⟨h1, e, he, h2⟩ := hw.steps i d hi hd
    exact ⟨h1, e, h e he, h2⟩

/-! ### mergeMultiEdges -/

theorem mem_bucket {G : Graph T} {s t : Pred} {e : Edge T} : e ∈ bucket G s t ↔ e ∈ G ∧ e.src = [s] ∧ e.tgt = t := by
  simp [bucket]

theorem mem_mergedRecords {G : Graph T} {r : List (Edge T) × Edge T} :
    r ∈ mergedRecords G ↔ ∃ s t e e' es, bucket G s t = e :: e' :: es ∧
      r = (e :: e' :: es, { e with fla := Fla.disj ((e :: e' :: es).map Edge.fla) }) := by
  unfold mergedRecords
  rw [List.mem_filterMap]
  constructor
  · rintro ⟨⟨s, t⟩, _, h⟩
    simp only at h
    split at h
    · rename_i e e' es hb
      simp at h
      exact ⟨s, t, e, e', es, hb, by rw [← h]; simp⟩
    · simp at h
  · rintro ⟨s, t, e, e', es, hb, rfl⟩
    refine ⟨(s, t), ?_, by simp [hb]⟩
    rw [mem_firstOcc, List.mem_filterMap]
    have : e ∈ bucket G s t := by rw [hb]; simp
    obtain ⟨h1, h2, h3⟩ := mem_bucket.1 this
    exact ⟨e, h1, by simp [bucketKey, h2, h3]⟩

/-- Facts about a record: all replaced edges are edges of the graph with the same end points as the replacing edge. -/
theorem record_spec {G : Graph T} {r : List (Edge T) × Edge T} (h : r ∈ mergedRecords G) :
    ∃ s t e0, e0 ∈ r.1 ∧ r.2 = { e0 with fla := Fla.disj (r.1.map Edge.fla) } ∧ r.2.src = [s] ∧ r.2.tgt = t ∧
      (∀ e ∈ r.1, e ∈ G ∧ e.src = [s] ∧ e.tgt = t) ∧ (∀ e ∈ G, e.src = [s] → e.tgt = t → e ∈ r.1) := by
  obtain ⟨s, t, e, e', es, hb, rfl⟩ := mem_mergedRecords.1 h
  have hm : ∀ x ∈ e :: e' :: es, x ∈ G ∧ x.src = [s] ∧ x.tgt = t := fun x hx => mem_bucket.1 (by rw [hb]; exact hx)
  have he := hm e (by simp)
  refine ⟨s, t, e, by simp, rfl, he.2.1, he.2.2, hm, ?_⟩
  intro x hx h1 h2
  rw [← hb]
  exact mem_bucket.2 ⟨hx, h1, h2⟩

theorem mem_applyRecords {G : Graph T} (hG : G.IdsNodup) {x : Edge T} :
    x ∈ applyRecords (mergedRecords G) G ↔
      (∃ r ∈ mergedRecords G, x = r.2) ∨ (x ∈ G ∧ ∀ r ∈ mergedRecords G, x ∉ r.1) := by
  unfold applyRecords
  rw [List.mem_filterMap]
  constructor
  · rintro ⟨e, he, h⟩
    split at h
    · rename_i r hr
      have hrm := List.mem_of_find?_eq_some hr
      have hid : r.2.id = e.id := by simpa using List.find?_some hr
      left
      refine ⟨r, hrm, ?_⟩
      obtain ⟨s, t, e0, h0, h2, hs, ht, hall, _⟩ := record_spec hrm
      have : e0 = e := hG.eq (hall _ h0).1 he (by rw [← hid, h2])
      simp at h
      rw [← h, h2, this]
    · rename_i hr
      split at h
      · simp at h
      · rename_i hany
        simp at h
        subst h
        right
        refine ⟨he, ?_⟩
        intro r hr' hm
        apply hany
        rw [List.any_eq_true]
        exact ⟨r, hr', List.any_eq_true.2 ⟨e, hm, by simp⟩⟩
  · rintro (⟨r, hr, rfl⟩ | ⟨hx, hn⟩)
    · obtain ⟨s, t, e0, h0, h2, hs, ht, hall, hrev⟩ := record_spec hr
      have he0 := hall _ h0
      refine ⟨e0, he0.1, ?_⟩
      have hsome : ((mergedRecords G).find? (fun r => r.2.id == e0.id)).isSome := by
        rw [List.find?_isSome]
        exact ⟨r, hr, by rw [h2]; simp⟩
      obtain ⟨r', hr'⟩ := Option.isSome_iff_exists.1 hsome
      rw [hr']
      simp only [Option.some.injEq]
      have hrm := List.mem_of_find?_eq_some hr'
      have hid : r'.2.id = e0.id := by simpa using List.find?_some hr'
      obtain ⟨s', t', e0', h0', h2', hs', ht', hall', hrev'⟩ := record_spec hrm
      have hee : e0' = e0 := hG.eq (hall' _ h0').1 he0.1 (by rw [← hid, h2'])
      subst hee
      -- same bucket
      have hss : s = s' := by
        have a := (hall _ h0).2.1
        have b := (hall' _ h0').2.1
        rw [a] at b; simpa using b
      have htt : t = t' := by
        have a := (hall _ h0).2.2
        have b := (hall' _ h0').2.2
        rw [a] at b; exact b
      subst hss; subst htt
      obtain ⟨s1, t1, e1, e1', es1, hb1, hr1⟩ := mem_mergedRecords.1 hr
      obtain ⟨s2, t2, e2, e2', es2, hb2, hr2⟩ := mem_mergedRecords.1 hrm
      have q1 : s1 = s ∧ t1 = t := by
        have : e1 ∈ bucket G s1 t1 := by rw [hb1]; simp
        have a := mem_bucket.1 this
        have b := hall e1 (by rw [hr1]; simp)
        rw [a.2.1, a.2.2] at b
        simpa using b.2
      have q2 : s2 = s ∧ t2 = t := by
        have : e2 ∈ bucket G s2 t2 := by rw [hb2]; simp
        have a := mem_bucket.1 this
        have b := hall' e2 (by rw [hr2]; simp)
        rw [a.2.1, a.2.2] at b
        simpa using b.2
      rw [q1.1, q1.2] at hb1
      rw [q2.1, q2.2, hb1] at hb2
      have : r'.1 = r.1 := by rw [hr1, hr2]; simp only; exact hb2.symm
      rw [h2, h2', this]
    · refine ⟨x, hx, ?_⟩
      have hnone : (mergedRecords G).find? (fun r => r.2.id == x.id) = none := by
        rw [List.find?_eq_none]
        intro r hr hid
        obtain ⟨s, t, e0, h0, h2, hs, ht, hall, _⟩ := record_spec hr
        have : e0 = x := hG.eq (hall _ h0).1 hx (by rw [h2] at hid; simpa using hid)
        exact hn r hr (this ▸ h0)
      rw [hnone]
      simp only
      rw [if_neg]
      rw [List.any_eq_true]
      rintro ⟨r, hr, ha⟩
      obtain ⟨e', he', hid⟩ := List.any_eq_true.1 ha
      obtain ⟨s, t, e0, h0, h2, hs, ht, hall, _⟩ := record_spec hr
      have : e' = x := hG.eq (hall _ he').1 hx (by simpa using hid)
      exact hn r hr (this ▸ he')

theorem Fires_of_same {R : PRepr} {e e' : Edge T} (hs : e.src = e'.src) (ht : e.tgt = e'.tgt) {ρ : Valuation T}
    {b : List (Fact T)} {f : Fact T} (hl : e'.fla.holds ρ) (hb : b = e.srcFacts R ρ) (hf : f = e.tgtFact R ρ) :
    e'.Fires R b f := by
  refine ⟨ρ, hl, ?_, ?_⟩
  · rw [hb, Edge.srcFacts, Edge.srcFacts, hs]
  · rw [hf, Edge.tgtFact, Edge.tgtFact, ht]

theorem merge_rules {R : PRepr} {G : Graph T} (hG : G.IdsNodup) (r : GRule T) :
    graphRules R G r ↔ graphRules R (mergeMultiEdges G).1 r := by
  rw [graphRules_iff, graphRules_iff]
  constructor
  · rintro ⟨e, he, hf⟩
    by_cases h : ∃ rc ∈ mergedRecords G, e ∈ rc.1
    · obtain ⟨rc, hrc, hm⟩ := h
      obtain ⟨s, t, e0, h0, h2, hs, ht, hall, _⟩ := record_spec hrc
      refine ⟨rc.2, (mem_applyRecords hG).2 (Or.inl ⟨rc, hrc, rfl⟩), ?_⟩
      obtain ⟨ρ, hl, hb, hh⟩ := hf
      refine Fires_of_same (by rw [(hall _ hm).2.1, hs]) (by rw [(hall _ hm).2.2, ht]) ?_ hb hh
      rw [h2]
      simp only
      rw [Fla.holds_disj]
      exact ⟨e.fla, List.mem_map_of_mem hm, hl⟩
    · refine ⟨e, (mem_applyRecords hG).2 (Or.inr ⟨he, fun rc hrc hm => h ⟨rc, hrc, hm⟩⟩), hf⟩
  · rintro ⟨e, he, hf⟩
    rcases (mem_applyRecords hG).1 he with ⟨rc, hrc, rfl⟩ | ⟨he, _⟩
    · obtain ⟨s, t, e0, h0, h2, hs, ht, hall, _⟩ := record_spec hrc
      obtain ⟨ρ, hl, hb, hh⟩ := hf
      rw [h2] at hl
      simp only [Fla.holds_disj, List.mem_map] at hl
      obtain ⟨_, ⟨e', he', rfl⟩, hl⟩ := hl
      exact ⟨e', (hall _ he').1, Fires_of_same (by rw [(hall _ he').2.1, hs]) (by rw [(hall _ he').2.2, ht]) hl hb hh⟩
    · exact ⟨e, he, hf⟩

theorem merge_vertex {G : Graph T} (hG : G.IdsNodup) {p : Pred} : G.Vertex p ↔ Graph.Vertex (mergeMultiEdges G).1 p := by
  constructor
  · rintro ⟨e, he, h⟩
    by_cases hr : ∃ rc ∈ mergedRecords G, e ∈ rc.1
    · obtain ⟨rc, hrc, hm⟩ := hr
      obtain ⟨s, t, e0, h0, h2, hs, ht, hall, _⟩ := record_spec hrc
      refine ⟨rc.2, (mem_applyRecords hG).2 (Or.inl ⟨rc, hrc, rfl⟩), ?_⟩
      rw [hs, ht, ← (hall _ hm).2.1, ← (hall _ hm).2.2]; exact h
    · exact ⟨e, (mem_applyRecords hG).2 (Or.inr ⟨he, fun rc hrc hm => hr ⟨rc, hrc, hm⟩⟩), h⟩
  · rintro ⟨e, he, h⟩
    rcases (mem_applyRecords hG).1 he with ⟨rc, hrc, rfl⟩ | ⟨he, _⟩
    · obtain ⟨s, t, e0, h0, h2, hs, ht, hall, _⟩ := record_spec hrc
      refine ⟨e0, (hall _ h0).1, ?_⟩
      rw [hs, ht] at h
      rw [(hall _ h0).2.1, (hall _ h0).2.2]; exact h
    · exact ⟨e, he, h⟩

/-! ### substituting facts into a simple label -/

theorem mapFromPredicate_isSome {xs : List Var} {vs : List T.Val} (h : xs.length = vs.length) :
    ∃ m : SubstMap T, mapFromPredicate xs vs = some m := by
  induction xs generalizing vs with
  | nil => exact ⟨[], rfl⟩
  | cons x xs ih =>
    cases vs with
    | nil => simp at h
    | cons v vs =>
      obtain ⟨m, hm⟩ := ih (vs := vs) (by simpa using h)
      exact ⟨_, by simp [mapFromPredicate, hm]; rfl⟩

/-- Substituting a target and a source fact into a simple edge's label: satisfiable exactly if the edge fires. -/
theorem simple_subst_fires {R : PRepr} (hR : R.WF) {e : Edge T} {s t : Pred} (hs : e.src = [s]) (ht : e.tgt = t)
    {f g : Fact T} (hf1 : f.1 = t) (hg1 : g.1 = s) (hf : f.2.length = (R.args t).length)
    (hg : g.2.length = (R.args s).length) {m m' : SubstMap T} (hm : mapFromPredicate (R.tgtVars t) f.2 = some m)
    (hm' : mapFromPredicate (R.srcVars s 0) g.2 = some m') :
    (∃ ρ, (varSubstitute e.fla (m ++ m')).holds ρ) ↔ e.Fires R [g] f := by
  have hlf : (R.tgtVars t).length = f.2.length := by simp [PRepr.tgtVars, hf]
  have hlg : (R.srcVars s 0).length = g.2.length := by simp [PRepr.srcVars, hg]
  obtain ⟨hk, hz⟩ := mapFromPredicate_spec hm hlf
  obtain ⟨hk', hz'⟩ := mapFromPredicate_spec hm' hlg
  have hnd : ((m ++ m').map Prod.fst).Nodup := by
    rw [List.map_append, hk, hk', List.nodup_append]
    refine ⟨R.tgtVars_nodup hR _, R.srcVars_nodup hR _ _, ?_⟩
    intro a ha b hb hab
    subst hab
    obtain ⟨n, _, rfl⟩ := R.mem_tgtVars.1 ha
    obtain ⟨_, _, e⟩ := R.mem_srcVars.1 hb
    cases e
  have hM : ∀ p ∈ m ++ m', SubstMap.fn (m ++ m') p.1 = p.2 := fun p hp => SubstMap.fn_of_mem hnd hp
  constructor
  · rintro ⟨ρ, hρ⟩
    rw [varSubstitute_holds] at hρ
    refine ⟨_, hρ, ?_, ?_⟩
    · have h1 : (R.srcVars s 0).map (fun x => (SubstMap.fn (m ++ m') x).eval ρ) = g.2 :=
        map_eval_of_zip hlg (fun q hq => hM q (by rw [List.mem_append]; right; rw [hz']; exact hq))
      simp only [Edge.srcFacts, hs, instances, instancesAux, List.map_cons, List.map_nil, List.count_nil, h1]
      rw [← hg1]
    · have h1 : (R.tgtVars t).map (fun x => (SubstMap.fn (m ++ m') x).eval ρ) = f.2 :=
        map_eval_of_zip hlf (fun q hq => hM q (by rw [List.mem_append]; left; rw [hz]; exact hq))
      simp only [Edge.tgtFact, ht, h1]
      rw [← hf1]
  · rintro ⟨ρ, hρ, hb, hh⟩
    refine ⟨ρ, ?_⟩
    rw [varSubstitute_holds]
    have hgv : g.2 = (R.srcVars s 0).map ρ := by
      simp only [Edge.srcFacts, hs, instances, instancesAux, List.map_cons, List.map_nil, List.count_nil,
        List.cons.injEq, and_true] at hb
      rw [hb]
    have hfv : f.2 = (R.tgtVars t).map ρ := by
      simp only [Edge.tgtFact, ht] at hh
      rw [hh]
    have key : (fun x => (SubstMap.fn (m ++ m') x).eval ρ) = ρ := by
      funext x
      unfold SubstMap.fn
      cases hfx : SubstMap.find (m ++ m') x with
      | none => rfl
      | some tm =>
        have hmem := SubstMap.find_some_mem hfx
        simp only [Option.getD_some]
        have haux : ∀ (xs : List Var), (x, tm) ∈ List.zipWith (fun x v => (x, (Tm.const v : Tm T))) xs (xs.map ρ) →
            tm.eval ρ = ρ x := by
          intro xs
          induction xs with
          | nil => simp
          | cons a xs ih =>
            intro h
            simp only [List.map_cons, List.zipWith_cons_cons, List.mem_cons, Prod.mk.injEq] at h
            rcases h with ⟨rfl, rfl⟩ | h
            · rfl
            · exact ih h
        rcases List.mem_append.1 hmem with h | h
        · rw [hz, hfv] at h; exact haux _ h
        · rw [hz', hgv] at h; exact haux _ h
    rw [key]; exact hρ

theorem chooseEdge_mem {S : Smt T} {m : SubstMap T} {es : List (Edge T)} {e : Edge T}
    (h : chooseEdge S m es = some e) : e ∈ es := by
  unfold chooseEdge at h
  split at h
  · rename_i hf; cases h; exact List.mem_of_find?_eq_some hf
  · exact List.mem_of_find?_eq_some h

theorem chooseEdge_sound {S : Smt T} (hS : S.Sound) {m : SubstMap T} {es : List (Edge T)} {e : Edge T}
    (h : chooseEdge S m es = some e) : ∃ ρ, (varSubstitute e.fla m).holds ρ := by
  unfold chooseEdge at h
  split at h
  · rename_i hf
    cases h
    have := List.find?_some hf
    simp at this
    exact ⟨fun _ => T.vT, by rw [this]; trivial⟩
  · have := List.find?_some h
    simp at this
    exact ⟨_, hS.sat _ this.2 _ (by simp)⟩

theorem chooseEdge_complete {S : Smt T} (hS : S.Sound) (hC : S.Complete) {m : SubstMap T} {es : List (Edge T)}
    (h : ∃ e ∈ es, ∃ ρ, (varSubstitute e.fla m).holds ρ) : ∃ e, chooseEdge S m es = some e := by
  obtain ⟨e, he, ρ, hρ⟩ := h
  unfold chooseEdge
  split
  · rename_i e' _; exact ⟨e', rfl⟩
  · have : (es.find? fun e => decide (varSubstitute e.fla m ≠ .ff) && decide (S.check [varSubstitute e.fla m] = .sat)).isSome := by
      rw [List.find?_isSome]
      refine ⟨e, he, ?_⟩
      simp only [Bool.and_eq_true, decide_eq_true_eq]
      refine ⟨?_, ?_⟩
      · intro hff; rw [hff] at hρ; exact hρ
      · rcases hC [varSubstitute e.fla m] with h | h
        · exact h
        · exact absurd ⟨ρ, by intro f hf; simp at hf; subst hf; exact hρ⟩ (hS.unsat _ h)
    exact Option.isSome_iff_exists.1 this

/-- Premise facts do not depend on clause ids. -/
theorem premFacts_congr {ds ds' : List (DStep T)} (h : ds'.map DStep.fact = ds.map DStep.fact) (js : List Nat) :
    premFacts ds' js = premFacts ds js := by
  unfold premFacts
  congr 1; funext j
  rw [← List.getElem?_map, ← List.getElem?_map, h]

theorem mapM_option_spec {α β : Type} {f : α → Option β} {l : List α} {l' : List β} (h : l.mapM f = some l') :
    l.length = l'.length ∧ ∀ (i : Nat) (a : α), l[i]? = some a → ∃ b, l'[i]? = some b ∧ f a = some b := by
  induction l generalizing l' with
  | nil => simp at h; subst h; simp
  | cons a l ih =>
    rw [List.mapM_cons] at h
    simp only [Option.bind_eq_bind, Option.bind_eq_some_iff] at h
    obtain ⟨b, hb, l2, hl2, h⟩ := h
    simp at h; subst h
    obtain ⟨h1, h2⟩ := ih hl2
    refine ⟨by simp [h1], ?_⟩
    intro i x hx
    cases i with
    | zero => simp at hx; subst hx; exact ⟨b, by simp, hb⟩
    | succ i => simpa using h2 i x (by simpa using hx)

theorem mapM_option_isSome {α β : Type} {f : α → Option β} {l : List α} (h : ∀ a ∈ l, ∃ b, f a = some b) :
    ∃ l', l.mapM f = some l' := by
  induction l with
  | nil => exact ⟨[], rfl⟩
  | cons a l ih =>
    obtain ⟨b, hb⟩ := h a (by simp)
    obtain ⟨l', hl'⟩ := ih (fun x hx => h x (by simp [hx]))
    exact ⟨b :: l', by simp [List.mapM_cons, hb, hl']⟩

theorem filterMap_ids_sublist {f : Edge T → Option (Edge T)} (hf : ∀ e e', f e = some e' → e'.id = e.id) (G : List (Edge T)) :
    List.Sublist ((G.filterMap f).map Edge.id) (G.map Edge.id) := by
  induction G with
  | nil => simp
  | cons e G ih =>
    rw [List.filterMap_cons]
    split
    · exact List.Sublist.cons _ ih
    · rename_i e' he'
      simp only [List.map_cons, hf _ _ he']
      exact ih.cons_cons _

theorem applyRecords_ids {recs : List (List (Edge T) × Edge T)} {G : Graph T} (hG : G.IdsNodup) :
    Graph.IdsNodup (applyRecords recs G) := by
  refine List.Nodup.sublist (filterMap_ids_sublist ?_ G) hG
  intro e e' h
  split at h
  · simp at h; rw [← h]
  · split at h <;> simp at h; rw [← h]

/-- One step of the back-translation. -/
theorem mergerStep_ok {S : Smt T} (hS : S.Sound) {R : PRepr} (hR : R.WF) {G : Graph T} (hG : G.IdsNodup)
    {ds : List (DStep T)} {i : Nat} {d : DStep T} (hi : i ≤ ds.length) (hd : StepOK R (mergeMultiEdges G).1 ds i d) :
    (∀ d', mergerStep S R (mergedRecords G) ds d = some d' →
      d'.premises = d.premises ∧ d'.fact = d.fact ∧ StepOK R G ds i d') ∧
    (S.Complete → ∃ d', mergerStep S R (mergedRecords G) ds d = some d') := by
  obtain ⟨hlt, e, he, hid, hf⟩ := hd
  unfold mergerStep
  split
  · rename_i hnone
    have heG : e ∈ G := by
      rcases (mem_applyRecords hG).1 he with ⟨r, hr, rfl⟩ | ⟨h, _⟩
      · have := List.find?_eq_none.1 hnone r hr
        simp [hid] at this
      · exact h
    refine ⟨?_, fun _ => ⟨d, rfl⟩⟩
    intro d' h
    cases h
    exact ⟨rfl, rfl, hlt, e, heG, hid, hf⟩
  · rename_i r hfind
    have hr := List.mem_of_find?_eq_some hfind
    have hrid : d.clauseId = some r.2.id := by simpa using List.find?_some hfind
    have her : e = r.2 := (applyRecords_ids hG).eq he ((mem_applyRecords hG).2 (Or.inl ⟨r, hr, rfl⟩))
      (by rw [hid] at hrid; exact Option.some.inj hrid)
    subst her
    obtain ⟨s, t, e0, h0, h2, hs, ht, hall, _⟩ := record_spec hr
    obtain ⟨ρ, hl, hb, hh⟩ := hf
    have hb' : premFacts ds d.premises = [(s, (R.srcVars s 0).map ρ)] := by
      rw [hb]; simp [Edge.srcFacts, hs, instances, instancesAux]
    have hlen := premFacts_length (ds := ds) (js := d.premises) (fun j hj => Nat.lt_of_lt_of_le (hlt j hj) hi)
    rw [hb'] at hlen
    obtain ⟨j, hj⟩ : ∃ j, d.premises = [j] := by
      match hp : d.premises, hlen with
      | [j], _ => exact ⟨j, rfl⟩
    have hjl : j < ds.length := Nat.lt_of_lt_of_le (hlt j (by simp [hj])) hi
    obtain ⟨g, hg⟩ : ∃ g, ds[j]? = some g := ⟨ds[j], List.getElem?_eq_getElem hjl⟩
    have hgf : g.fact = (s, (R.srcVars s 0).map ρ) := by
      rw [hj] at hb'; simpa [premFacts, hg] using hb'
    have hff : d.fact = (t, (R.tgtVars t).map ρ) := by rw [hh, Edge.tgtFact, ht]
    have hf2 : d.fact.2.length = (R.args t).length := by rw [hff]; simp [PRepr.tgtVars]
    have hg2 : g.fact.2.length = (R.args s).length := by rw [hgf]; simp [PRepr.srcVars]
    obtain ⟨m, hm⟩ := mapFromPredicate_isSome (T := T) (xs := R.tgtVars t) (vs := d.fact.2) (by simp [PRepr.tgtVars, hf2])
    obtain ⟨m', hm'⟩ := mapFromPredicate_isSome (T := T) (xs := R.srcVars s 0) (vs := g.fact.2) (by simp [PRepr.srcVars, hg2])
    have hfire : ∀ e ∈ r.1, (∃ ρ, (varSubstitute e.fla (m ++ m')).holds ρ) ↔ e.Fires R [g.fact] d.fact :=
      fun e he => simple_subst_fires hR (hall e he).2.1 (hall e he).2.2 (by rw [hff]) (by rw [hgf]) hf2 hg2 hm hm'
    have hpf : premFacts ds d.premises = [g.fact] := by simp [premFacts, hj, hg]
    simp only [ht, hs, hm, hj, hg, hm', List.head?_cons, Option.bind_eq_bind, Option.bind_some,
      Option.bind_eq_some_iff]
    refine ⟨?_, ?_⟩
    · rintro d' ⟨e', he', h⟩
      simp at h; subst h
      have hm1 := chooseEdge_mem he'
      refine ⟨hj.symm ▸ rfl, rfl, ?_, e', (hall _ hm1).1, rfl, ?_⟩
      · exact hj ▸ hlt
      · show e'.Fires R (premFacts ds [j]) d.fact
        rw [← hj, hpf]
        exact (hfire e' hm1).1 (chooseEdge_sound hS he')
    · intro hC
      have : ∃ e ∈ r.1, ∃ ρ, (varSubstitute e.fla (m ++ m')).holds ρ := by
        rw [h2] at hl
        simp only [Fla.holds_disj, List.mem_map] at hl
        obtain ⟨_, ⟨e', he', rfl⟩, hl⟩ := hl
        refine ⟨e', he', (hfire e' he').2 ⟨ρ, hl, ?_, ?_⟩⟩
        · rw [hgf]; simp [Edge.srcFacts, (hall _ he').2.1, instances, instancesAux]
        · rw [hff, Edge.tgtFact, (hall _ he').2.2]
      obtain ⟨e', he'⟩ := chooseEdge_complete hS hC this
      exact ⟨_, e', he', rfl⟩

end Golem
