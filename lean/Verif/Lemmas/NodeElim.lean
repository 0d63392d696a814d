import Verif.Lemmas.Contract
import Verif.Model.Transformers.NodeEliminator

/-! Contraction of vertices preserves derivability. -/

namespace Golem
variable {T : Theory}

theorem mem_mergeBody {u v : Pred} {fu f : Fact T} {bo : List (Fact T)} (h : f ∈ mergeBody u v fu bo) :
    f = fu ∨ (f ∈ bo ∧ f.1 ≠ v) ∨ f = trueFact := by
  have base : ∀ f ∈ bo.map (fun f => if f.1 = v then fu else f), f = fu ∨ (f ∈ bo ∧ f.1 ≠ v) ∨ f = trueFact := by
    intro f hf
    obtain ⟨g, hg, rfl⟩ := List.mem_map.1 hf
    by_cases h : g.1 = v
    · simp [h]
    · simp [h, hg]
  unfold mergeBody at h
  simp only at h
  split at h
  · split at h
    · simp at h; exact .inr (.inr h)
    · exact base f (List.mem_filter.1 h).1
  · exact base f h

/-- Every fact of the outgoing edge's body, besides that of the skipped vertex and the entry, is in the merged body. -/
theorem mergeBody_cover {u v : Pred} {fu : Fact T} {bo : List (Fact T)} {f : Fact T} (hf : f ∈ bo) :
    (f.1 = v → fu.1 = .tru ∨ fu ∈ mergeBody u v fu bo) ∧ (f.1 ≠ v → f.1 = .tru ∨ f ∈ mergeBody u v fu bo) := by
  have hm : (if f.1 = v then fu else f) ∈ bo.map (fun f => if f.1 = v then fu else f) := List.mem_map.2 ⟨f, hf, rfl⟩
  have key : ∀ g, g ∈ bo.map (fun f => if f.1 = v then fu else f) → g.1 = .tru ∨ g ∈ mergeBody u v fu bo := by
    intro g hg
    by_cases hgt : g.1 = .tru
    · exact .inl hgt
    · right
      unfold mergeBody
      simp only
      split
      · have : g ∈ (bo.map (fun f => if f.1 = v then fu else f)).filter fun f => decide (f.1 ≠ .tru) := by
          rw [List.mem_filter]; exact ⟨hg, by simpa using hgt⟩
        rw [if_neg]
        · exact this
        · intro h
          rw [List.isEmpty_iff] at h
          rw [h] at this; simp at this
      · exact hg
  constructor
  · intro h; rw [if_pos h] at hm; exact key fu hm
  · intro h; rw [if_neg h] at hm; exact key f hm

theorem unique_of_count {α β : Type} [DecidableEq β] {g : α → β} {l : List α} {b : β} (h : (l.map g).count b ≤ 1) {x y : α}
    (hx : x ∈ l) (hy : y ∈ l) (ex : g x = b) (ey : g y = b) : x = y := by
  induction l with
  | nil => simp at hx
  | cons a l ih =>
    rw [List.map_cons, List.count_cons] at h
    have pos : ∀ z ∈ l, g z = b → 0 < (l.map g).count b := fun z hz e => List.count_pos_iff.2 (e ▸ List.mem_map_of_mem hz)
    rcases List.mem_cons.1 hx with e1 | h1 <;> rcases List.mem_cons.1 hy with e2 | h2
    · exact e1.trans e2.symm
    · have := pos y h2 ey
      rw [e1] at ex
      simp [ex] at h; omega
    · have := pos x h1 ex
      rw [e2] at ey
      simp [ey] at h; omega
    · exact ih (by omega) h1 h2

theorem fires_tru {R : PRepr} (hR : R.WF) {e : Edge T} {b : List (Fact T)} {h : Fact T} (hf : e.Fires R b h) {f : Fact T}
    (hm : f ∈ b) (ht : f.1 = .tru) : f = trueFact := by
  obtain ⟨ρ, _, rfl, rfl⟩ := hf
  have := srcFacts_len hm
  obtain ⟨p, vs⟩ := f
  simp only at ht
  subst ht
  simp only [hR.tru, List.length_nil, List.length_eq_zero_iff] at this
  subst this
  rfl

theorem fires_body_mem {R : PRepr} {e : Edge T} {b : List (Fact T)} {h : Fact T} (hf : e.Fires R b h) {s : Pred}
    (hs : s ∈ e.src) : ∃ f ∈ b, f.1 = s := by
  rw [← hf.src] at hs
  obtain ⟨f, hf, rfl⟩ := List.mem_map.1 hs
  exact ⟨f, hf, rfl⟩

theorem fires_one {R : PRepr} {e : Edge T} {b : List (Fact T)} {h : Fact T} (hf : e.Fires R b h) {u : Pred}
    (hs : e.src = [u]) : ∃ fu, b = [fu] ∧ fu.1 = u := by
  have := hf.src
  rw [hs] at this
  cases b with
  | nil => simp at this
  | cons a b => cases b with
    | nil => simp at this; exact ⟨a, rfl, this⟩
    | cons c b => simp at this

theorem derivable_fires {R : PRepr} {G : Graph T} {e : Edge T} (he : e ∈ G) {b : List (Fact T)} {h : Fact T}
    (hf : e.Fires R b h) (hb : ∀ f ∈ b, Derivable (graphRules R G) f) : Derivable (graphRules R G) h :=
  Derivable.step ⟨b, h⟩ (hf.rule he) hb

/-- A contraction step keeps the derivable facts of all other vertices. -/
theorem contracted_derivable {R : PRepr} (hR : R.WF) {G G' : Graph T} {v : Pred} {c : Contraction T}
    (hok : ContractOk G v) (hv : v ≠ .tru) (h : Contracted R G v G' c) {f : Fact T} (hf : f.1 ≠ v) :
    Derivable (graphRules R G) f ↔ Derivable (graphRules R G') f := by
  have hsub : ∀ e, e ∈ G → e.tgt ≠ v → v ∉ e.src → e ∈ G' := by
    intro e he h1 h2
    rw [h.edges]
    exact List.mem_append_left _ (mem_deleteNode'.2 ⟨he, h1, h2⟩)
  have hnew : ∀ t ∈ c.replacing, t.1 ∈ G' := by
    intro t ht
    rw [h.edges]
    exact List.mem_append_right _ (List.mem_map.2 ⟨t, ht, rfl⟩)
  constructor
  · intro hd
    let Q : Fact T → Prop := fun f =>
      if f.1 = v then ∃ i ∈ G.inEdges v, ∃ fu, i.Fires R [fu] f ∧ Derivable (graphRules R G') fu
      else Derivable (graphRules R G') f
    have hQ : SatisfiesRules (graphRules R G) Q := by
      refine ⟨?_, ?_⟩
      · show if trueFact.1 = v then _ else _
        rw [if_neg (by exact fun e => hv e.symm)]
        exact .entry
      · rintro ⟨b, hd⟩ hr hb
        obtain ⟨e, he, hfire⟩ := graphRules_iff.1 hr
        simp only at hb hfire ⊢
        have hdt := hfire.tgt
        by_cases htgt : e.tgt = v
        · show if hd.1 = v then _ else _
          rw [if_pos (hdt.trans htgt)]
          have hin : e ∈ G.inEdges v := mem_inEdges.2 ⟨he, htgt⟩
          obtain ⟨u, hu, huv, _⟩ := hok.simple e hin
          obtain ⟨fu, rfl, hfu⟩ := fires_one hfire hu
          refine ⟨e, hin, fu, hfire, ?_⟩
          have hq := hb fu (by simp)
          simp only [Q] at hq
          rwa [if_neg (by rw [hfu]; exact huv)] at hq
        · show if hd.1 = v then _ else _
          rw [if_neg (by rw [hdt]; exact htgt)]
          by_cases hsrc : v ∈ e.src
          · have hout : e ∈ G.outEdges v := mem_outEdges.2 ⟨he, hsrc⟩
            obtain ⟨fv, hfv, hfv1⟩ := fires_body_mem hfire hsrc
            have hq := hb fv hfv
            simp only [Q] at hq
            rw [if_pos hfv1] at hq
            obtain ⟨i, hi, fu, hif, hfu⟩ := hq
            have hp : (i, e) ∈ c.replacing.map Prod.snd := by
              rw [h.pairs]; exact mem_edgePairs.2 ⟨hi, hout⟩
            obtain ⟨t, ht, hte⟩ := List.mem_map.1 hp
            obtain ⟨u, hu, htv, hm⟩ := h.merged t ht
            rw [hte] at hu htv hm
            simp only at hu htv hm
            refine derivable_fires (hnew t ht) ((hm.comp _ hd).2 ⟨fu, fv, b, hif, hfire, ?_, rfl⟩) ?_
            · intro f hf hfi
              refine unique_of_count (g := Prod.fst) (b := v) ?_ hf hfv (hfi.trans htv) hfv1
              rw [hfire.src, (hok.out e hout).1]; omega
            · intro f hf
              rcases mem_mergeBody hf with rfl | ⟨hf, hne⟩ | rfl
              · exact hfu
              · have hq := hb f hf
                simp only [Q] at hq
                rwa [if_neg (by rw [← htv]; exact hne)] at hq
              · exact .entry
          · refine derivable_fires (hsub e he htgt hsrc) hfire ?_
            intro f hf
            have hq := hb f hf
            simp only [Q] at hq
            rwa [if_neg ?_] at hq
            intro e'
            apply hsrc
            rw [← hfire.src, ← e']
            exact List.mem_map_of_mem hf
    have := hd.sound hQ
    simp only [Q] at this
    rwa [if_neg hf] at this
  · intro hd
    refine Derivable.sound (M := Derivable (graphRules R G)) ⟨.entry, ?_⟩ hd
    rintro ⟨b, hd⟩ hr hb
    obtain ⟨e, he, hfire⟩ := graphRules_iff.1 hr
    simp only at hb hfire ⊢
    rw [h.edges] at he
    rcases List.mem_append.1 he with he | he
    · exact derivable_fires (mem_deleteNode'.1 he).1 hfire hb
    · obtain ⟨t, ht, rfl⟩ := List.mem_map.1 he
      obtain ⟨u, hu, htv, hm⟩ := h.merged t ht
      obtain ⟨fu, fv, bo, hi, ho, huniq, rfl⟩ := (hm.comp b hd).1 hfire
      have hbo : ∃ f ∈ bo, f.1 = t.2.1.tgt := fires_body_mem ho (List.count_pos_iff.1 (by rw [hu.once]; omega))
      obtain ⟨f0, hf0, hf01⟩ := hbo
      have hfu : Derivable (graphRules R G) fu := by
        rcases (mergeBody_cover (u := u) (v := t.2.1.tgt) (fu := fu) hf0).1 hf01 with h' | h'
        · rw [fires_tru hR hi (by simp) h']; exact .entry
        · exact hb fu h'
      have hfv : Derivable (graphRules R G) fv := derivable_fires hu.mi hi (by simpa using hfu)
      refine derivable_fires hu.mo ho fun f hf => ?_
      by_cases hfv1 : f.1 = t.2.1.tgt
      · rw [huniq f hf hfv1]; exact hfv
      · rcases (mergeBody_cover (u := u) (v := t.2.1.tgt) (fu := fu) hf).2 hfv1 with h' | h'
        · rw [fires_tru hR ho hf h']; exact .entry
        · exact hb f h'

/-! ### The guards -/

theorem src_one {st : GS T} {R : PRepr} (hst : st.Ok R) {e : Edge T} (he : e ∈ st.edges) (h : ¬ 1 < e.src.length) :
    ∃ u, e.src = [u] := by
  have := hst.srcNe e he
  match hs : e.src with
  | [] => exact absurd hs this
  | [u] => exact ⟨u, rfl⟩
  | a :: b :: l => rw [hs] at h; simp at h

theorem contractOk_of_normal {R : PRepr} {st : GS T} (hst : st.Ok R) {v : Pred} (hl : isNonLoopNode st.edges v = true)
    (hh : hasHyperEdge st.edges v = false) : ContractOk st.edges v := by
  unfold isNonLoopNode at hl
  unfold hasHyperEdge at hh
  simp only [Bool.not_eq_true', List.any_eq_false, decide_eq_true_eq, Bool.or_eq_false_iff] at hl hh
  have hout : ∀ o ∈ st.edges.outEdges v, o.src = [v] ∧ o.tgt ≠ v := by
    intro o ho
    obtain ⟨h1, h2⟩ := mem_outEdges.1 ho
    obtain ⟨u, hu⟩ := src_one hst h1 (hh.2 o ho)
    rw [hu] at h2
    simp at h2
    exact ⟨h2 ▸ hu, hl o ho⟩
  refine ⟨?_, ?_, ?_⟩
  · intro i hi
    obtain ⟨h1, h2⟩ := mem_inEdges.1 hi
    obtain ⟨u, hu⟩ := src_one hst h1 (hh.1 i hi)
    have huv : u ≠ v := by
      rintro rfl
      exact (hout i (mem_outEdges.2 ⟨h1, by rw [hu]; simp⟩)).2 h2
    refine ⟨u, hu, huv, fun o ho => ?_⟩
    rw [(hout o ho).1]; simpa using huv
  · intro o ho
    exact ⟨by rw [(hout o ho).1]; simp, (hout o ho).2⟩
  · intro _ o ho
    rw [(hout o ho).1]; rfl

theorem simpleElim_ok {R : PRepr} {st : GS T} (hst : st.Ok R) {v : Pred} (h : simpleElimPredicate st.edges v = true) :
    ContractOk st.edges v := by
  unfold simpleElimPredicate at h
  split at h
  · rename_i h0
    rw [Bool.and_eq_true] at h0
    split at h
    · rename_i h1
      exact contractOk_of_normal hst h0.2 (by simpa using h1)
    · split at h
      · rename_i i hi
        split at h
        · rename_i u hu
          simp only [List.all_eq_true, Bool.and_eq_true, decide_eq_true_eq] at h
          have hi' : i ∈ st.edges ∧ i.tgt = v := mem_inEdges.1 (by rw [hi]; simp)
          refine ⟨?_, ?_, ?_⟩
          · intro i' hi''
            rw [hi] at hi''
            simp at hi''
            subst hi''
            refine ⟨u, hu, ?_, fun o ho => (h o ho).2⟩
            rintro rfl
            have := (h i' (mem_outEdges.2 ⟨hi'.1, by rw [hu]; simp⟩)).1.1
            exact this hi'.2.symm
          · intro o ho
            exact ⟨(h o ho).1.2, fun e => (h o ho).1.1 e.symm⟩
          · rw [hi]; simp
        · simp at h
      · simp at h
  · simp at h

theorem slightlyBetter_ok {R : PRepr} {st : GS T} (hst : st.Ok R) {v : Pred} (h : slightlyBetterPredicate st.edges v = true) :
    ContractOk st.edges v := by
  unfold slightlyBetterPredicate at h
  split at h
  · simp at h
  · rename_i h1
    split at h
    · simp at h
    · rename_i h2
      exact contractOk_of_normal hst (by simpa using h1) (by simpa using h2)

/-! ### The loop -/

/-- A run of contractions. -/
inductive ElimSteps (R : PRepr) : GS T → List (Pred × Contraction T) → GS T → Prop where
  | nil {st : GS T} (h : st.Ok R) : ElimSteps R st [] st
  | cons {st st1 st' : GS T} {v : Pred} {c : Contraction T} {rs : List (Pred × Contraction T)} (hst : st.Ok R)
      (hok : ContractOk st.edges v) (hv : v ≠ .tru ∧ v ≠ .fls) (hc : Contracted R st.edges v st1.edges c)
      (hid : ∀ t ∈ c.replacing, st.freeId ≤ t.1.id ∧ t.1.id < st1.freeId) (hmono : st.freeId ≤ st1.freeId)
      (hne : v ∉ rs.map Prod.fst) (h : ElimSteps R st1 rs st') : ElimSteps R st ((v, c) :: rs) st'

/-- The guard admits only vertices that can be contracted. -/
def GuardOk (R : PRepr) (pred : Graph T → Pred → Bool) : Prop :=
  ∀ st : GS T, st.Ok R → ∀ v, pred st.edges v = true → ContractOk st.edges v

theorem mergePairs_freeId {R : PRepr} {E : Elim T} (ps : List (Edge T × Edge T)) (st : GS T) :
    st.freeId ≤ (mergePairs R E ps st).1.freeId := by
  induction ps generalizing st with
  | nil => exact Nat.le_refl _
  | cons p ps ih =>
    have := ih (mergeEdgePair R E st p.1 p.2).1
    have h2 : (mergeEdgePair R E st p.1 p.2).1.freeId = st.freeId + 1 := rfl
    show st.freeId ≤ (mergePairs R E ps (mergeEdgePair R E st p.1 p.2).1).1.freeId
    omega

theorem contractVertex_freeId {R : PRepr} {E : Elim T} {st st' : GS T} {v : Pred} {c : Contraction T}
    (h : contractVertex R E st v = some (st', c)) : st.freeId ≤ st'.freeId := by
  unfold contractVertex at h
  simp only at h
  split at h
  · simp at h
  · simp only [Option.some.injEq, Prod.mk.injEq] at h
    rw [← h.1]
    exact mergePairs_freeId _ _

theorem eliminateLoop_spec {R : PRepr} (hR : R.WF) (hF : R.FreshNames) {E : Elim T} (hE : E.Exact)
    {pred : Graph T → Pred → Bool} (hp : GuardOk R pred) :
    ∀ (fuel : Nat) (vs : List Pred) (st : GS T), st.Ok R → vs.length ≤ fuel → vs.Nodup →
      (∀ v ∈ vs, v ≠ .tru ∧ v ≠ .fls) →
      ∃ st' rs, eliminateLoop R E pred fuel vs st = .done (st', rs) ∧ ElimSteps R st rs st' ∧
        (∀ p ∈ rs.map Prod.fst, p ∈ vs) ∧ ∀ p ∈ vs, p ∈ rs.map Prod.fst ∨ pred st'.edges p = false := by
  intro fuel
  induction fuel with
  | zero =>
    intro vs st hst hl _ _
    have : vs = [] := List.length_eq_zero_iff.1 (by omega)
    subst this
    exact ⟨st, [], by simp [eliminateLoop], .nil hst, by simp, by simp⟩
  | succ fuel ih =>
    intro vs st hst hl hn hv
    unfold eliminateLoop
    split
    · rename_i hnone
      refine ⟨st, [], rfl, .nil hst, by simp, fun p hp => .inr ?_⟩
      have := List.find?_eq_none.1 hnone p hp
      simpa using this
    · rename_i v hsome
      have hmem := List.mem_of_find?_eq_some hsome
      have hpv := List.find?_some hsome
      have hok := hp st hst v hpv
      obtain ⟨st1, c, hc, hst1, hC, hid⟩ := contractVertex_spec hR hF hE hst hok
      have hlen : (vs.erase v).length ≤ fuel := by
        rw [List.length_erase_of_mem hmem]
        omega
      obtain ⟨st', rs, h1, h2, h3, h4⟩ := ih (vs.erase v) st1 hst1 hlen (hn.erase v)
        (fun p hp => hv p (List.mem_of_mem_erase hp))
      have hnot : v ∉ rs.map Prod.fst := fun h => by
        have := h3 v h
        rw [hn.mem_erase_iff] at this
        exact this.1 rfl
      refine ⟨st', (v, c) :: rs, ?_, ?_, ?_, ?_⟩
      · simp only [hc, h1]
      · refine .cons hst hok (hv v hmem) hC (fun t ht => ⟨hid t ht, ?_⟩) (contractVertex_freeId hc) hnot h2
        refine hst1.idlt t.1 ?_
        rw [hC.edges]
        exact List.mem_append_right _ (List.mem_map.2 ⟨t, ht, rfl⟩)
      · intro p hp
        simp only [List.map_cons, List.mem_cons] at hp
        rcases hp with rfl | hp
        · exact hmem
        · exact List.mem_of_mem_erase (h3 p hp)
      · intro p hp
        by_cases e : p = v
        · subst e; left; simp
        · rcases h4 p (by rw [hn.mem_erase_iff]; exact ⟨e, hp⟩) with h | h
          · left; simp only [List.map_cons, List.mem_cons]; exact .inr h
          · exact .inr h

theorem mem_insertByRank {a p : Pred} {l : List Pred} : p ∈ insertByRank a l ↔ p = a ∨ p ∈ l := by
  induction l with
  | nil => simp [insertByRank]
  | cons b l ih =>
    simp only [insertByRank]
    split
    · simp
    · simp only [List.mem_cons, ih]
      constructor
      · rintro (h | h | h) <;> simp [h]
      · rintro (h | h | h) <;> simp [h]

theorem mem_sortByRank {p : Pred} {l : List Pred} : p ∈ sortByRank l ↔ p ∈ l := by
  induction l with
  | nil => simp [sortByRank]
  | cons a l ih =>
    show p ∈ insertByRank a (sortByRank l) ↔ _
    rw [mem_insertByRank, ih, List.mem_cons]

theorem insertByRank_nodup {a : Pred} {l : List Pred} (h : l.Nodup) (ha : a ∉ l) : (insertByRank a l).Nodup := by
  induction l with
  | nil => simp [insertByRank]
  | cons b l ih =>
    simp only [insertByRank]
    split
    · exact List.nodup_cons.2 ⟨ha, h⟩
    · rw [List.nodup_cons] at h ⊢
      simp only [List.mem_cons, not_or] at ha
      refine ⟨?_, ih h.2 ha.2⟩
      rw [mem_insertByRank]
      rintro (e | e)
      · exact ha.1 e.symm
      · exact h.1 e

theorem sortByRank_nodup {l : List Pred} (h : l.Nodup) : (sortByRank l).Nodup := by
  induction l with
  | nil => simp [sortByRank]
  | cons a l ih =>
    rw [List.nodup_cons] at h
    exact insertByRank_nodup (ih h.2) (fun e => h.1 (mem_sortByRank.1 e))

theorem mem_innerVertices {G : Graph T} {p : Pred} : p ∈ innerVertices G ↔ G.Vertex p ∧ p ≠ .tru ∧ p ≠ .fls := by
  unfold innerVertices
  simp only [List.mem_filter, mem_sortByRank, mem_firstOcc, List.mem_flatMap, List.mem_cons, decide_eq_true_eq]
  rfl

theorem innerVertices_nodup (G : Graph T) : (innerVertices G).Nodup := (sortByRank_nodup (firstOcc_nodup _)).filter _

theorem nodeEliminator_spec {R : PRepr} (hR : R.WF) (hF : R.FreshNames) {E : Elim T} (hE : E.Exact)
    {pred : Graph T → Pred → Bool} (hp : GuardOk R pred) {st : GS T} (hst : st.Ok R) :
    ∃ st' rs, nodeEliminator R E pred st = .done (st', rs) ∧ ElimSteps R st rs st' ∧
      (∀ p ∈ rs.map Prod.fst, st.edges.Vertex p ∧ p ≠ .tru ∧ p ≠ .fls) ∧
      ∀ p, st.edges.Vertex p → p ≠ .tru → p ≠ .fls → p ∈ rs.map Prod.fst ∨ pred st'.edges p = false := by
  obtain ⟨st', rs, h1, h2, h3, h4⟩ := eliminateLoop_spec hR hF hE hp (innerVertices st.edges).length _ st hst (Nat.le_refl _)
    (innerVertices_nodup _) (fun v hv => (mem_innerVertices.1 hv).2)
  exact ⟨st', rs, h1, h2, fun p hp => mem_innerVertices.1 (h3 p hp), fun p a b c => h4 p (mem_innerVertices.2 ⟨a, b, c⟩)⟩

theorem ElimSteps.first {R : PRepr} {st st' : GS T} {rs : List (Pred × Contraction T)} (h : ElimSteps R st rs st') :
    st.Ok R := by
  cases h <;> assumption

theorem ElimSteps.last {R : PRepr} {st st' : GS T} {rs : List (Pred × Contraction T)} (h : ElimSteps R st rs st') :
    st'.Ok R := by
  induction h with
  | nil h => exact h
  | cons _ _ _ _ _ _ _ _ ih => exact ih

/-- No edge of the contracted graph mentions the vertex. -/
theorem Contracted.not_vertex {R : PRepr} {G G' : Graph T} {v : Pred} {c : Contraction T} (h : Contracted R G v G' c) :
    ¬ Graph.Vertex G' v := by
  rintro ⟨e, he, hv⟩
  rw [h.edges] at he
  rcases List.mem_append.1 he with he | he
  · obtain ⟨_, h1, h2⟩ := mem_deleteNode'.1 he
    rcases hv with rfl | hv
    · exact h1 rfl
    · exact h2 hv
  · obtain ⟨t, ht, rfl⟩ := List.mem_map.1 he
    obtain ⟨u, hu, htv, hm⟩ := h.merged t ht
    rcases hv with hv | hv
    · rw [hm.tgt] at hv
      exact hu.tgt (hv.symm.trans htv.symm)
    · rw [hm.src] at hv
      rcases mem_mergeSources_fst hv with h1 | ⟨_, h1⟩
      · exact hu.ne (h1.symm.trans htv.symm)
      · exact h1 htv.symm

/-- Contraction adds no vertex. -/
theorem Contracted.vertex_sub {R : PRepr} {G G' : Graph T} {v : Pred} {c : Contraction T} (h : Contracted R G v G' c)
    {p : Pred} (hp : Graph.Vertex G' p) : G.Vertex p := by
  obtain ⟨e, he, hv⟩ := hp
  rw [h.edges] at he
  rcases List.mem_append.1 he with he | he
  · exact ⟨e, (mem_deleteNode'.1 he).1, hv⟩
  · obtain ⟨t, ht, rfl⟩ := List.mem_map.1 he
    obtain ⟨u, hu, htv, hm⟩ := h.merged t ht
    rcases hv with hv | hv
    · rw [hm.tgt] at hv; exact ⟨_, hu.mo, .inl hv⟩
    · rw [hm.src] at hv
      rcases mem_mergeSources_fst hv with h1 | ⟨h1, _⟩
      · exact ⟨_, hu.mi, .inr (by rw [hu.isrc, h1]; simp)⟩
      · exact ⟨_, hu.mo, .inr h1⟩

theorem ElimSteps.vertex_sub {R : PRepr} {st st' : GS T} {rs : List (Pred × Contraction T)} (h : ElimSteps R st rs st')
    {p : Pred} (hp : st'.edges.Vertex p) : st.edges.Vertex p := by
  induction h with
  | nil => exact hp
  | cons _ _ _ hC _ _ _ _ ih => exact hC.vertex_sub (ih hp)

theorem ElimSteps.removed {R : PRepr} {st st' : GS T} {rs : List (Pred × Contraction T)} (h : ElimSteps R st rs st')
    {p : Pred} (hp : p ∈ rs.map Prod.fst) : ¬ st'.edges.Vertex p := by
  induction h with
  | nil => simp at hp
  | cons _ _ _ hC _ _ _ h ih =>
    simp only [List.map_cons, List.mem_cons] at hp
    rcases hp with rfl | hp
    · exact fun hv => hC.not_vertex (h.vertex_sub hv)
    · exact ih hp

theorem ElimSteps.derivable {R : PRepr} (hR : R.WF) {st st' : GS T} {rs : List (Pred × Contraction T)}
    (h : ElimSteps R st rs st') {f : Fact T} (hf : f.1 ∉ rs.map Prod.fst) :
    Derivable (graphRules R st.edges) f ↔ Derivable (graphRules R st'.edges) f := by
  induction h with
  | nil => exact Iff.rfl
  | cons hst hok hv hC hid hmono hne h ih =>
    simp only [List.map_cons, List.mem_cons, not_or] at hf
    exact (contracted_derivable hR hok hv.1 hC hf.1).trans (ih hf.2)

end Golem
