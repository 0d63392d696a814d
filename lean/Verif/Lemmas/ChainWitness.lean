import Verif.Lemmas.ChainSteps
import Verif.Props.Derivations

/-! Back-translation of witnesses through a run of the chain summarizer. -/

namespace Golem
variable {T : Theory}

section
variable {R : PRepr} {st st1 st' : GS T} {chain : List (Edge T)} {s : Edge T} {u w : Pred} {ss : List (Summary T)}

/-! ### SAFE -/

theorem undefined_of_only {G : Graph T} {D : Defs T} (honly : ∀ p, (D.get p).isSome → G.Vertex p ∨ p = .tru ∨ p = .fls)
    {p : Pred} (hp : ¬ G.Vertex p) (h1 : p ≠ .tru ∧ p ≠ .fls) : D.get p = none := by
  cases hd : D.get p with
  | none => rfl
  | some d =>
    rcases honly p (by rw [hd]; rfl) with h | h | h
    · exact absurd h hp
    · exact absurd h h1.1
    · exact absurd h h1.2

theorem chainSafeLoop_sound {S : Smt T} (hS : S.Sound) (hR : R.WF) (h : ChainRun R st ss st') {D D' : Defs T}
    (hD : SafeModel R st'.edges D) (honly : ∀ p, (D.get p).isSome → st'.edges.Vertex p ∨ p = .tru ∨ p = .fls)
    (hr : chainSafeLoop S R ss D = .done (some D')) :
    SafeModel R st.edges D' ∧ (∀ p, (D'.get p).isSome → st.edges.Vertex p ∨ p = .tru ∨ p = .fls) ∧
      ((∀ p, st'.edges.Vertex p → (D.get p).isSome) → ∀ p, st.edges.Vertex p → (D'.get p).isSome) := by
  induction h generalizing D' with
  | nil =>
    simp only [chainSafeLoop, Outcome.done.injEq, Option.some.injEq] at hr
    subst hr
    exact ⟨hD, honly, fun h => h⟩
  | @lin st st1 st' chain s u w ss hst hends hM hid hfree h ih =>
    simp only [chainSafeLoop] at hr
    split at hr
    · rename_i D1 hD1
      obtain ⟨i1, i2, i3⟩ := ih hD honly hD1
      split at hr
      · simp at hr
      · rename_i q hq
        split at hr
        · rename_i hu
          have hin := hM.inner_ends hends
          have hun : ∀ v ∈ innerOf chain, D1.get v = none := fun v hv =>
            undefined_of_only i2 (fun h => (hM.vertex.1 h).2 hv) (hin v hv)
          obtain ⟨D2, h1, h2, h3, h4⟩ := chainStep_safe hS hR hst hM ⟨fun h => (hin _ h).1 rfl, fun h => (hin _ h).2 rfl⟩ i1
            hun hq hu
          simp only [Outcome.done.injEq] at hr
          rw [h1] at hr
          cases hr
          refine ⟨h2, ?_, ?_⟩
          · intro p hp
            by_cases hpi : p ∈ innerOf chain
            · obtain ⟨i, o, hT⟩ := hM.lin.inner p hpi
              exact .inl ⟨i, hT.mi, .inl hT.ti.symm⟩
            · rw [h3 p hpi] at hp
              exact (i2 p hp).imp_left fun h => (hM.vertex.1 h).1
          · intro hcomp p hp
            by_cases hpi : p ∈ innerOf chain
            · exact h4 p hpi
            · rw [h3 p hpi]; exact i3 hcomp p (hM.vertex.2 ⟨hp, hpi⟩)
        · simp at hr
    · rename_i r hr'
      exact absurd hr (hr' D')
  | @cyc st st1 st' chain s u w ss hst hends hM hid hfree h ih =>
    simp only [chainSafeLoop] at hr
    split at hr
    · rename_i D1 hD1
      obtain ⟨i1, i2, i3⟩ := ih hD honly hD1
      have hnone : D1.get u = none :=
        undefined_of_only i2 (fun h => (hM.vertex h).2 hM.cyc.start) (hM.inner_ends hends u hM.cyc.start)
      have hq : chainQuery R D1 (chain, s) = none := by
        unfold chainQuery
        simp [hM.src, hnone]
      rw [hq] at hr
      simp at hr
    · rename_i r hr'
      exact absurd hr (hr' D')

/-- Every vertex can be reached from the entry along edges. -/
def Graph.Grounded (G : Graph T) : Prop := ∀ p, G.Vertex p → p ≠ .fls → FwdReach G p

theorem cycle_not_grounded (hM : CycleRemoved st.edges st1.edges chain s u w) (hends : st.edges.Ends) :
    ¬ st.edges.Grounded := by
  intro hG
  have hin := hM.inner_ends hends
  have key : ∀ p, FwdReach st.edges p → p ∉ innerOf chain := by
    intro p hp
    induction hp with
    | entry => exact fun h => (hin _ h).1 rfl
    | @step e he hne hs ih =>
      intro hin'
      obtain ⟨i, o, z, hT, hi, hz, _⟩ := hM.cyc.closed _ hin'
      have := hT.inc e he rfl
      subst this
      exact ih z (by rw [hi]; simp) hz
  obtain ⟨i, o, hT⟩ := hM.cyc.inner hM.cyc.start
  exact key u (hG u ⟨i, hT.mi, .inl hT.ti.symm⟩ (hin u hM.cyc.start).2) hM.cyc.start

theorem merged_grounded (hM : ChainMerged R st.edges st1.edges chain s u w) (hends : st.edges.Ends) (hG : st.edges.Grounded) :
    st1.edges.Grounded := by
  have hin := hM.inner_ends hends
  have hl := hM.lin
  have key : ∀ p, FwdReach st.edges p → (p ∉ innerOf chain → FwdReach st1.edges p) ∧
      (p ∈ innerOf chain → FwdReach st1.edges u) := by
    intro p hp
    induction hp with
    | entry => exact ⟨fun _ => .entry, fun h => absurd rfl (hin _ h).1⟩
    | @step e he hne hs ih =>
      by_cases hc : e ∈ chain
      · obtain ⟨v, hv, hv'⟩ := hl.sources hc
        have hu : FwdReach st1.edges u := by
          rcases hv' with rfl | hv'
          · exact (ih v (by rw [hv]; simp)).1 hl.ends.2.1
          · exact (ih v (by rw [hv]; simp)).2 hv'
        refine ⟨fun hn => ?_, fun _ => hu⟩
        have := (hl.tgts hc).resolve_right hn
        rw [this, ← hM.tgt]
        refine .step ((hM.edges s).2 (.inr rfl)) (by rw [hM.src]; simp) ?_
        rw [hM.src]
        simpa using hu
      · have he1 : e ∈ st1.edges := (hM.edges e).2 (.inl ⟨he, hc⟩)
        refine ⟨fun _ => .step he1 hne fun z hz => (ih z hz).1 fun hzi => hc (hl.out_chain he hzi hz), fun hti => ?_⟩
        exact absurd (hl.in_chain he hti) hc
  intro p hp hf
  obtain ⟨h1, h2⟩ := hM.vertex.1 hp
  exact (key p (hG p h1 hf)).1 h2

theorem chainSafeLoop_total {S : Smt T} (hS : S.Sound) (hSC : S.Complete) (hR : R.WF) (h : ChainRun R st ss st')
    (hG : st.edges.Grounded) {D : Defs T} (hD : SafeWitness R st'.edges D) :
    ∃ D', chainSafeLoop S R ss D = .done (some D') := by
  induction h with
  | nil => exact ⟨D, rfl⟩
  | @lin st st1 st' chain s u w ss hst hends hM hid hfree h ih =>
    obtain ⟨D1, hD1⟩ := ih (merged_grounded hM hends hG) hD
    obtain ⟨i1, i2, i3⟩ := chainSafeLoop_sound hS hR h hD.toSafeModel hD.only hD1
    have hv : ∀ p, p = u ∨ p = w → (D1.get p).isSome := by
      intro p hp
      refine i3 hD.complete p ⟨s, (hM.edges s).2 (.inr rfl), ?_⟩
      rw [hM.tgt, hM.src, List.mem_singleton]
      exact hp.symm
    obtain ⟨a, ha⟩ := Option.isSome_iff_exists.1 (hv u (.inl rfl))
    obtain ⟨b, hb⟩ := Option.isSome_iff_exists.1 (hv w (.inr rfl))
    have hq : ∃ q, chainQuery R D1 (chain, s) = some q := by
      unfold chainQuery
      simp [hM.src, hM.tgt, ha, hb]
    obtain ⟨q, hq⟩ := hq
    have hns := chainStep_unsat hR hM i1 hq
    have hu : S.check q = .unsat := (hSC q).resolve_left fun hs => hns ⟨_, hS.sat q hs⟩
    have hin := hM.inner_ends hends
    have hun : ∀ v ∈ innerOf chain, D1.get v = none := fun v hv =>
      undefined_of_only i2 (fun h => (hM.vertex.1 h).2 hv) (hin v hv)
    obtain ⟨D2, h1, _⟩ := chainStep_safe hS hR hst hM ⟨fun h => (hin _ h).1 rfl, fun h => (hin _ h).2 rfl⟩ i1 hun hq hu
    refine ⟨D2, ?_⟩
    simp only [chainSafeLoop, hD1, hq, hu, if_true, h1]
  | @cyc st st1 st' chain s u w ss hst hends hM hid hfree h ih =>
    exact absurd hG (cycle_not_grounded hM hends)

/-! ### UNSAFE -/

theorem SumOk.chainOk {B : Graph T} {t : Summary T} (h : SumOk R B t) (hB : ∀ e ∈ B, e.LabelOk R) : ChainOk R t.1 := by
  intro e he
  obtain ⟨u, w, _, _, hp⟩ := h.ends
  obtain ⟨i, hi, hie⟩ := List.getElem_of_mem he
  have hie' : t.1[i]? = some e := by rw [List.getElem?_eq_getElem hi, hie]
  refine ⟨?_, hB e (h.mem e he)⟩
  rcases hp.sources hie' with ⟨_, hs⟩ | ⟨_, e', _, _, hs⟩
  · exact ⟨_, hs⟩
  · exact ⟨_, hs⟩

theorem HPath.chained {es : List (Edge T)} (h : HPath u es w) : Chained u (normalChain R es) w := by
  induction h with
  | nil => exact chained_nil.2 rfl
  | cons hs _ ih =>
    unfold normalChain
    rw [List.map_cons]
    exact chained_cons.2 ⟨by rw [hs]; rfl, ih⟩

theorem ChainFires.feasible (hR : R.WF) {es : List (Edge T)} (hok : ChainOk R es) {f g : Fact T} (h : ChainFires R es f g) :
    LFeasible R (normalChain R es) f g := by
  induction es generalizing f with
  | nil => cases h; exact .nil _
  | cons e es ih =>
    obtain ⟨k, h1, h2⟩ := h
    unfold normalChain
    rw [List.map_cons]
    have := hok e (by simp)
    exact .cons ((normal_fires hR this.1 this.2 _ _).2 h1) (ih (fun e he => hok e (by simp [he])) h2)

theorem count_splice {ds news : List (DStep T)} {k : Nat} {step : DStep T} (hs : ds[k]? = some step) (c : Option Nat) :
    ((spliceSteps ds k news).map DStep.clauseId).count c + [step.clauseId].count c =
      (ds.map DStep.clauseId).count c + (news.map DStep.clauseId).count c := by
  have hk := List.getElem?_lt hs
  have hd : ds.map DStep.clauseId = (ds.take k).map DStep.clauseId ++ (step.clauseId :: (ds.drop (k + 1)).map DStep.clauseId) := by
    have h1 : ds[k] = step := by rw [List.getElem?_eq_getElem hk] at hs; exact Option.some.inj hs
    rw [← h1, ← List.map_cons, ← List.drop_eq_getElem_cons hk, ← List.map_append, List.take_append_drop]
  have hsp : (spliceSteps ds k news).map DStep.clauseId =
      (ds.take k).map DStep.clauseId ++ (news.map DStep.clauseId ++ (ds.drop (k + 1)).map DStep.clauseId) := by
    unfold spliceSteps
    simp only [List.map_append, List.map_map]
    rfl
  rw [hsp, hd, List.count_append, List.count_append, List.count_append, List.count_cons, List.count_cons, List.count_nil]
  omega

section
variable {S : Smt T} {B U : Graph T} {t : Summary T}

/-- All steps with one summary edge are replaced. -/
theorem replaceAll_spec (hS : S.Sound) (hR : R.WF) (hok : SumOk R B t) (hB : ∀ e ∈ B, e.LabelOk R) (hU : U.IdsNodup)
    (hBU : ∀ e ∈ B, e ∈ U) (htU : t.2 ∈ U) (htB : ∀ e ∈ B, e.id ≠ t.2.id) :
    ∀ (fuel : Nat) (ds : List (DStep T)), UnsafeWitness R U ds → (ds.map DStep.clauseId).count (some t.2.id) ≤ fuel →
      replaceAllSummaries S R t fuel ds ≠ .outOfFuel ∧
      (∀ ds', replaceAllSummaries S R t fuel ds = .done ds' → UnsafeWitness R U ds' ∧ some t.2.id ∉ ds'.map DStep.clauseId ∧
        ∀ c ∈ ds'.map DStep.clauseId, c ∈ ds.map DStep.clauseId ∨ ∃ e ∈ B, c = some e.id) ∧
      (S.Complete → ∃ ds', replaceAllSummaries S R t fuel ds = .done ds') := by
  have hch := hok.chainOk hB
  obtain ⟨u, w, hsrc, htgt, hpath⟩ := hok.ends
  intro fuel
  induction fuel with
  | zero =>
    intro ds hw hc
    have hnone : ds.findIdx? (fun d => d.clauseId == some t.2.id) = none := by
      rw [List.findIdx?_eq_none_iff]
      intro d hd
      have : some t.2.id ∉ ds.map DStep.clauseId := by
        rw [← List.count_eq_zero]; omega
      simp only [beq_eq_false_iff_ne]
      intro h
      exact this (List.mem_map.2 ⟨d, hd, h⟩)
    have hr : replaceAllSummaries S R t 0 ds = .done ds := by unfold replaceAllSummaries; rw [hnone]
    rw [hr]
    refine ⟨by simp, ?_, fun _ => ⟨_, rfl⟩⟩
    intro ds' h
    cases h
    refine ⟨hw, ?_, fun c hc => .inl hc⟩
    rw [← List.count_eq_zero]; omega
  | succ fuel ih =>
    intro ds hw hc
    unfold replaceAllSummaries
    split
    · rename_i hnone
      refine ⟨by simp, ?_, fun _ => ⟨_, rfl⟩⟩
      intro ds' h
      cases h
      refine ⟨hw, ?_, fun c hc => .inl hc⟩
      intro hm
      obtain ⟨d, hd, hde⟩ := List.mem_map.1 hm
      have := List.findIdx?_eq_none_iff.1 hnone d hd
      simp [hde] at this
    · rename_i k hk
      obtain ⟨hklt, hkp, _⟩ := List.findIdx?_eq_some_iff_getElem.1 hk
      have hkp : ds[k].clauseId = some t.2.id := by simpa using hkp
      have hs : ds[k]? = some ds[k] := List.getElem?_eq_getElem hklt
      have hk0 : 0 < k := by
        rcases Nat.eq_zero_or_pos k with h | h
        · subst h
          obtain ⟨d0, hd0, _, hcl⟩ := hw.first
          rw [List.head?_eq_getElem?, hs] at hd0
          cases hd0
          rw [hkp] at hcl; cases hcl
        · exact h
      obtain ⟨hp, e, he, hec, hfire⟩ := hw.steps k ds[k] hk0 hs
      have het : e = t.2 := ids_inj hU he htU (by rw [hkp] at hec; exact (Option.some.inj hec).symm)
      subst het
      have hne : t.1 ≠ [] := by intro h; have := hok.len; rw [h] at this; simp at this
      have hsound : ∀ ds', replaceSummarizingStep S R ds k t.1 t.2 = .done ds' → UnsafeWitness R U ds' ∧
          (ds'.map DStep.clauseId).count (some t.2.id) ≤ fuel ∧
          ∀ c ∈ ds'.map DStep.clauseId, c ∈ ds.map DStep.clauseId ∨ ∃ e ∈ B, c = some e.id := by
        intro ds' hd'
        obtain ⟨h1, news, rfl, h2⟩ := replaceSummarizing_witness hS hR hw hk0 hs hsrc hp hfire hok.len hch
          (fun e he => hBU e (hok.mem e he)) (by rw [htgt]; exact hpath.chained) hd'
        refine ⟨h1, ?_, ?_⟩
        · have h3 := count_splice (news := news) hs (some t.2.id)
          have h4 : (news.map DStep.clauseId).count (some t.2.id) = 0 := by
            rw [List.count_eq_zero, h2]
            intro hm
            obtain ⟨e, he, hee⟩ := List.mem_map.1 hm
            exact htB e (hok.mem e he) (Option.some.inj hee)
          rw [h4, hkp, List.count_singleton_self] at h3
          omega
        · intro c hcm
          obtain ⟨d, hd, rfl⟩ := List.mem_map.1 hcm
          unfold spliceSteps at hd
          rcases List.mem_append.1 hd with hd | hd
          · exact .inl (List.mem_map_of_mem (List.mem_of_mem_take hd))
          rcases List.mem_append.1 hd with hd | hd
          · right
            have : d.clauseId ∈ news.map DStep.clauseId := List.mem_map_of_mem hd
            rw [h2] at this
            obtain ⟨e, he, hee⟩ := List.mem_map.1 this
            exact ⟨e, hok.mem e he, hee.symm⟩
          · left
            obtain ⟨d', hd', rfl⟩ := List.mem_map.1 hd
            exact List.mem_map.2 ⟨d', List.mem_of_mem_drop hd', rfl⟩
      have hnf : replaceSummarizingStep S R ds k t.1 t.2 ≠ .outOfFuel := by
        unfold replaceSummarizingStep
        intro h
        split at h <;> try cases h
        split at h <;> try cases h
        split at h <;> try cases h
        split at h <;> try cases h
        simp only at h
        split at h <;> cases h
      simp only
      split
      · rename_i ds1 hd1
        obtain ⟨h1, h2, h3⟩ := hsound ds1 hd1
        obtain ⟨i1, i2, i3⟩ := ih ds1 h1 h2
        refine ⟨i1, fun ds' hd' => ?_, i3⟩
        obtain ⟨j1, j2, j3⟩ := i2 ds' hd'
        refine ⟨j1, j2, fun c hc => ?_⟩
        rcases j3 c hc with h | h
        · exact h3 c h
        · exact .inr h
      · rename_i hnd
        refine ⟨hnf, fun ds' hd' => absurd hd' (hnd ds'), fun hSC => ?_⟩
        exact replaceSummarizing_total hS hSC hR hs hsrc hp hfire hne hch fun f g hfg =>
          ((hok.fires f g).1 hfg).feasible hR hch

/-- A summary edge that the derivation does not use. -/
theorem replaceAll_unused {fuel : Nat} {ds : List (DStep T)} (h : some t.2.id ∉ ds.map DStep.clauseId) :
    replaceAllSummaries S R t fuel ds = .done ds := by
  have hnone : ds.findIdx? (fun d => d.clauseId == some t.2.id) = none := by
    rw [List.findIdx?_eq_none_iff]
    intro d hd
    simp only [beq_eq_false_iff_ne]
    intro h'
    exact h (List.mem_map.2 ⟨d, hd, h'⟩)
  unfold replaceAllSummaries
  rw [hnone]

/-- All summaries are replaced, where every edge that is not in `B` is the summary edge of a good summary. -/
theorem chainUns_spec (hS : S.Sound) (hR : R.WF) (hB : ∀ e ∈ B, e.LabelOk R) (hU : U.IdsNodup) (hBU : ∀ e ∈ B, e ∈ U) :
    ∀ (ss : List (Summary T)) (ds : List (DStep T)), (∀ t ∈ ss, ∀ e ∈ B, e.id ≠ t.2.id) →
      (∀ t ∈ ss, ∀ e ∈ U, e.id = t.2.id → e = t.2 ∧ SumOk R B t) →
      (∀ c ∈ ds.map DStep.clauseId, c = none ∨ (∃ e ∈ B, c = some e.id) ∨ ∃ t ∈ ss, c = some t.2.id) →
      UnsafeWitness R U ds →
      chainUns S R ss ds ≠ .outOfFuel ∧
      (∀ ds', chainUns S R ss ds = .done ds' → UnsafeWitness R B ds') ∧
      (S.Complete → ∃ ds', chainUns S R ss ds = .done ds') := by
  intro ss
  induction ss with
  | nil =>
    intro ds h1 h2 h3 hw
    refine ⟨by simp [chainUns], ?_, fun _ => ⟨ds, rfl⟩⟩
    intro ds' h
    simp only [chainUns, Outcome.done.injEq] at h
    subst h
    refine ⟨hw.first, hw.last, fun i d hi hd => ?_⟩
    obtain ⟨hp, e, he, hec, hf⟩ := hw.steps i d hi hd
    refine ⟨hp, e, ?_, hec, hf⟩
    rcases h3 d.clauseId (List.mem_map_of_mem (List.mem_of_getElem? hd)) with h | ⟨e', he', h⟩ | ⟨t, ht, _⟩
    · rw [h] at hec; cases hec
    · rw [ids_inj hU he (hBU e' he') (by rw [h] at hec; exact (Option.some.inj hec).symm)]
      exact he'
    · simp at ht
  | cons t ss ih =>
    intro ds h1 h2 h3 hw
    have h1' : ∀ t ∈ ss, ∀ e ∈ B, e.id ≠ t.2.id := fun t ht => h1 t (List.mem_cons_of_mem _ ht)
    have h2' : ∀ t ∈ ss, ∀ e ∈ U, e.id = t.2.id → e = t.2 ∧ SumOk R B t := fun t ht => h2 t (List.mem_cons_of_mem _ ht)
    have hrest : ∀ c, (c = none ∨ (∃ e ∈ B, c = some e.id) ∨ ∃ t' ∈ t :: ss, c = some t'.2.id) → c ≠ some t.2.id →
        c = none ∨ (∃ e ∈ B, c = some e.id) ∨ ∃ t' ∈ ss, c = some t'.2.id := by
      rintro c (h | h | ⟨t', ht', h⟩) hne
      · exact .inl h
      · exact .inr (.inl h)
      · rcases List.mem_cons.1 ht' with rfl | ht'
        · exact absurd h hne
        · exact .inr (.inr ⟨t', ht', h⟩)
    unfold chainUns
    by_cases hu : some t.2.id ∈ ds.map DStep.clauseId
    · obtain ⟨d, hd, hdc⟩ := List.mem_map.1 hu
      obtain ⟨i, hi, hie⟩ := List.getElem_of_mem hd
      have hie' : ds[i]? = some d := by rw [List.getElem?_eq_getElem hi, hie]
      have hi0 : 0 < i := by
        rcases Nat.eq_zero_or_pos i with h | h
        · subst h
          obtain ⟨d0, hd0, _, hcl⟩ := hw.first
          rw [List.head?_eq_getElem?, hie'] at hd0
          cases hd0
          rw [hdc] at hcl; cases hcl
        · exact h
      obtain ⟨_, e, he, hec, _⟩ := hw.steps i d hi0 hie'
      obtain ⟨rfl, hok⟩ := h2 t (by simp) e he (by rw [hdc] at hec; exact (Option.some.inj hec).symm)
      have hcount : (ds.map DStep.clauseId).count (some t.2.id) ≤ ds.length := by
        have := List.count_le_length (a := some t.2.id) (l := ds.map DStep.clauseId)
        simpa using this
      obtain ⟨a1, a2, a3⟩ := replaceAll_spec (B := B) (U := U) hS hR hok hB hU hBU he (h1 t (by simp)) ds.length ds hw hcount
      split
      · rename_i ds1 hd1
        obtain ⟨b1, b2, b3⟩ := a2 ds1 hd1
        refine ih ds1 h1' h2' ?_ b1
        intro c hc
        have hcne : c ≠ some t.2.id := fun h => b2 (h ▸ hc)
        rcases b3 c hc with h | h
        · exact hrest c (h3 c h) hcne
        · exact .inr (.inl h)
      · rename_i hnd
        refine ⟨a1, fun ds' hd' => absurd hd' (hnd ds'), a3⟩
    · rw [replaceAll_unused hu]
      exact ih ds h1' h2' (fun c hc => hrest c (h3 c hc) fun h => hu (h ▸ hc)) hw

end

end

end Golem
