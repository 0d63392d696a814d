import Verif.Lemmas.Derivations
import Verif.Props.NodeElim

/-! C12: expanding the steps of a derivation that use contracted edges. -/

namespace Golem
variable {T : Theory}

/-- C12, chains: let `rep` be an edge that leads from `u` to the end of a chain of at least two edges. If a derivation (over
edges `U` that include the chain) uses `rep` in step `k`, then replacing this step, when it succeeds, gives a derivation over
`U` again, in which step `k` has become one step for each edge of the chain, and all other steps use the same edges as
before. -/
theorem C12_replaceSummarizingStep {S : Smt T} (hS : S.Sound) {R : PRepr} (hR : R.WF) {U : Graph T} {ds : List (DStep T)}
    (hw : UnsafeWitness R U ds) {k : Nat} (h0 : 0 < k) {step : DStep T} (hs : ds[k]? = some step) {rep : Edge T} {u : Pred}
    (hu : rep.src = [u]) (hp : ∀ j ∈ step.premises, j < k) (hf : rep.Fires R (premFacts ds step.premises) step.fact)
    {chain : List (Edge T)} (hlen : 2 ≤ chain.length) (hok : ChainOk R chain) (hU : ∀ e ∈ chain, e ∈ U)
    (hc : Chained u (normalChain R chain) rep.tgt) {ds' : List (DStep T)}
    (h : replaceSummarizingStep S R ds k chain rep = .done ds') :
    UnsafeWitness R U ds' ∧ ds'.map DStep.clauseId =
      (ds.map DStep.clauseId).take k ++ (chain.map fun e => some e.id) ++ (ds.map DStep.clauseId).drop (k + 1) := by
  obtain ⟨h1, news, rfl, h2⟩ := replaceSummarizing_witness hS hR hw h0 hs hu hp hf hlen hok hU hc h
  refine ⟨h1, ?_⟩
  unfold spliceSteps
  simp only [List.map_append, List.map_take, h2, List.map_map, List.map_drop, List.append_assoc]
  rfl

/-- C12, chains, no failure: with a deciding backend, the step is replaced whenever `rep` derives only what the chain
derives. -/
theorem C12_replaceSummarizingStep_total {S : Smt T} (hS : S.Sound) (hSC : S.Complete) {R : PRepr} (hR : R.WF)
    {ds : List (DStep T)} {k : Nat} {step : DStep T} (hs : ds[k]? = some step) {rep : Edge T} {u : Pred}
    (hu : rep.src = [u]) (hp : ∀ j ∈ step.premises, j < k) (hf : rep.Fires R (premFacts ds step.premises) step.fact)
    {chain : List (Edge T)} (hne : chain ≠ []) (hok : ChainOk R chain)
    (hsum : ∀ f g, rep.Fires R [f] g → LFeasible R (normalChain R chain) f g) :
    ∃ ds', replaceSummarizingStep S R ds k chain rep = .done ds' :=
  replaceSummarizing_total hS hSC hR hs hu hp hf hne hok hsum

/-- C12, hyperedges: let `rep` be the composition of `inc` and the hyperedge `out` (C10). If a derivation uses `rep` in step
`k`, then replacing this step, when it succeeds, gives a derivation again, in which step `k` has become a step with `inc` and
a step with `out`. -/
theorem C12_expandStepWithHyperEdge {S : Smt T} (hS : S.Sound) {R : PRepr} (hR : R.WF) {U : Graph T} {ds : List (DStep T)}
    (hw : UnsafeWitness R U ds) {k : Nat} (h0 : 0 < k) {step : DStep T} (hs : ds[k]? = some step) {rep inc out : Edge T}
    {u : Pred} (hm : MergeOk R u inc out) (hM : Merged R u rep inc out) (hl : 1 < out.src.length)
    (hp : ∀ j ∈ step.premises, j < k) (hf : rep.Fires R (premFacts ds step.premises) step.fact)
    (hi : inc ∈ U) (ho : out ∈ U) {ds' : List (DStep T)} (h : expandStepWithHyperEdge S R ds k rep inc out = .done ds') :
    UnsafeWitness R U ds' ∧ ds'.map DStep.clauseId =
      (ds.map DStep.clauseId).take k ++ [some inc.id, some out.id] ++ (ds.map DStep.clauseId).drop (k + 1) := by
  obtain ⟨h1, news, rfl, h2⟩ := expand_witness hS hR hw h0 hs hm hM hl hp hf hi ho h
  refine ⟨h1, ?_⟩
  unfold spliceSteps
  simp only [List.map_append, List.map_take, h2, List.map_map, List.map_drop, List.append_assoc]
  rfl

/-- C12, hyperedges, no failure. -/
theorem C12_expandStepWithHyperEdge_total {S : Smt T} (hS : S.Sound) (hSC : S.Complete) {R : PRepr} (hR : R.WF) {U : Graph T}
    {ds : List (DStep T)} (hw : UnsafeWitness R U ds) {k : Nat} (h0 : 0 < k) {step : DStep T} (hs : ds[k]? = some step)
    {rep inc out : Edge T} {u : Pred} (hm : MergeOk R u inc out) (hM : Merged R u rep inc out) (ht : out.tgt ≠ inc.tgt)
    (hl : 1 < out.src.length) (hp : ∀ j ∈ step.premises, j < k)
    (hf : rep.Fires R (premFacts ds step.premises) step.fact) :
    ∃ ds', expandStepWithHyperEdge S R ds k rep inc out = .done ds' :=
  expand_total hS hSC hR hw h0 hs hm hM ht hl hp hf

/-! ### All steps -/

/-- All replacements made by a run of contractions. -/
def allReplacing (rs : List (Pred × Contraction T)) : List (Edge T × Edge T × Edge T) := rs.flatMap fun r => r.2.replacing

/-- The edges a derivation may use while it is being expanded. -/
def elimUniverse (st : GS T) (rs : List (Pred × Contraction T)) : Graph T := st.edges ++ (allReplacing rs).map Prod.fst

/-- A replacement whose edges are all known. -/
structure ReplOk (R : PRepr) (U : Graph T) (t : Edge T × Edge T × Edge T) : Prop where
  merge : ∃ u, MergeOk R u t.2.1 t.2.2 ∧ Merged R u t.1 t.2.1 t.2.2
  tgt : t.2.2.tgt ≠ t.2.1.tgt
  li : t.2.1.LabelOk R
  lo : t.2.2.LabelOk R
  mi : t.2.1 ∈ U
  mo : t.2.2 ∈ U
  idi : t.2.1.id < t.1.id
  ido : t.2.2.id < t.1.id

theorem ReplOk.mono {R : PRepr} {U U' : Graph T} {t : Edge T × Edge T × Edge T} (h : ReplOk R U t) (hm : ∀ e ∈ U, e ∈ U') :
    ReplOk R U' t := ⟨h.merge, h.tgt, h.li, h.lo, hm _ h.mi, hm _ h.mo, h.idi, h.ido⟩

structure UniverseOk (R : PRepr) (st : GS T) (rs : List (Pred × Contraction T)) (st' : GS T) : Prop where
  ids : (elimUniverse st rs).IdsNodup
  sub : ∀ e ∈ st'.edges, e ∈ elimUniverse st rs
  repl : ∀ t ∈ allReplacing rs, ReplOk R (elimUniverse st rs) t
  ge : ∀ t ∈ allReplacing rs, st.freeId ≤ t.1.id
  lt : ∀ e ∈ st.edges, e.id < st.freeId

theorem ElimSteps.universe {R : PRepr} (hR : R.WF) {st st' : GS T} {rs : List (Pred × Contraction T)}
    (h : ElimSteps R st rs st') : UniverseOk R st rs st' := by
  induction h with
  | @nil st h =>
    refine ⟨?_, ?_, by simp [allReplacing], by simp [allReplacing], h.idlt⟩
    · simpa [elimUniverse, allReplacing] using h.ids
    · intro e he; simpa [elimUniverse, allReplacing] using he
  | @cons st st1 st' v c rs hst hok hv hC hid hmono hne h ih =>
    have hall : allReplacing ((v, c) :: rs) = c.replacing ++ allReplacing rs := by simp [allReplacing]
    have hsub : ∀ e ∈ elimUniverse st1 rs, e ∈ elimUniverse st ((v, c) :: rs) := by
      intro e he
      unfold elimUniverse at he ⊢
      rw [hC.edges] at he
      rw [hall, List.map_append]
      simp only [List.mem_append] at he ⊢
      rcases he with (he | he) | he
      · exact .inl (mem_deleteNode'.1 he).1
      · exact .inr (.inl he)
      · exact .inr (.inr he)
    refine ⟨?_, fun e he => hsub e (ih.sub e he), ?_, ?_, hst.idlt⟩
    · have hi := ih.ids
      unfold Graph.IdsNodup elimUniverse at hi ⊢
      rw [hC.edges] at hi
      rw [hall]
      simp only [List.map_append, List.append_assoc] at hi ⊢
      have hrest := (List.nodup_append.1 hi).2.1
      rw [List.nodup_append]
      refine ⟨hst.ids, hrest, ?_⟩
      intro a ha b hb
      obtain ⟨e, he, rfl⟩ := List.mem_map.1 ha
      have h1 := hst.idlt e he
      rcases List.mem_append.1 hb with hb | hb
      · obtain ⟨e', he', rfl⟩ := List.mem_map.1 hb
        obtain ⟨t, ht, rfl⟩ := List.mem_map.1 he'
        have := (hid t ht).1
        omega
      · obtain ⟨e', he', rfl⟩ := List.mem_map.1 hb
        obtain ⟨t, ht, rfl⟩ := List.mem_map.1 he'
        have := ih.ge t ht
        omega
    · intro t ht
      rw [hall, List.mem_append] at ht
      rcases ht with ht | ht
      · obtain ⟨u, hu, htv, hm⟩ := hC.merged t ht
        have h1 := (hid t ht).1
        have hin : ∀ e ∈ st.edges, e ∈ elimUniverse st ((v, c) :: rs) := fun e he => List.mem_append_left _ he
        refine ⟨⟨u, hu.mergeOk hR hst, hm⟩, hu.tgt, hst.labelOk hu.mi, hst.labelOk hu.mo, hin _ hu.mi, hin _ hu.mo, ?_, ?_⟩
        · have := hst.idlt _ hu.mi; omega
        · have := hst.idlt _ hu.mo; omega
      · exact (ih.repl t ht).mono hsub
    · intro t ht
      rw [hall, List.mem_append] at ht
      rcases ht with ht | ht
      · exact (hid t ht).1
      · have := ih.ge t ht; omega

theorem findReplaced_some {find : Nat → Option (Edge T × Edge T × Edge T)} {ds : List (DStep T)} {i k : Nat}
    {t : Edge T × Edge T × Edge T} (h : findReplaced find ds i = some (k, t)) :
    ∃ j d, k = i + j ∧ ds[j]? = some d ∧ d.clauseId.bind find = some t := by
  induction ds generalizing i with
  | nil => simp [findReplaced] at h
  | cons d ds ih =>
    unfold findReplaced at h
    split at h
    · rename_i t' ht
      cases h
      exact ⟨0, d, rfl, rfl, ht⟩
    · obtain ⟨j, d', h1, h2, h3⟩ := ih h
      exact ⟨j + 1, d', by omega, by simpa using h2, h3⟩

theorem findReplaced_none {find : Nat → Option (Edge T × Edge T × Edge T)} {ds : List (DStep T)} {i : Nat}
    (h : findReplaced find ds i = none) : ∀ d ∈ ds, d.clauseId.bind find = none := by
  induction ds generalizing i with
  | nil => simp
  | cons d ds ih =>
    unfold findReplaced at h
    split at h
    · cases h
    · rename_i h1
      intro d' hd'
      rcases List.mem_cons.1 hd' with rfl | hd'
      · exact h1
      · exact ih h d' hd'

theorem weight_append (a b : List (DStep T)) : derivationWeight (a ++ b) = derivationWeight a + derivationWeight b := by
  unfold derivationWeight; simp

theorem weight_clauses {a b : List (DStep T)} (h : a.map DStep.clauseId = b.map DStep.clauseId) :
    derivationWeight a = derivationWeight b := by
  unfold derivationWeight
  have : ∀ l : List (DStep T), (l.map fun d => 3 ^ d.clauseId.getD 0) = (l.map DStep.clauseId).map fun c => 3 ^ c.getD 0 := by
    intro l; rw [List.map_map]; rfl
  rw [this, this, h]

theorem weight_splice {ds news : List (DStep T)} {k : Nat} {step : DStep T} (hs : ds[k]? = some step) {n a b : Nat}
    (hn : step.clauseId = some n) (hab : news.map DStep.clauseId = [some a, some b]) (ha : a < n) (hb : b < n) :
    derivationWeight (spliceSteps ds k news) < derivationWeight ds := by
  have hk := List.getElem?_lt hs
  have hd : ds = ds.take k ++ (step :: ds.drop (k + 1)) := by
    have h1 : ds[k] = step := by rw [List.getElem?_eq_getElem hk] at hs; exact Option.some.inj hs
    rw [← h1, ← List.drop_eq_getElem_cons hk, List.take_append_drop]
  have h1 : derivationWeight ds = derivationWeight (ds.take k) + (3 ^ n + derivationWeight (ds.drop (k + 1))) := by
    conv => lhs; rw [hd]
    rw [weight_append]
    simp [derivationWeight, hn]
  have h2 : derivationWeight (spliceSteps ds k news) =
      derivationWeight (ds.take k) + (derivationWeight news + derivationWeight (ds.drop (k + 1))) := by
    unfold spliceSteps
    rw [weight_append, weight_append]
    congr 2
    exact weight_clauses (by rw [List.map_map]; rfl)
  have h3 : derivationWeight news = 3 ^ a + 3 ^ b := by
    have : (news.map fun d => 3 ^ d.clauseId.getD 0) = (news.map DStep.clauseId).map fun c => 3 ^ c.getD 0 := by
      rw [List.map_map]; rfl
    unfold derivationWeight
    rw [this, hab]
    simp
  have h4 : ∀ m, m < n → 3 * 3 ^ m ≤ 3 ^ n := by
    intro m hm
    rw [← Nat.pow_succ']
    exact Nat.pow_le_pow_right (by omega) hm
  have := h4 a ha
  have := h4 b hb
  have : 0 < 3 ^ a := Nat.pow_pos (by omega)
  have : 0 < 3 ^ b := Nat.pow_pos (by omega)
  omega

section Loop
variable {R : PRepr} {st st' : GS T} {rs : List (Pred × Contraction T)} {S : Smt T} {ds : List (DStep T)}

/-- The two edges of a contraction as a chain. -/
theorem repl_chain (hR : R.WF) {U : Graph T} {t : Edge T × Edge T × Edge T} (ht : ReplOk R U t)
    (h1 : t.2.2.src.length = 1) :
    ∃ u, t.1.src = [u] ∧ ChainOk R [t.2.1, t.2.2] ∧ Chained u (normalChain R [t.2.1, t.2.2]) t.1.tgt ∧
      ∀ f g, t.1.Fires R [f] g → LFeasible R (normalChain R [t.2.1, t.2.2]) f g := by
  obtain ⟨u, hm, hM⟩ := ht.merge
  have hos : t.2.2.src = [t.2.1.tgt] := count_one_single h1 hm.once
  have hok : ChainOk R [t.2.1, t.2.2] := by
    intro e he
    simp only [List.mem_cons, List.not_mem_nil, or_false] at he
    rcases he with rfl | rfl
    · exact ⟨⟨_, hm.isrc⟩, ht.li⟩
    · exact ⟨⟨_, hos⟩, ht.lo⟩
  refine ⟨u, by rw [hM.src, hos, mergeSources_single], hok, ?_, ?_⟩
  · unfold normalChain
    simp only [List.map_cons, List.map_nil]
    refine chained_cons.2 ⟨?_, chained_cons.2 ⟨?_, chained_nil.2 ?_⟩⟩
    · rw [hm.isrc]; rfl
    · rw [hos]; rfl
    · exact hM.tgt.symm
  · intro f g hf
    obtain ⟨fu, fv, bo, hi, ho, huniq, hbody⟩ := (hM.comp _ _).1 hf
    obtain ⟨fo, rfl, hfo⟩ := fires_one ho hos
    have hov := huniq fo (by simp) hfo
    subst hov
    have hfu : f = fu := by
      obtain ⟨fu', h2, hfu1⟩ := fires_one hi hm.isrc
      cases h2
      unfold mergeBody at hbody
      simp only [List.map_cons, List.map_nil, hfo, if_true] at hbody
      split at hbody
      · rename_i hut
        rw [List.filter_cons_of_neg (by rw [hfu1, hut]; simp)] at hbody
        simp at hbody
        rw [hbody]
        exact (fires_tru hR hi (by simp) (hfu1.trans hut)).symm
      · simpa using hbody
    subst hfu
    exact .cons ((normal_fires hR ⟨_, hm.isrc⟩ ht.li _ _).2 hi) (.cons ((normal_fires hR ⟨_, hos⟩ ht.lo _ _).2 ho) (.nil _))

theorem elimUnsLoop_spec (hS : S.Sound) (hR : R.WF) (hU : UniverseOk R st rs st') :
    ∀ (fuel : Nat) (ds : List (DStep T)), UnsafeWitness R (elimUniverse st rs) ds → derivationWeight ds ≤ fuel →
      elimUnsLoop S R rs fuel ds ≠ .outOfFuel ∧
      (∀ ds', elimUnsLoop S R rs fuel ds = .done ds' →
        UnsafeWitness R (elimUniverse st rs) ds' ∧ findReplaced (findContraction rs) ds' 0 = none) ∧
      (S.Complete → ∃ ds', elimUnsLoop S R rs fuel ds = .done ds') := by
  intro fuel
  induction fuel with
  | zero =>
    intro ds hw hwt
    have hnil : ds = [] := by
      cases ds with
      | nil => rfl
      | cons d ds =>
        have : 0 < 3 ^ d.clauseId.getD 0 := Nat.pow_pos (by omega)
        simp [derivationWeight] at hwt
    obtain ⟨d, hd, _⟩ := hw.first
    rw [hnil] at hd
    simp at hd
  | succ fuel ih =>
    intro ds hw hwt
    unfold elimUnsLoop
    split
    · rename_i hnone
      exact ⟨by simp, fun ds' h => by cases h; exact ⟨hw, hnone⟩, fun _ => ⟨_, rfl⟩⟩
    · rename_i k t hsome
      obtain ⟨j, d, hkj, hd, hbind⟩ := findReplaced_some hsome
      have hkj : k = j := by omega
      subst hkj
      obtain ⟨id, hid, hfind⟩ := Option.bind_eq_some_iff.1 hbind
      have hmem : t ∈ allReplacing rs := List.mem_of_find?_eq_some hfind
      have htid : t.1.id = id := by simpa using List.find?_some hfind
      have hk0 : 0 < k := by
        rcases Nat.eq_zero_or_pos k with h | h
        · subst h
          obtain ⟨d0, hd0, _, hc⟩ := hw.first
          rw [List.head?_eq_getElem?, hd] at hd0
          cases hd0
          rw [hid] at hc; cases hc
        · exact h
      obtain ⟨hp, e, he, hec, hfire⟩ := hw.steps k d hk0 hd
      have het : e = t.1 := by
        refine unique_of_count (g := Edge.id) (b := id) ?_ he (List.mem_append_right _ (List.mem_map_of_mem hmem)) ?_ htid
        · have := hU.ids
          unfold Graph.IdsNodup at this
          exact List.nodup_iff_count.1 this id
        · rw [hid] at hec; exact (Option.some.inj hec).symm
      subst het
      have ht := hU.repl t hmem
      have key : (∀ ds', expandOne S R ds k t = .done ds' → UnsafeWitness R (elimUniverse st rs) ds' ∧
          derivationWeight ds' < derivationWeight ds) ∧ expandOne S R ds k t ≠ .outOfFuel ∧
          (S.Complete → ∃ ds', expandOne S R ds k t = .done ds') := by
        have hidw : d.clauseId = some t.1.id := by rw [hid, htid]
        obtain ⟨u, hm, hM⟩ := ht.merge
        unfold expandOne
        by_cases h1 : t.2.2.src.length = 1
        · rw [if_pos h1]
          obtain ⟨u', hu', hok, hc, hsum⟩ := repl_chain hR ht h1
          refine ⟨fun ds' h => ?_, ?_, fun hSC => replaceSummarizing_total hS hSC hR hd hu' hp hfire (by simp) hok hsum⟩
          · obtain ⟨h2, news, rfl, h3⟩ := replaceSummarizing_witness hS hR hw hk0 hd hu' hp hfire (by simp) hok (by
              intro e he
              simp only [List.mem_cons, List.not_mem_nil, or_false] at he
              rcases he with rfl | rfl
              · exact ht.mi
              · exact ht.mo) hc h
            exact ⟨h2, weight_splice hd hidw h3 ht.idi ht.ido⟩
          · unfold replaceSummarizingStep
            intro h
            split at h <;> try cases h
            split at h <;> try cases h
            split at h <;> try cases h
            split at h <;> try cases h
            simp only at h
            split at h <;> cases h
        · rw [if_neg h1]
          have hpos : 0 < t.2.2.src.length :=
            List.length_pos_iff.2 fun h => by have := hm.once; rw [h] at this; simp at this
          refine ⟨fun ds' h => ?_, ?_, fun hSC => expand_total hS hSC hR hw hk0 hd hm hM ht.tgt (by omega) hp hfire⟩
          · obtain ⟨h2, news, rfl, h3⟩ := expand_witness hS hR hw hk0 hd hm hM (by omega) hp hfire ht.mi ht.mo h
            exact ⟨h2, weight_splice hd hidw h3 ht.idi ht.ido⟩
          · unfold expandStepWithHyperEdge
            intro h
            split at h <;> try cases h
            split at h <;> try cases h
            simp only at h
            split at h <;> try cases h
            split at h <;> cases h
      obtain ⟨k1, k2, k3⟩ := key
      simp only
      split
      · rename_i ds1 h1
        obtain ⟨h2, h3⟩ := k1 ds1 h1
        exact ih ds1 h2 (by omega)
      · rename_i hnd
        refine ⟨k2, fun ds' h => absurd h (hnd ds'), fun hSC => ?_⟩
        obtain ⟨ds1, h1⟩ := k3 hSC
        exact absurd h1 (hnd ds1)

/-- A derivation over the universe without replaced edges is a derivation over the input. -/
theorem original_of_none (hU : UniverseOk R st rs st') (hw : UnsafeWitness R (elimUniverse st rs) ds)
    (hn : findReplaced (findContraction rs) ds 0 = none) : UnsafeWitness R st.edges ds := by
  refine ⟨hw.first, hw.last, fun i d hi hd => ?_⟩
  obtain ⟨hp, e, he, hid, hf⟩ := hw.steps i d hi hd
  refine ⟨hp, e, ?_, hid, hf⟩
  rcases List.mem_append.1 he with he | he
  · exact he
  · exfalso
    obtain ⟨t, ht, rfl⟩ := List.mem_map.1 he
    have := findReplaced_none hn d (List.mem_of_getElem? hd)
    rw [hid] at this
    have h2 := List.find?_eq_none.1 (show (allReplacing rs).find? _ = none from this) t ht
    simp at h2

end Loop

/-- C12: the translation of an UNSAFE witness of the reduced graph through node elimination, when it yields something, yields
an UNSAFE witness of the input graph. -/
theorem C12_node_elimination_unsafe {S : Smt T} (hS : S.Sound) {R : PRepr} (hR : R.WF) (hF : R.FreshNames) {E : Elim T}
    (hE : E.Exact) {pred : Graph T → Pred → Bool} (hp : IsElimGuard pred) {st st' : GS T} (hst : st.Ok R)
    {rs : List (Pred × Contraction T)} (h : nodeEliminator R E pred st = .done (st', rs)) {ds ds' : List (DStep T)}
    (hw : UnsafeWitness R st'.edges ds) (hr : elimUns S R rs ds = .done ds') : UnsafeWitness R st.edges ds' := by
  have hU := (nodeEliminator_steps hR hF hE hp hst h).1.universe hR
  obtain ⟨h1, h2⟩ := (elimUnsLoop_spec hS hR hU _ ds (hw.mono hU.sub) (Nat.le_refl _)).2.1 ds' hr
  exact original_of_none hU h1 h2

/-- C12: the loop ends (its bound in the model is never reached). -/
theorem C12_terminates {S : Smt T} (hS : S.Sound) {R : PRepr} (hR : R.WF) (hF : R.FreshNames) {E : Elim T}
    (hE : E.Exact) {pred : Graph T → Pred → Bool} (hp : IsElimGuard pred) {st st' : GS T} (hst : st.Ok R)
    {rs : List (Pred × Contraction T)} (h : nodeEliminator R E pred st = .done (st', rs)) {ds : List (DStep T)}
    (hw : UnsafeWitness R st'.edges ds) : elimUns S R rs ds ≠ .outOfFuel := by
  have hU := (nodeEliminator_steps hR hF hE hp hst h).1.universe hR
  exact (elimUnsLoop_spec hS hR hU _ ds (hw.mono hU.sub) (Nat.le_refl _)).1

/-- C12, no failure: with a deciding backend every UNSAFE witness is translated. -/
theorem C12_node_elimination_total {S : Smt T} (hS : S.Sound) (hSC : S.Complete) {R : PRepr} (hR : R.WF) (hF : R.FreshNames)
    {E : Elim T} (hE : E.Exact) {pred : Graph T → Pred → Bool} (hp : IsElimGuard pred) {st st' : GS T} (hst : st.Ok R)
    {rs : List (Pred × Contraction T)} (h : nodeEliminator R E pred st = .done (st', rs)) {ds : List (DStep T)}
    (hw : UnsafeWitness R st'.edges ds) : ∃ ds', elimUns S R rs ds = .done ds' ∧ UnsafeWitness R st.edges ds' := by
  have hU := (nodeEliminator_steps hR hF hE hp hst h).1.universe hR
  obtain ⟨ds', hd⟩ := (elimUnsLoop_spec hS hR hU _ ds (hw.mono hU.sub) (Nat.le_refl _)).2.2 hSC
  exact ⟨ds', hd, C12_node_elimination_unsafe hS hR hF hE hp hst h hw hd⟩

/-! ### The hypotheses are met by a concrete case -/

namespace DerivEx
open ValidatorEx (P R R_wf a)
open NodeElimEx (s t k keepE keepE_exact fresh)

/-- true → p0(x'): x' ∧ k;  true → p2(x'): x';  p2(x) → p2(x'): x ↔ x';  p0(x), p2(y) → p1(z'): z' ↔ x ∧ y;
p1(x) → false: x. -/
def G : Graph P :=
  [⟨[.tru], .p 0, .and (t 0) k, 0⟩, ⟨[.tru], .p 2, t 2, 1⟩, ⟨[.p 2], .p 2, .iff (s 2) (t 2), 2⟩,
   ⟨[.p 0, .p 2], .p 1, .iff (t 1) (.and (s 0) (s 2)), 3⟩, ⟨[.p 1], .fls, s 1, 4⟩]

def st : GS P := ⟨G, 5, 1, 0⟩

theorem st_ok : st.Ok R := by
  have hv : ∀ e ∈ G, ∀ x ∈ e.fla.vars, x ∈ R.own e.src e.tgt ∨ (e.id = 0 ∧ x = .ver (.gaux 0) 0) := by decide +kernel
  have hn : ∀ x, G.Aux R x → ∀ e ∈ G, x ∈ e.fla.vars → e.id = 0 := by
    intro x hx e he hxe
    rcases hv e he x hxe with h | h
    · exact absurd hx (own_not_aux R_wf (fun _ hs => vertex_src he hs) h)
    · exact h.1
  have hid : Graph.IdsNodup G := by unfold Graph.IdsNodup; decide +kernel
  refine ⟨hid, by decide +kernel, by decide +kernel, by decide +kernel, fun e he x hx => (hv e he x hx).imp_right ?_,
    fun e he e' he' hne x hx ha hx' => ?_, fun e he i hx => ?_, fun e he i hx => ?_⟩
  · rintro ⟨_, rfl⟩
    exact .inl ⟨_, rfl, (fresh 0).1⟩
  · have h1 := hn x ha e he hx
    have h2 := hn x ha e' he' hx'
    have : ∀ e ∈ G, ∀ e' ∈ G, e.id = 0 → e'.id = 0 → e = e' := by decide +kernel
    exact hne (this e he e' he' h1 h2)
  · rcases hv e he _ hx with h | ⟨_, h⟩
    · exact absurd h own_not_ver
    · cases h; decide
  · rcases hv e he _ hx with h | ⟨_, h⟩
    · exact absurd h own_not_ver
    · cases h

/-- A derivation over the reduced graph: `p2` from `true`, `p2` again, then `false` by an edge that replaces three. -/
def ds : List (DStep P) :=
  [⟨[], trueFact, none⟩, ⟨[0], (.p 2, [true]), some 1⟩, ⟨[1], (.p 2, [true]), some 2⟩, ⟨[2], falseFact, some 6⟩]

/-- `p0` and `p1` are eliminated, both the case of a chain and that of a hyperedge occur, and the expanded derivation uses
all edges of the input. -/
theorem example_C12 : propSmt.Sound ∧ propSmt.Complete ∧ R.WF ∧ R.FreshNames ∧ keepE.Exact ∧ st.Ok R ∧
    (∃ st' rs, nodeEliminator R keepE simpleElimPredicate st = .done (st', rs) ∧ rs.map Prod.fst = [.p 0, .p 1] ∧
      validate propSmt R st'.edges ⟨.unsafeAns, .invalidity ds⟩ = .validated ∧
      ∃ ds', elimUns propSmt R rs ds = .done ds' ∧
        ds'.map DStep.clauseId = [none, some 1, some 2, some 0, some 3, some 4] ∧
        ds'.map DStep.premises = [[], [0], [1], [0], [3, 2], [4]] ∧
        validate propSmt R G ⟨.unsafeAns, .invalidity ds'⟩ = .validated) := by
  refine ⟨propSmt_sound, propSmt_complete, R_wf, fresh, keepE_exact, st_ok, ?_⟩
  obtain ⟨st', rs, h, _⟩ := C10_node_elimination R_wf fresh keepE_exact (.inl rfl) st_ok
  refine ⟨st', rs, h, ?_⟩
  have h1 : (match nodeEliminator R keepE simpleElimPredicate st with
    | .done (st', rs) => decide (rs.map Prod.fst = [.p 0, .p 1]) &&
        decide (validate propSmt R st'.edges ⟨.unsafeAns, .invalidity ds⟩ = .validated) &&
        (match elimUns propSmt R rs ds with
          | .done ds' => decide (ds'.map DStep.clauseId = [none, some 1, some 2, some 0, some 3, some 4]) &&
              decide (ds'.map DStep.premises = [[], [0], [1], [0], [3, 2], [4]]) &&
              decide (validate propSmt R G ⟨.unsafeAns, .invalidity ds'⟩ = .validated)
          | _ => false)
    | _ => false) = true := by decide +kernel
  rw [h] at h1
  simp only [Bool.and_eq_true, decide_eq_true_eq] at h1
  refine ⟨h1.1.1, h1.1.2, ?_⟩
  have h2 := h1.2
  split at h2
  · rename_i ds' hd
    simp only [Bool.and_eq_true, decide_eq_true_eq] at h2
    exact ⟨ds', hd, h2.1.1, h2.1.2, h2.2⟩
  · simp at h2

end DerivEx

end Golem
