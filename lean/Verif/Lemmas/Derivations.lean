import Verif.Lemmas.NodeElimSafe
import Verif.Model.Transformers.Derivations
import Verif.Props.ErrorPath
import Verif.Props.TrivialQE
import Verif.Props.ValidatorComplete

/-! Replacing steps of derivations. -/

namespace Golem
variable {T : Theory}

/-- The fact derived by a step. -/
def factAt (ds : List (DStep T)) (j : Nat) : Option (Fact T) := (ds[j]?).map DStep.fact

theorem premFacts_factAt (ds : List (DStep T)) (js : List Nat) : premFacts ds js = js.filterMap (factAt ds) := rfl

theorem premFacts_one {ds : List (DStep T)} {j : Nat} {f : Fact T} (h : factAt ds j = some f) : premFacts ds [j] = [f] := by
  rw [premFacts_factAt]; simp [h]

/-- The new index of an old step. -/
def newIndex (k diff j : Nat) : Nat := if k ≤ j then j + diff else j

section Splice
variable {ds news : List (DStep T)} {k : Nat} {step : DStep T}

theorem splice_before {i : Nat} (hk : k < ds.length) (hi : i < k) : (spliceSteps ds k news)[i]? = ds[i]? := by
  unfold spliceSteps
  rw [List.getElem?_append_left (by rw [List.length_take]; omega), List.getElem?_take, if_pos hi]

theorem splice_new {i : Nat} (hk : k < ds.length) (hi : i < news.length) : (spliceSteps ds k news)[k + i]? = news[i]? := by
  unfold spliceSteps
  have hl : (ds.take k).length = k := by rw [List.length_take]; omega
  rw [List.getElem?_append_right (by omega), hl, Nat.add_sub_cancel_left, List.getElem?_append_left hi]

theorem splice_after {i : Nat} (hk : k < ds.length) (hne : news ≠ []) (hi : k < i) :
    (spliceSteps ds k news)[i + (news.length - 1)]? = (ds[i]?).map (shiftStep k (news.length - 1)) := by
  have hpos : 0 < news.length := List.length_pos_iff.2 hne
  unfold spliceSteps
  have hl : (ds.take k).length = k := by rw [List.length_take]; omega
  rw [List.getElem?_append_right (by omega), hl, List.getElem?_append_right (by omega), List.getElem?_map, List.getElem?_drop]
  congr 2
  omega

theorem splice_length (hk : k < ds.length) (hne : news ≠ []) :
    (spliceSteps ds k news).length = ds.length + (news.length - 1) := by
  have hpos : 0 < news.length := List.length_pos_iff.2 hne
  unfold spliceSteps
  simp only [List.length_append, List.length_take, List.length_map, List.length_drop]
  omega

theorem splice_fact (hs : ds[k]? = some step) (hne : news ≠ []) (hlast : ∀ d, news.getLast? = some d → d.fact = step.fact)
    (j : Nat) : factAt (spliceSteps ds k news) (newIndex k (news.length - 1) j) = factAt ds j := by
  have hk := List.getElem?_lt hs
  have hpos : 0 < news.length := List.length_pos_iff.2 hne
  unfold newIndex factAt
  split
  · rename_i h
    by_cases hjk : j = k
    · subst hjk
      rw [splice_new hk (by omega), hs, ← List.getLast?_eq_getElem?]
      obtain ⟨d, hd⟩ : ∃ d, news.getLast? = some d := ⟨news.getLast hne, List.getLast?_eq_some_getLast hne⟩
      rw [hd]
      simp [hlast d hd]
    · rw [splice_after hk hne (by omega), Option.map_map]
      rfl
  · rw [splice_before hk (by omega)]

theorem splice_premFacts (hs : ds[k]? = some step) (hne : news ≠ [])
    (hlast : ∀ d, news.getLast? = some d → d.fact = step.fact) (js : List Nat) :
    premFacts (spliceSteps ds k news) (js.map (newIndex k (news.length - 1))) = premFacts ds js := by
  rw [premFacts_factAt, premFacts_factAt, List.filterMap_map]
  congr 1
  funext j
  exact splice_fact hs hne hlast j

/-- Replacing a step by justified steps, the last of which derives the same fact, gives a derivation again. -/
theorem splice_witness {R : PRepr} {U : Graph T} (hw : UnsafeWitness R U ds) (h0 : 0 < k) (hs : ds[k]? = some step)
    (hne : news ≠ []) (hlast : ∀ d, news.getLast? = some d → d.fact = step.fact)
    (hnews : ∀ (i : Nat) (d : DStep T), news[i]? = some d → StepOK R U (spliceSteps ds k news) (k + i) d) :
    UnsafeWitness R U (spliceSteps ds k news) := by
  have hk := List.getElem?_lt hs
  have hpos : 0 < news.length := List.length_pos_iff.2 hne
  have hlen := splice_length hk hne
  refine ⟨?_, ?_, ?_⟩
  · obtain ⟨d, hd, h1⟩ := hw.first
    refine ⟨d, ?_, h1⟩
    rw [List.head?_eq_getElem?] at hd ⊢
    rw [splice_before hk h0, hd]
  · obtain ⟨d, hd, h1⟩ := hw.last
    rw [List.getLast?_eq_getElem?] at hd
    have hf := splice_fact hs hne hlast (ds.length - 1)
    have hi : newIndex k (news.length - 1) (ds.length - 1) = (spliceSteps ds k news).length - 1 := by
      unfold newIndex
      rw [if_pos (by omega), hlen]; omega
    rw [hi] at hf
    unfold factAt at hf
    rw [hd] at hf
    simp only [Option.map_some, Option.map_eq_some_iff] at hf
    obtain ⟨d', hd', hf⟩ := hf
    exact ⟨d', by rw [List.getLast?_eq_getElem?]; exact hd', hf.trans h1⟩
  · intro i d hi hd
    by_cases h1 : i < k
    · rw [splice_before hk h1] at hd
      obtain ⟨hp, e, he, hid, hf⟩ := hw.steps i d hi hd
      refine ⟨hp, e, he, hid, ?_⟩
      rw [← splice_premFacts hs hne hlast] at hf
      rwa [show d.premises.map (newIndex k (news.length - 1)) = d.premises from ?_] at hf
      conv => rhs; rw [← List.map_id d.premises]
      apply List.map_congr_left
      intro j hj
      have := hp j hj
      unfold newIndex
      rw [if_neg (by omega)]; rfl
    · by_cases h2 : i < k + news.length
      · obtain ⟨j, rfl⟩ : ∃ j, i = k + j := ⟨i - k, by omega⟩
        rw [splice_new hk (by omega)] at hd
        exact hnews j d hd
      · obtain ⟨j, rfl⟩ : ∃ j, i = j + (news.length - 1) := ⟨i - (news.length - 1), by omega⟩
        rw [splice_after hk hne (by omega)] at hd
        obtain ⟨d0, hd0, rfl⟩ := Option.map_eq_some_iff.1 hd
        obtain ⟨hp, e, he, hid, hf⟩ := hw.steps j d0 (by omega) hd0
        refine ⟨?_, e, he, hid, ?_⟩
        · intro x hx
          obtain ⟨y, hy, rfl⟩ := List.mem_map.1 hx
          have := hp y hy
          split <;> omega
        · show e.Fires R (premFacts _ (d0.premises.map (newIndex k (news.length - 1)))) d0.fact
          rw [splice_premFacts hs hne hlast]
          exact hf

end Splice

/-! ### Chains -/

/-- Each edge of the chain is a normal edge with a proper label. -/
def ChainOk (R : PRepr) (chain : List (Edge T)) : Prop := ∀ e ∈ chain, (∃ s, e.src = [s]) ∧ e.LabelOk R

theorem normal_fires {R : PRepr} (hR : R.WF) {e : Edge T} (hs : ∃ s, e.src = [s]) (hl : e.LabelOk R) (f g : Fact T) :
    (toNormalEdge R (e.src.headD .tru) e).Fires R f g ↔ e.Fires R [f] g := by
  obtain ⟨s, hs⟩ := hs
  rw [hs]
  exact C44_toNormalEdge hR hs hl f g

theorem endSubst_spec {R : PRepr} (hR : R.WF) {rep : Edge T} {n : Nat} (hn : 0 < n) {prem step : DStep T} {m : SubstMap T}
    (hp : prem.fact.2.length = (R.args (rep.src.headD .tru)).length) (hs : step.fact.2.length = (R.args rep.tgt).length)
    (h : endSubst R rep n prem step = some m) (ρ : Valuation T) :
    (R.stateVars (rep.src.headD .tru)).map (fun x => (m.fn x).eval ρ) = prem.fact.2 ∧
    ((R.stateVars rep.tgt).map (shift n)).map (fun x => (m.fn x).eval ρ) = step.fact.2 ∧
    ∀ a (k : Int), k ≠ 0 → k ≠ n → (m.fn (.ver a k)).eval ρ = ρ (.ver a k) := by
  unfold endSubst at h
  simp only [Option.bind_eq_some_iff, Option.map_eq_some_iff] at h
  obtain ⟨m1, h1, m2, h2, rfl⟩ := h
  have l1 : ((R.stateVars rep.tgt).map (shift n)).length = step.fact.2.length := by simp [PRepr.stateVars, hs]
  have l2 : (R.stateVars (rep.src.headD .tru)).length = prem.fact.2.length := by simp [PRepr.stateVars, hp]
  obtain ⟨k1, z1⟩ := mapFromPredicate_spec h1 l1
  obtain ⟨k2, z2⟩ := mapFromPredicate_spec h2 l2
  have m1' : ∀ x ∈ m1.map Prod.fst, ∃ a, x = .ver a n := by
    intro x hx
    rw [k1] at hx
    obtain ⟨y, hy, rfl⟩ := List.mem_map.1 hx
    obtain ⟨a, _, rfl⟩ := List.mem_map.1 hy
    exact ⟨a, by simp [shift]⟩
  have m2' : ∀ x ∈ m2.map Prod.fst, ∃ a, x = .ver a 0 := by
    intro x hx
    rw [k2] at hx
    obtain ⟨a, _, rfl⟩ := List.mem_map.1 hx
    exact ⟨a, rfl⟩
  have nd1 : (m1.map Prod.fst).Nodup := by
    rw [k1]
    simp only [PRepr.stateVars, List.map_map]
    exact nodup_map_of_inj (fun a b e => by simpa [shift] using e) (hR.nodup _)
  have nd2 : (m2.map Prod.fst).Nodup := by
    rw [k2]
    exact nodup_map_of_inj (fun a b e => by simpa using e) (hR.nodup _)
  have hnd : ((m1 ++ m2).map Prod.fst).Nodup := by
    rw [List.map_append, List.nodup_append]
    refine ⟨nd1, nd2, ?_⟩
    rintro x hx y hy rfl
    obtain ⟨a, rfl⟩ := m1' x hx
    obtain ⟨b, e⟩ := m2' _ hy
    rw [Var.ver.injEq] at e
    omega
  have hM : ∀ p ∈ m1 ++ m2, SubstMap.fn (m1 ++ m2) p.1 = p.2 := fun p hp => SubstMap.fn_of_mem hnd hp
  refine ⟨?_, ?_, ?_⟩
  · exact map_eval_of_zip l2 fun q hq => hM q (by rw [List.mem_append]; right; rw [z2]; exact hq)
  · exact map_eval_of_zip l1 fun q hq => hM q (by rw [List.mem_append]; left; rw [z1]; exact hq)
  · intro a k h0 hn'
    rw [SubstMap.fn_notin]
    · rfl
    · intro hm
      rw [List.map_append, List.mem_append] at hm
      rcases hm with hm | hm
      · obtain ⟨b, e⟩ := m1' _ hm
        rw [Var.ver.injEq] at e; exact hn' e.2
      · obtain ⟨b, e⟩ := m2' _ hm
        rw [Var.ver.injEq] at e; exact h0 e.2


theorem chained_src {u v : Pred} {es : List (LEdge T)} (h : Chained u es v) {e : LEdge T} (he : es[0]? = some e) : e.src = u := by
  cases es with
  | nil => simp at he
  | cons e' es => simp at he; subst he; exact (chained_cons.1 h).1.symm

theorem chained_tgt {u v : Pred} {es : List (LEdge T)} (h : Chained u es v) {e : LEdge T} (he : es.getLast? = some e) :
    e.tgt = v := by
  induction h with
  | nil => simp at he
  | @cons e0 es v h ih =>
    cases es with
    | nil => simp at he; subst he; exact chained_nil.1 h
    | cons e2 es => rw [List.getLast?_cons_cons] at he; exact ih he

theorem chained_next {u v : Pred} {es : List (LEdge T)} (h : Chained u es v) {i : Nat} {e e' : LEdge T}
    (he : es[i]? = some e) (he' : es[i + 1]? = some e') : e'.src = e.tgt := by
  have hne : es ≠ [] := by rintro rfl; simp at he
  have h1 := (chained_vertices h hne i e he).2
  have h2 := (chained_vertices h hne (i + 1) e' he').1
  rw [h1] at h2
  exact (Option.some.inj h2).symm

theorem premises_one {R : PRepr} {ds : List (DStep T)} {k : Nat} {step : DStep T} (hk : k ≤ ds.length)
    (hp : ∀ j ∈ step.premises, j < k) {e : Edge T} {u : Pred} (hu : e.src = [u])
    (hf : e.Fires R (premFacts ds step.premises) step.fact) :
    ∃ j prem, step.premises = [j] ∧ j < k ∧ ds[j]? = some prem ∧ e.Fires R [prem.fact] step.fact ∧ prem.fact.1 = u := by
  have hl := premFacts_length (ds := ds) (js := step.premises) fun j hj => Nat.lt_of_lt_of_le (hp j hj) hk
  have h1 := congrArg List.length hf.src
  rw [List.length_map, hl, hu] at h1
  obtain ⟨j, hj⟩ := List.length_eq_one_iff.1 h1
  have hjk := hp j (by rw [hj]; simp)
  have hpj : ds[j]? = some ds[j] := List.getElem?_eq_getElem (by omega)
  have hpf : premFacts ds step.premises = [ds[j].fact] := by
    rw [hj]; exact premFacts_one (by simp [factAt, hpj])
  rw [hpf] at hf
  refine ⟨j, ds[j], hj, hjk, hpj, hf, ?_⟩
  have := hf.src
  rw [hu] at this
  simpa using this

/-- What the loops over the chain build. -/
theorem chainSteps_get {R : PRepr} {ρ : Valuation T} {es : List (LEdge T)} {k j i : Nat} {e e' : LEdge T}
    (he : es[i]? = some e) (he' : es[i + 1]? = some e') :
    (chainSteps R ρ es k j)[i]? = some ⟨[if i = 0 then j else k + i - 1], pathFact R ρ e'.src (i + 1), some e.id⟩ := by
  unfold chainSteps
  have : (es.zip es.tail)[i]? = some (e, e') := by
    rw [List.getElem?_zip_eq_some]
    exact ⟨he, by rw [List.getElem?_tail]; exact he'⟩
  rw [List.getElem?_map, List.getElem?_zipIdx, this]
  simp

theorem chainSteps_length {R : PRepr} {ρ : Valuation T} {es : List (LEdge T)} {k j : Nat} :
    (chainSteps R ρ es k j).length = es.length - 1 := by
  unfold chainSteps
  simp only [List.length_map, List.length_zipIdx, List.length_zip, List.length_tail]
  omega

theorem normalChain_get {R : PRepr} {chain : List (Edge T)} {i : Nat} {e : LEdge T} (h : (normalChain R chain)[i]? = some e) :
    ∃ e', chain[i]? = some e' ∧ e = toNormalEdge R (e'.src.headD .tru) e' := by
  unfold normalChain at h
  rw [List.getElem?_map, Option.map_eq_some_iff] at h
  obtain ⟨e', h1, h2⟩ := h
  exact ⟨e', h1, h2.symm⟩

/-- The steps made from a model of the (instantiated) path constraint are correct. -/
theorem replaceSummarizing_witness {S : Smt T} (hS : S.Sound) {R : PRepr} (hR : R.WF) {U : Graph T} {ds : List (DStep T)}
    (hw : UnsafeWitness R U ds) {k : Nat} (h0 : 0 < k) {step : DStep T} (hs : ds[k]? = some step) {rep : Edge T} {u : Pred}
    (hu : rep.src = [u]) (hp : ∀ j ∈ step.premises, j < k) (hf : rep.Fires R (premFacts ds step.premises) step.fact)
    {chain : List (Edge T)} (hlen : 2 ≤ chain.length) (hok : ChainOk R chain) (hU : ∀ e ∈ chain, e ∈ U)
    (hc : Chained u (normalChain R chain) rep.tgt) {ds' : List (DStep T)}
    (h : replaceSummarizingStep S R ds k chain rep = .done ds') :
    UnsafeWitness R U ds' ∧ ∃ news, ds' = spliceSteps ds k news ∧
      news.map DStep.clauseId = chain.map fun e => some e.id := by
  have hk := List.getElem?_lt hs
  obtain ⟨j, prem, hj, hjk, hpj, hfire, hpu⟩ := premises_one (Nat.le_of_lt hk) hp hu hf
  unfold replaceSummarizingStep at h
  simp only [hs, hj, List.head?_cons, hpj] at h
  split at h
  · cases h
  rename_i m hm
  split at h
  swap
  · cases h
  rename_i hsat
  generalize hq : varSubstitute (Fla.conj (pathQuery (normalChain R chain))) m = q at h hsat
  generalize hρ : S.model [q] = ρ at h
  have hmod : q.holds ρ := by rw [← hρ]; exact hS.sat _ hsat q (by simp)
  rw [← hq, varSubstitute_holds, Fla.holds_conj] at hmod
  have hlenP : prem.fact.2.length = (R.args (rep.src.headD .tru)).length := by
    obtain ⟨ρ0, _, h1, _⟩ := hfire
    have := srcFacts_len (R := R) (ρ := ρ0) (e := rep) (f := prem.fact) (by rw [← h1]; simp)
    rw [this, hu, hpu]; rfl
  have hlenS : step.fact.2.length = (R.args rep.tgt).length := by
    obtain ⟨ρ0, _, _, h2⟩ := hfire
    rw [h2]; exact tgtFact_len
  obtain ⟨e1, e2, e3⟩ := endSubst_spec hR (by omega) hlenP hlenS hm ρ
  generalize hρ' : (fun x => (m.fn x).eval ρ : Valuation T) = ρ' at hmod
  have hρx : ∀ x, (m.fn x).eval ρ = ρ' x := fun x => by rw [← hρ']
  simp only [hρx] at e1 e2 e3
  generalize hes : normalChain R chain = es at h hmod hc
  have hesl : es.length = chain.length := by rw [← hes]; simp [normalChain]
  have hpath := pathQuery_hold.1 (show AllHold ρ' (pathQuery es) from hmod)
  have hstart : prem.fact = pathFact R ρ' u 0 := by
    unfold pathFact
    rw [← hpu]
    refine Prod.ext rfl ?_
    rw [← e1, hu, hpu]
    simp only [List.headD_cons, PRepr.stateVars, List.map_map]
    apply List.map_congr_left
    intro a _
    simp [shift]
  have hend : step.fact = pathFact R ρ' rep.tgt es.length := by
    unfold pathFact
    refine Prod.ext hfire.tgt ?_
    rw [← e2, hesl, List.map_map]
    rfl
  have hmid : ∀ v i, 0 < i → i < es.length → pathFact R ρ v i = pathFact R ρ' v i := by
    intro v i h1 h2
    unfold pathFact
    refine Prod.ext rfl ?_
    apply List.map_congr_left
    intro x hx
    obtain ⟨a, _, rfl⟩ := List.mem_map.1 hx
    simp only [shift, Int.zero_add]
    exact (e3 a i (by omega) (by omega)).symm
  generalize hnews : chainSteps R ρ es k j ++ [chainLast es (k + (chainSteps R ρ es k j).length) step] = news at h
  have hnl : news.length = es.length := by
    rw [← hnews, List.length_append, chainSteps_length]; simp; omega
  have hne : news ≠ [] := by rw [← hnews]; simp
  have hget : ∀ (i : Nat) (e : LEdge T), es[i]? = some e → news[i]? =
      some ⟨[if i = 0 then j else k + i - 1], pathFact R ρ' e.tgt (i + 1), some e.id⟩ := by
    intro i e he
    have hi := List.getElem?_lt he
    by_cases hl : i + 1 < es.length
    · have he' : es[i + 1]? = some es[i + 1] := List.getElem?_eq_getElem hl
      rw [← hnews, List.getElem?_append_left (by rw [chainSteps_length]; omega), chainSteps_get he he',
        chained_next hc he he', hmid _ _ (by omega) hl]
    · have hi' : i = es.length - 1 := by omega
      have hlast : es.getLast? = some e := by rw [List.getLast?_eq_getElem?, ← hi']; exact he
      rw [← hnews, List.getElem?_append_right (by rw [chainSteps_length]; omega), chainSteps_length, hi', Nat.sub_self]
      simp only [List.getElem?_cons_zero, chainLast, hj, List.set_cons_zero, hlast, Option.map_some, Option.some.injEq,
        DStep.mk.injEq, List.cons.injEq, and_true]
      refine ⟨by rw [if_neg (by omega)], ?_⟩
      rw [hend, chained_tgt hc hlast]
      congr 1
      omega
  simp only [Outcome.done.injEq] at h
  subst h
  have hlastf : ∀ d, news.getLast? = some d → d.fact = step.fact := by
    intro d hd
    rw [← hnews, List.getLast?_append] at hd
    simp [chainLast] at hd
    rw [← hd]
  refine ⟨splice_witness hw h0 hs hne hlastf ?_, news, rfl, ?_⟩
  · intro i d hd
    have hi := List.getElem?_lt hd
    rw [hnl] at hi
    have he : es[i]? = some es[i] := List.getElem?_eq_getElem hi
    rw [hget i _ he] at hd
    simp only [Option.some.injEq] at hd
    subst hd
    obtain ⟨e', he', hn⟩ := normalChain_get (by rw [hes]; exact he)
    have hmem := List.mem_of_getElem? he'
    obtain ⟨hsrc, hlab⟩ := hok e' hmem
    refine ⟨?_, e', hU e' hmem, by simp only; rw [hn]; rfl, ?_⟩
    · intro x hx
      simp only [List.mem_singleton] at hx
      rw [hx]
      split <;> omega
    · simp only
      rw [premFacts_one (f := pathFact R ρ' es[i].src i), ← normal_fires hR hsrc hlab, ← hn]
      · exact pathFact_step (hpath i _ he)
      · split
        · rename_i h1
          subst h1
          have h2 := splice_fact hs hne hlastf j
          unfold newIndex at h2
          rw [if_neg (by omega)] at h2
          rw [h2, chained_src hc he]
          simp [factAt, hpj, hstart]
        · rename_i h1
          obtain ⟨i, rfl⟩ : ∃ i', i = i' + 1 := ⟨i - 1, by omega⟩
          have he2 : es[i]? = some es[i] := List.getElem?_eq_getElem (by omega)
          unfold factAt
          rw [show k + (i + 1) - 1 = k + i by omega, splice_new hk (by omega), hget i _ he2]
          simp only [Option.map_some]
          rw [chained_next hc he2 he]
  · apply List.ext_getElem?
    intro i
    rw [List.getElem?_map, List.getElem?_map]
    by_cases hi : i < es.length
    · have he : es[i]? = some es[i] := List.getElem?_eq_getElem hi
      obtain ⟨e', he', hn⟩ := normalChain_get (by rw [hes]; exact he)
      rw [hget i _ he, he', hn]; rfl
    · rw [List.getElem?_eq_none (by omega), List.getElem?_eq_none (by omega)]; rfl


theorem normal_label {R : PRepr} (hR : R.WF) {chain : List (Edge T)} (hok : ChainOk R chain) :
    ∀ e ∈ normalChain R chain, e.LabelOk R := by
  intro e he
  obtain ⟨e', h1, rfl⟩ := List.mem_map.1 he
  obtain ⟨⟨s, hs⟩, hl⟩ := hok e' h1
  rw [hs]
  exact toNormalEdge_labelOk hR hs hl

theorem endSubst_isSome {R : PRepr} {rep : Edge T} {n : Nat} {prem step : DStep T}
    (hp : prem.fact.2.length = (R.args (rep.src.headD .tru)).length) (hs : step.fact.2.length = (R.args rep.tgt).length) :
    ∃ m, endSubst R rep n prem step = some m := by
  obtain ⟨m1, h1⟩ := mapFromPredicate_isSome (T := T) (xs := (R.stateVars rep.tgt).map (shift n)) (vs := step.fact.2)
    (by simp [PRepr.stateVars, hs])
  obtain ⟨m2, h2⟩ := mapFromPredicate_isSome (T := T) (xs := R.stateVars (rep.src.headD .tru)) (vs := prem.fact.2)
    (by simp [PRepr.stateVars, hp])
  exact ⟨m1 ++ m2, by simp only [endSubst, h1, h2, Option.bind_some, Option.map_some]⟩

/-- A substitution of constants that a valuation agrees with does not change the truth value. -/
theorem sat_of_zip {xs : List Var} {vs : List T.Val} {m : SubstMap T} {ρ : Valuation T} (h : mapFromPredicate xs vs = some m)
    (hv : xs.map ρ = vs) : ∀ p ∈ m, p.2.eval ρ = ρ p.1 := by
  have hl : xs.length = vs.length := by rw [← hv]; simp
  rw [(mapFromPredicate_spec h hl).2]
  subst hv
  clear h hl
  induction xs with
  | nil => simp
  | cons x xs ih =>
    intro p hp
    simp only [List.map_cons, List.zipWith_cons_cons, List.mem_cons] at hp
    rcases hp with rfl | hp
    · rfl
    · exact ih p hp

/-- With a deciding backend the chain of a feasible summary is always expanded. -/
theorem replaceSummarizing_total {S : Smt T} (hS : S.Sound) (hSC : S.Complete) {R : PRepr} (hR : R.WF) {ds : List (DStep T)}
    {k : Nat} {step : DStep T} (hs : ds[k]? = some step) {rep : Edge T} {u : Pred}
    (hu : rep.src = [u]) (hp : ∀ j ∈ step.premises, j < k) (hf : rep.Fires R (premFacts ds step.premises) step.fact)
    {chain : List (Edge T)} (hne : chain ≠ []) (hok : ChainOk R chain)
    (hsum : ∀ f g, rep.Fires R [f] g → LFeasible R (normalChain R chain) f g) :
    ∃ ds', replaceSummarizingStep S R ds k chain rep = .done ds' := by
  have hk := List.getElem?_lt hs
  obtain ⟨j, prem, hj, hjk, hpj, hfire, hpu⟩ := premises_one (Nat.le_of_lt hk) hp hu hf
  have hlenP : prem.fact.2.length = (R.args (rep.src.headD .tru)).length := by
    obtain ⟨ρ0, _, h1, _⟩ := hfire
    have := srcFacts_len (R := R) (ρ := ρ0) (e := rep) (f := prem.fact) (by rw [← h1]; simp)
    rw [this, hu, hpu]; rfl
  have hlenS : step.fact.2.length = (R.args rep.tgt).length := by
    obtain ⟨ρ0, _, _, h2⟩ := hfire
    rw [h2]; exact tgtFact_len
  obtain ⟨m, hm⟩ := endSubst_isSome (n := chain.length) hlenP hlenS
  obtain ⟨ρ, h1, h2, h3⟩ := feasible_model (normal_label hR hok) (by simpa [normalChain] using hne) (hsum _ _ hfire)
  have hsat : S.check [varSubstitute (Fla.conj (pathQuery (normalChain R chain))) m] = .sat := by
    refine (hSC _).resolve_right fun hun => hS.unsat _ hun ⟨ρ, ?_⟩
    intro f hf'
    simp only [List.mem_singleton] at hf'
    subst hf'
    rw [varSubstitute_holds, Fla.holds_conj]
    have hms : ∀ p ∈ m, p.2.eval ρ = ρ p.1 := by
      unfold endSubst at hm
      simp only [Option.bind_eq_some_iff, Option.map_eq_some_iff] at hm
      obtain ⟨m1, g1, m2, g2, rfl⟩ := hm
      intro p hp'
      rcases List.mem_append.1 hp' with hp' | hp'
      · refine sat_of_zip g1 ?_ p hp'
        rw [h3, hfire.tgt]
        simp [pathFact, normalChain]
      · refine sat_of_zip g2 ?_ p hp'
        rw [h2, hpu, hu]
        simp [pathFact, shift, PRepr.stateVars]
    have hfn : (fun x => (m.fn x).eval ρ : Valuation T) = ρ := by
      funext x
      by_cases hx : x ∈ m.map Prod.fst
      · exact hms _ (SubstMap.fn_in hx)
      · rw [SubstMap.fn_notin hx]; rfl
    rw [hfn]
    exact h1
  unfold replaceSummarizingStep
  simp only [hs, hj, List.head?_cons, hpj, hm, hsat, if_true]
  exact ⟨_, rfl⟩


/-! ### Hyperedges -/

theorem mapFromPredicate_keys {xs : List Var} {vs : List T.Val} {m : SubstMap T} (h : mapFromPredicate xs vs = some m) :
    m.map Prod.fst = xs := by
  induction xs generalizing vs m with
  | nil => simp [mapFromPredicate] at h; subst h; rfl
  | cons x xs ih =>
    cases vs with
    | nil => simp [mapFromPredicate] at h
    | cons v vs =>
      simp only [mapFromPredicate, Option.bind_eq_bind, Option.bind_eq_some_iff] at h
      obtain ⟨m', hm', h⟩ := h
      simp at h; subst h
      simp [ih hm']

theorem fillSources_keys {R : PRepr} {ds : List (DStep T)} {qs : List (Pred × Nat)} {js : List Nat} {m : SubstMap T}
    (h : fillSources R ds qs js = some m) : m.map Prod.fst = R.keys qs := by
  induction qs generalizing js m with
  | nil => simp [fillSources] at h; subst h; rfl
  | cons q qs ih =>
    cases js with
    | nil => simp [fillSources] at h
    | cons j js =>
      simp only [fillSources, Option.bind_eq_bind, Option.bind_eq_some_iff] at h
      obtain ⟨d, _, m1, h1, m2, h2, h⟩ := h
      simp at h; subst h
      simp [mapFromPredicate_keys h1, ih h2, PRepr.keys]

theorem premPreds {ds : List (DStep T)} {js : List Nat} (hj : ∀ j ∈ js, j < ds.length) :
    expandSubst.premFacts' ds js = some ((premFacts ds js).map Prod.fst) := by
  unfold expandSubst.premFacts'
  induction js with
  | nil => rfl
  | cons j js ih =>
    have hlt := hj j (by simp)
    rw [List.mapM_cons, ih fun k hk => hj k (by simp [hk])]
    simp [premFacts, List.getElem?_eq_getElem hlt]

/-- The substitution exists and gives the variables of the contracted edge their values. -/
theorem expandSubst_spec {R : PRepr} {ds : List (DStep T)} {rep : Edge T} {step : DStep T}
    (hp : ∀ j ∈ step.premises, j < ds.length) {ρ0 : Valuation T} (hb : premFacts ds step.premises = rep.srcFacts R ρ0)
    (hh : step.fact = rep.tgtFact R ρ0) :
    ∃ m, expandSubst R ds rep step = some m ∧ (∀ p ∈ m, p.2 = .const (ρ0 p.1)) ∧
      ∀ x ∈ R.own rep.src rep.tgt, ∃ p ∈ m, p.1 = x := by
  obtain ⟨m1, h1, h1'⟩ := mapFromPredicate_map (R.tgtVars rep.tgt) ρ0
  obtain ⟨m2, h2, h2'⟩ := fillSources_complete hp hb
  refine ⟨m1 ++ m2, ?_, ?_, ?_⟩
  · unfold expandSubst
    rw [premPreds hp, hb, srcFacts_fst, if_pos rfl, hh]
    unfold Edge.tgtFact
    simp only [h1, h2, Option.bind_some, Option.map_some]
  · intro p hp'
    rcases List.mem_append.1 hp' with h | h
    · exact h1' p h
    · exact h2' p h
  · intro x hx
    have : x ∈ (m1 ++ m2).map Prod.fst := by
      rw [List.map_append, mapFromPredicate_keys h1, fillSources_keys h2, List.mem_append]
      unfold PRepr.own at hx
      rw [List.mem_append] at hx
      exact hx.symm
    obtain ⟨p, h, e⟩ := List.mem_map.1 this
    exact ⟨p, h, e⟩

theorem own_merge_not_src {R : PRepr} (hR : R.WF) {u v : Pred} {srcs : List Pred} {t : Pred} (hu : u ≠ v) {x : Var}
    (hx : x ∈ R.own (mergeSources u v srcs) t) : x ∉ R.srcVars v 0 := by
  intro hv
  rcases mem_own.1 hx with ⟨q, hq, hx⟩ | hx
  · refine R.srcVars_disjoint hR (p := q.1) (i := q.2) ?_ hx hv
    intro e
    rw [Prod.mk.injEq] at e
    rcases mem_mergeSources_fst (mem_of_mem_instances hq) with h | h
    · exact hu (h.symm.trans e.1)
    · exact h.2 e.1
  · obtain ⟨_, _, rfl⟩ := R.mem_tgtVars.1 hx
    obtain ⟨_, _, e⟩ := R.mem_srcVars.1 hv; cases e

/-- A model of the unified constraint gives the two steps. -/
theorem expand_fires {R : PRepr} (hR : R.WF) {u : Pred} {inc out : Edge T} (h : MergeOk R u inc out) {ρ : Valuation T}
    (hq : (varSubstitute (.and inc.fla out.fla) (srcToTgt R inc.tgt)).holds ρ) :
    ∃ bo, inc.Fires R [(u, (R.srcVars u 0).map ρ)] (inc.tgt, (R.tgtVars inc.tgt).map ρ) ∧
      out.Fires R bo (out.tgt, (R.tgtVars out.tgt).map ρ) ∧
      (∀ f ∈ bo, f.1 = inc.tgt → f = (inc.tgt, (R.tgtVars inc.tgt).map ρ)) ∧
      ∀ f i, (⟨mergeSources u inc.tgt out.src, out.tgt, f, i⟩ : Edge T).srcFacts R ρ =
        mergeBody u inc.tgt (u, (R.srcVars u 0).map ρ) bo := by
  rw [varSubstitute_holds] at hq
  obtain ⟨hi, ho⟩ := hq
  have hskip : ∀ x, x ∉ R.srcVars inc.tgt 0 → seeTgt R inc.tgt ρ x = ρ x := fun x hx => seeTgt_skip hx ρ
  have hu : (R.srcVars u 0).map (seeTgt R inc.tgt ρ) = (R.srcVars u 0).map ρ := by
    apply List.map_congr_left
    intro x hx
    exact hskip x fun h' => R.srcVars_disjoint hR (by simp [h.ne]) hx h'
  have ht : ∀ p, (R.tgtVars p).map (seeTgt R inc.tgt ρ) = (R.tgtVars p).map ρ := by
    intro p
    apply List.map_congr_left
    intro x hx
    refine hskip x fun h' => ?_
    obtain ⟨_, _, rfl⟩ := R.mem_tgtVars.1 hx
    obtain ⟨_, _, e⟩ := R.mem_srcVars.1 h'; cases e
  have hv : (R.srcVars inc.tgt 0).map (seeTgt R inc.tgt ρ) = (R.tgtVars inc.tgt).map ρ := by
    simp only [PRepr.srcVars, PRepr.tgtVars, List.map_map]
    apply List.map_congr_left
    intro n hn
    exact seeTgt_src hR hn ρ
  have hcount : out.src.count inc.tgt ≤ 1 := Nat.le_of_eq h.once
  refine ⟨out.srcFacts R (seeTgt R inc.tgt ρ), ⟨seeTgt R inc.tgt ρ, hi, ?_, ?_⟩, ⟨seeTgt R inc.tgt ρ, ho, rfl, ?_⟩, ?_, ?_⟩
  · unfold Edge.srcFacts
    rw [h.isrc, instances_single]
    simp only [List.map_cons, List.map_nil]
    rw [← hu]
  · unfold Edge.tgtFact
    rw [ht]
  · unfold Edge.tgtFact
    rw [ht]
  · intro f hf hfv
    refine unique_of_count (g := Prod.fst) (b := inc.tgt) ?_ hf (List.mem_map.2 ⟨(inc.tgt, 0), instances_zero ?_, ?_⟩) hfv rfl
    · rw [srcFacts_fst]; exact hcount
    · exact List.count_pos_iff.1 (by rw [h.once]; omega)
    · simp only; rw [hv]
  · intro f i
    rw [← hu]
    have := mergeSources_facts (T := T) hR h.notin hcount out.tgt f i (seeTgt R inc.tgt ρ)
    refine Eq.trans ?_ this
    exact (own_facts fun x hx => hskip x (own_merge_not_src hR h.ne hx)).1.symm

theorem idxOf_of_count {l : List Pred} {v : Pred} (h : l.count v = 1) {i : Nat} (hi : l[i]? = some v) : i = l.idxOf v := by
  induction l generalizing i with
  | nil => simp at hi
  | cons a l ih =>
    rw [List.count_cons] at h
    by_cases ha : a = v
    · subst ha
      simp at h
      cases i with
      | zero => simp
      | succ i =>
        simp only [List.getElem?_cons_succ] at hi
        exact absurd (List.mem_of_getElem? hi) (List.count_eq_zero.1 h)
    · have ha' : (a == v) = false := by simpa using ha
      simp [ha'] at h
      cases i with
      | zero => simp at hi; exact absurd hi ha
      | succ i =>
        simp only [List.getElem?_cons_succ] at hi
        rw [List.idxOf_cons_ne _ ha, ← ih h hi]

theorem insertIdx_filter {bo : List (Fact T)} {v : Pred} {fv : Fact T} (h : (bo.map Prod.fst).count v = 1)
    (hv : ∀ f ∈ bo, f.1 = v → f = fv) :
    (bo.filter fun f => decide (f.1 ≠ v)).insertIdx ((bo.map Prod.fst).idxOf v) fv = bo := by
  induction bo with
  | nil => simp at h
  | cons b bo ih =>
    rw [List.map_cons, List.count_cons] at h
    by_cases hb : b.1 = v
    · have hb' : (b.1 == v) = true := by simpa using hb
      rw [hb'] at h
      have h0 : v ∉ bo.map Prod.fst := List.count_eq_zero.1 (by simpa using h)
      have hf : bo.filter (fun f => decide (f.1 ≠ v)) = bo := by
        rw [List.filter_eq_self]
        intro f hf
        simp only [decide_eq_true_eq]
        intro e
        exact h0 (e ▸ List.mem_map_of_mem hf)
      have := hv b (by simp) hb
      rw [List.filter_cons_of_neg (by simpa using hb), hf, List.map_cons, hb, List.idxOf_cons_self, List.insertIdx_zero, ← this]
    · have hb' : (b.1 == v) = false := by simpa using hb
      rw [hb'] at h
      rw [List.filter_cons_of_pos (by simpa using hb), List.map_cons, List.idxOf_cons_ne _ hb, List.insertIdx_succ_cons,
        ih (by simpa using h) fun f hf => hv f (by simp [hf])]

theorem mergeBody_entry {v : Pred} {fu : Fact T} {bo : List (Fact T)} (hfu : fu.1 = .tru) (ht : ∀ f ∈ bo, f.1 ≠ .tru)
    (hc : (bo.map Prod.fst).count v = 1) (hl : 1 < bo.length) :
    mergeBody .tru v fu bo = bo.filter fun f => decide (f.1 ≠ v) := by
  have key : (bo.map fun f => if f.1 = v then fu else f).filter (fun f => decide (f.1 ≠ .tru)) =
      bo.filter fun f => decide (f.1 ≠ v) := by
    clear hc hl
    induction bo with
    | nil => rfl
    | cons b bo ih =>
      have ih := ih fun f hf => ht f (by simp [hf])
      have hb := ht b (by simp)
      rw [List.map_cons]
      by_cases h : b.1 = v
      · rw [if_pos h, List.filter_cons_of_neg (by simpa using hfu), List.filter_cons_of_neg (by simpa using h), ih]
      · rw [if_neg h, List.filter_cons_of_pos (by simpa using hb), List.filter_cons_of_pos (by simpa using h), ih]
  unfold mergeBody
  simp only [if_true]
  rw [key, if_neg]
  intro he
  rw [List.isEmpty_iff, List.filter_eq_nil_iff] at he
  have : ∀ f ∈ bo, f.1 = v := fun f hf => by simpa using he f hf
  have hall : (bo.map Prod.fst).count v = bo.length := by
    rw [List.count_eq_length.2, List.length_map]
    intro p hp
    obtain ⟨f, hf, rfl⟩ := List.mem_map.1 hp
    exact (this f hf).symm
  omega

/-- The premises of the new steps derive the right facts. -/
theorem expandPremises_facts {R : PRepr} {u : Pred} {inc out : Edge T} (h : MergeOk R u inc out) (hl : 1 < out.src.length)
    {F F' : Nat → Fact T} {k : Nat} {js : List Nat} {fu fv : Fact T} {bo : List (Fact T)} (hj : ∀ j ∈ js, j < k)
    (hF : ∀ j, j < k → F' j = F j) (hk : F' k = fv) (h0 : F 0 = trueFact) (hfu : fu.1 = u) (hfut : u = .tru → fu = trueFact)
    (hbo : bo.map Prod.fst = out.src) (hv : ∀ f ∈ bo, f.1 = inc.tgt → f = fv) (hb : js.map F = mergeBody u inc.tgt fu bo)
    (hk0 : 0 < k) :
    ∃ j, expandPremise (decide (u = .tru)) js (out.src.idxOf inc.tgt) = some j ∧ j < k ∧ F' j = fu ∧
      (expandPremises (decide (u = .tru)) js (out.src.idxOf inc.tgt) k j).map F' = bo ∧
      ∀ i ∈ expandPremises (decide (u = .tru)) js (out.src.idxOf inc.tgt) k j, i < k + 1 := by
  have hlen : bo.length = out.src.length := by rw [← hbo, List.length_map]
  have hmap' : js.map F' = js.map F := List.map_congr_left fun j hj' => hF j (hj j hj')
  by_cases hu : u = .tru
  · subst hu
    refine ⟨0, by simp [expandPremise], hk0, by rw [hF 0 hk0, h0, hfut rfl], ?_, ?_⟩
    · unfold expandPremises
      simp only [decide_true, if_true]
      rw [List.map_insertIdx, hmap', hb, hk, mergeBody_entry hfu ?_ (by rw [hbo]; exact h.once) (by omega), ← hbo]
      · exact insertIdx_filter (by rw [hbo]; exact h.once) hv
      · intro f hf e
        exact h.tru hl (by rw [← hbo, ← e]; exact List.mem_map_of_mem hf)
    · intro i hi
      unfold expandPremises at hi
      simp only [decide_true, if_true] at hi
      rcases List.eq_or_mem_of_mem_insertIdx hi with rfl | hi
      · omega
      · have := hj i hi; omega
  · have hmb : mergeBody u inc.tgt fu bo = bo.map fun f => if f.1 = inc.tgt then fu else f := by
      unfold mergeBody; simp only [hu, if_false]
    rw [hmb] at hb
    have hjl : js.length = bo.length := by
      have := congrArg List.length hb
      simpa using this
    have hpos : out.src.idxOf inc.tgt < out.src.length :=
      List.idxOf_lt_length_of_mem (List.count_pos_iff.1 (by rw [h.once]; omega))
    have hbi : ∀ (i : Nat) (a : Nat) (b : Fact T), js[i]? = some a → bo[i]? = some b →
        F a = if b.1 = inc.tgt then fu else b := by
      intro i a b h1 h2
      have : (js.map F)[i]? = (bo.map fun f => if f.1 = inc.tgt then fu else f)[i]? := by rw [hb]
      rw [List.getElem?_map, List.getElem?_map, h1, h2] at this
      simpa using this
    have hfst : ∀ (i : Nat) (b : Fact T), bo[i]? = some b → out.src[i]? = some b.1 := by
      intro i b h1
      rw [← hbo, List.getElem?_map, h1]; rfl
    generalize hposd : out.src.idxOf inc.tgt = pos at hpos
    have hjp : js[pos]? = some js[pos] := List.getElem?_eq_getElem (by omega)
    have hbp : bo[pos]? = some bo[pos] := List.getElem?_eq_getElem (by omega)
    have hbpv : bo[pos].1 = inc.tgt := by
      have h1 := hfst pos _ hbp
      have h2 : out.src[out.src.idxOf inc.tgt]? = some inc.tgt :=
        List.getElem?_idxOf (List.count_pos_iff.1 (by rw [h.once]; omega))
      rw [hposd, h1] at h2
      exact Option.some.inj h2
    have hFj : F js[pos] = fu := by rw [hbi pos _ _ hjp hbp, if_pos hbpv]
    have hjk := hj js[pos] (List.getElem_mem _)
    refine ⟨js[pos], by simp [expandPremise, hu, hjp], hjk, by rw [hF _ hjk, hFj], ?_, ?_⟩
    · unfold expandPremises
      simp only [hu, decide_false, Bool.false_eq_true, if_false]
      apply List.ext_getElem?
      intro i
      by_cases hi : i < js.length
      · have ha : js[i]? = some js[i] := List.getElem?_eq_getElem hi
        have hb2 : bo[i]? = some bo[i] := List.getElem?_eq_getElem (by omega)
        rw [List.getElem?_map, List.getElem?_map, ha, hb2]
        simp only [Option.map_some, Option.some.injEq]
        have hval := hbi i _ _ ha hb2
        by_cases e : js[i] = js[pos]
        · rw [if_pos e, hk]
          rw [e, hFj] at hval
          split at hval
          · rename_i h1
            exact (hv _ (List.getElem_mem _) h1).symm
          · exfalso
            apply h.notin
            rw [← hfu, hval, ← hbo]
            exact List.mem_map_of_mem (List.getElem_mem _)
        · rw [if_neg e, hF _ (hj _ (List.getElem_mem _)), hval, if_neg]
          intro h1
          have := idxOf_of_count h.once (i := i) (by rw [hfst i _ hb2, h1])
          rw [hposd] at this
          subst this
          exact e rfl
      · rw [List.getElem?_eq_none (by simp; omega), List.getElem?_eq_none (by omega)]
    · intro i hi
      unfold expandPremises at hi
      simp only [hu, decide_false, Bool.false_eq_true, if_false] at hi
      obtain ⟨a, ha, rfl⟩ := List.mem_map.1 hi
      have := hj a ha
      split <;> omega

theorem premFacts_map {ds : List (DStep T)} {js : List Nat} (h : ∀ j ∈ js, j < ds.length) :
    premFacts ds js = js.map fun j => (factAt ds j).getD trueFact := by
  induction js with
  | nil => rfl
  | cons j js ih =>
    have hj := h j (by simp)
    rw [List.map_cons, ← ih fun i hi => h i (by simp [hi])]
    simp [premFacts, factAt, List.getElem?_eq_getElem hj]

theorem merged_eta {R : PRepr} {u : Pred} {rep inc out : Edge T} (h : Merged R u rep inc out) :
    rep = ⟨mergeSources u inc.tgt out.src, out.tgt, rep.fla, rep.id⟩ := by
  rw [← h.src, ← h.tgt]

/-- The two steps made from a model of the unified constraint are correct. -/
theorem expand_witness {S : Smt T} (hS : S.Sound) {R : PRepr} (hR : R.WF) {U : Graph T} {ds : List (DStep T)}
    (hw : UnsafeWitness R U ds) {k : Nat} (h0 : 0 < k) {step : DStep T} (hs : ds[k]? = some step) {rep inc out : Edge T}
    {u : Pred} (hm : MergeOk R u inc out) (hM : Merged R u rep inc out) (hl : 1 < out.src.length)
    (hp : ∀ j ∈ step.premises, j < k) (hf : rep.Fires R (premFacts ds step.premises) step.fact)
    (hi : inc ∈ U) (ho : out ∈ U) {ds' : List (DStep T)} (h : expandStepWithHyperEdge S R ds k rep inc out = .done ds') :
    UnsafeWitness R U ds' ∧ ∃ news, ds' = spliceSteps ds k news ∧
      news.map DStep.clauseId = [some inc.id, some out.id] := by
  have hk := List.getElem?_lt hs
  have hpl : ∀ j ∈ step.premises, j < ds.length := fun j hj => Nat.lt_trans (hp j hj) hk
  obtain ⟨ρ0, _, hb, hh⟩ := hf
  obtain ⟨m, hm1, hm2, hm3⟩ := expandSubst_spec hpl hb hh
  unfold expandStepWithHyperEdge at h
  simp only [hs, hm1] at h
  split at h
  swap
  · cases h
  rename_i hsat
  generalize hρ : S.model (expandQuery R inc out m) = ρ at h
  have hall : AllHold ρ (expandQuery R inc out m) := by rw [← hρ]; exact hS.sat _ hsat
  have hown : ∀ x ∈ R.own rep.src rep.tgt, ρ0 x = ρ x := by
    intro x hx
    obtain ⟨p, hp', rfl⟩ := hm3 x hx
    have := hall (.eq (.var p.1) p.2) (by unfold expandQuery; exact List.mem_cons_of_mem _ (List.mem_map.2 ⟨p, hp', rfl⟩))
    rw [hm2 p hp'] at this
    exact this.symm
  obtain ⟨bo, hfi, hfo, huniq, hsrc⟩ := expand_fires hR hm (ρ := ρ) (hall _ (by unfold expandQuery; simp))
  obtain ⟨e1, e2⟩ := own_facts (f := rep.fla) (i := rep.id) hown
  have hb' : premFacts ds step.premises = mergeBody u inc.tgt (u, (R.srcVars u 0).map ρ) bo := by
    rw [hb, ← hsrc rep.fla rep.id, ← merged_eta hM]; exact e1
  have hh' : step.fact = (out.tgt, (R.tgtVars out.tgt).map ρ) := by
    rw [hh, ← hM.tgt]; exact e2
  rw [premFacts_map hpl] at hb'
  have hhead : inc.src.headD .tru = u := by rw [hm.isrc]; rfl
  rw [hhead] at h
  obtain ⟨d0, hd0, hd0f, _⟩ := hw.first
  have hF0 : (factAt ds 0).getD trueFact = trueFact := by
    rw [List.head?_eq_getElem?] at hd0
    simp [factAt, hd0, hd0f]
  have hbofst : bo.map Prod.fst = out.src := hfo.src
  have hfut : u = .tru → ((u, (R.srcVars u 0).map ρ) : Fact T) = trueFact := by
    rintro rfl
    simp [PRepr.srcVars, hR.tru, trueFact]
  split at h
  · cases h
  rename_i j hj
  generalize hnews : expandSteps R ρ inc out step k (out.src.idxOf inc.tgt) j (decide (u = .tru)) = news at h
  cases h
  have hne : news ≠ [] := by rw [← hnews]; simp [expandSteps]
  have hlastf : ∀ d, news.getLast? = some d → d.fact = step.fact := by
    intro d hd
    rw [← hnews] at hd
    simp [expandSteps] at hd
    rw [← hd]
  have hn0 : news[0]? = some ⟨[j], (inc.tgt, (R.tgtVars inc.tgt).map ρ), some inc.id⟩ := by rw [← hnews]; rfl
  have hF : ∀ i, i < k → (factAt (spliceSteps ds k news) i).getD trueFact = (factAt ds i).getD trueFact := by
    intro i hik
    unfold factAt
    rw [splice_before hk hik]
  have hFk : (factAt (spliceSteps ds k news) k).getD trueFact = (inc.tgt, (R.tgtVars inc.tgt).map ρ) := by
    unfold factAt
    have := splice_new (news := news) (i := 0) hk (List.length_pos_iff.2 hne)
    rw [Nat.add_zero] at this
    rw [this, hn0]; rfl
  obtain ⟨j', hj', hj'k, hj'f, hbo, hlt⟩ := expandPremises_facts hm hl (F := fun i => (factAt ds i).getD trueFact)
    (F' := fun i => (factAt (spliceSteps ds k news) i).getD trueFact) hp hF hFk hF0 rfl hfut hbofst huniq hb' h0
  rw [hj] at hj'
  cases hj'
  have hnl : news.length = 2 := by rw [← hnews]; rfl
  have hlen := splice_length (news := news) hk hne
  refine ⟨splice_witness hw h0 hs hne hlastf ?_, news, rfl, by rw [← hnews]; rfl⟩
  intro i d hd
  have hi' := List.getElem?_lt hd
  rw [← hnews] at hd
  have hcase : i = 0 ∨ i = 1 := by omega
  rcases hcase with rfl | rfl
  · simp only [expandSteps, List.getElem?_cons_zero, Option.some.injEq] at hd
    subst hd
    refine ⟨by simpa using hj'k, inc, hi, rfl, ?_⟩
    simp only
    rw [premFacts_map (by simp; omega)]
    simp only [List.map_cons, List.map_nil]
    rw [hj'f]
    exact hfi
  · simp only [expandSteps, List.getElem?_cons_succ, List.getElem?_cons_zero, Option.some.injEq] at hd
    subst hd
    refine ⟨hlt, out, ho, rfl, ?_⟩
    simp only
    rw [premFacts_map (fun i hi => by have := hlt i hi; omega), hbo, hh']
    exact hfo

/-- With a deciding backend a contracted edge is always expanded. -/
theorem expand_total {S : Smt T} (hS : S.Sound) (hSC : S.Complete) {R : PRepr} (hR : R.WF) {U : Graph T} {ds : List (DStep T)}
    (hw : UnsafeWitness R U ds) {k : Nat} (h0 : 0 < k) {step : DStep T} (hs : ds[k]? = some step) {rep inc out : Edge T}
    {u : Pred} (hm : MergeOk R u inc out) (hM : Merged R u rep inc out) (ht : out.tgt ≠ inc.tgt) (hl : 1 < out.src.length)
    (hp : ∀ j ∈ step.premises, j < k) (hf : rep.Fires R (premFacts ds step.premises) step.fact) :
    ∃ ds', expandStepWithHyperEdge S R ds k rep inc out = .done ds' := by
  have hk := List.getElem?_lt hs
  have hpl : ∀ j ∈ step.premises, j < ds.length := fun j hj => Nat.lt_trans (hp j hj) hk
  obtain ⟨fu, fv, bo, hif, hof, huniq, hbody⟩ := (hM.comp _ _).1 hf
  obtain ⟨ρ1, hi1, hi2, hi3⟩ := hif
  obtain ⟨ρ2, ho1, ho2, ho3⟩ := hof
  have hmem : inc.tgt ∈ out.src := List.count_pos_iff.1 (by rw [hm.once]; omega)
  have hcount : out.src.count inc.tgt ≤ 1 := Nat.le_of_eq hm.once
  have hfv : ((inc.tgt, (R.srcVars inc.tgt 0).map ρ2) : Fact T) = fv :=
    huniq _ (by rw [ho2]; exact List.mem_map.2 ⟨(inc.tgt, 0), instances_zero hmem, rfl⟩) rfl
  have hv : ∀ n ∈ R.args inc.tgt, ρ1 (.tgt n) = ρ2 (.src n 0) := by
    intro n hn
    rw [hi3] at hfv
    unfold Edge.tgtFact at hfv
    have h2 := (Prod.mk.injEq _ _ _ _ ▸ hfv).2
    simp only [PRepr.srcVars, PRepr.tgtVars, List.map_map] at h2
    exact (List.map_inj_left.1 h2 n hn).symm
  obtain ⟨ρ, hj1, hj2, hj3⟩ := mergeConj_join hR hm hi1 ho1 hv
  have hfu : fu = (u, (R.srcVars u 0).map ρ) := by
    unfold Edge.srcFacts at hi2
    rw [hm.isrc, instances_single] at hi2
    simp only [List.map_cons, List.map_nil, List.cons.injEq, and_true] at hi2
    rw [hi2]
    simp only [Prod.mk.injEq, true_and]
    exact List.map_congr_left fun x hx => (hj2 x hx).symm
  obtain ⟨e1, e2⟩ := own_facts (f := out.fla) (i := out.id) hj3
  have hown : ∀ x ∈ R.own (mergeSources u inc.tgt out.src) out.tgt, copySrc R inc.tgt ρ x = ρ x := by
    intro x hx
    apply copySrc_skip
    intro hx'
    rcases mem_own.1 hx with ⟨q, hq, hx⟩ | hx
    · obtain ⟨_, _, rfl⟩ := R.mem_tgtVars.1 hx'
      obtain ⟨_, _, e⟩ := R.mem_srcVars.1 hx; cases e
    · obtain ⟨n, hn, rfl⟩ := R.mem_tgtVars.1 hx
      obtain ⟨n', hn', e⟩ := R.mem_tgtVars.1 hx'
      rw [Var.tgt.injEq] at e
      subst e
      exact hR.disjoint _ _ ht n hn hn'
  obtain ⟨g1, g2⟩ := own_facts (f := rep.fla) (i := rep.id) hown
  have hb : premFacts ds step.premises = rep.srcFacts R (copySrc R inc.tgt ρ) := by
    have h1 := mergeSources_facts (T := T) hR hm.notin hcount out.tgt rep.fla rep.id ρ
    rw [merged_eta hM, g1, h1, hbody, hfu, ho2]
    congr 1
    exact e1.symm
  have hh : step.fact = rep.tgtFact R (copySrc R inc.tgt ρ) := by
    rw [merged_eta hM, g2, ho3]
    exact e2.symm
  obtain ⟨m, hm1, hm2, hm3⟩ := expandSubst_spec hpl hb hh
  have hsee : ∀ x, seeTgt R inc.tgt (copySrc R inc.tgt ρ) x = ((tgtToSrc R inc.tgt).fn x).eval ρ := by
    intro x
    obtain ⟨t1, t2⟩ := tgtToSrc_eval (T := T) hR inc.tgt ρ
    by_cases hx : x ∈ R.tgtVars inc.tgt
    · obtain ⟨n, hn, rfl⟩ := R.mem_tgtVars.1 hx
      rw [t1 n hn, seeTgt_skip]
      · simp [copySrc, hn]
      · intro h'; obtain ⟨_, _, e⟩ := R.mem_srcVars.1 h'; cases e
    · rw [t2 x hx, see_copy hR hx]
  have hsat : S.check (expandQuery R inc out m) = .sat := by
    refine (hSC _).resolve_right fun hun => hS.unsat _ hun ⟨copySrc R inc.tgt ρ, ?_⟩
    intro f hf'
    unfold expandQuery at hf'
    rcases List.mem_cons.1 hf' with rfl | hf'
    · rw [varSubstitute_holds]
      obtain ⟨j1, j2⟩ := hj1
      rw [varSubstitute_holds] at j1
      refine ⟨?_, ?_⟩
      · refine (Fla.holds_congr fun x _ => ?_).1 j1
        exact (hsee x).symm
      · refine (Fla.holds_congr fun x hx => ?_).1 j2
        exact (see_copy hR (hm.out_t ht x hx)).symm
    · obtain ⟨p, hp', rfl⟩ := List.mem_map.1 hf'
      rw [hm2 p hp']; rfl
  unfold expandStepWithHyperEdge
  simp only [hs, hm1, hsat, if_true]
  have hhead : inc.src.headD .tru = u := by rw [hm.isrc]; rfl
  rw [hhead]
  obtain ⟨d0, hd0, hd0f, _⟩ := hw.first
  have hF0 : (factAt ds 0).getD trueFact = trueFact := by
    rw [List.head?_eq_getElem?] at hd0
    simp [factAt, hd0, hd0f]
  have hfut : u = .tru → fu = trueFact := by
    rintro rfl
    rw [hfu]
    simp [PRepr.srcVars, hR.tru, trueFact]
  rw [premFacts_map hpl] at hbody
  obtain ⟨j, hj, _⟩ := expandPremises_facts hm hl (F := fun i => (factAt ds i).getD trueFact)
    (F' := fun i => if i = k then fv else (factAt ds i).getD trueFact) (k := k) hp
    (fun i hi => by rw [if_neg (by omega)]) (by simp) hF0 (by rw [hfu]) hfut
    (by rw [ho2, srcFacts_fst]) huniq hbody h0
  rw [hj]
  exact ⟨_, rfl⟩

end Golem
