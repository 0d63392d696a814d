import Verif.Lemmas.NestedInv

/-! Back-translation of error paths of contracted loops. -/

namespace Golem
variable {T : Theory} {R : PRepr} {G : LGraph T}

/-- The error path behind the derivation of the network. -/
theorem netSolve_path {X : NetEnv T} (hX : X.Ok) (hR : R.WF) (hl : ∀ e ∈ G, e.LabelOk R) (hid : (G.map LEdge.id).Nodup) {w : Bool}
    {res : VerificationResult T} (h : netSolve X R w G = .done res) {ds : List (DStep T)} (hds : res.witness = .invalidity ds) :
    ∃ es : List (LEdge T), (∀ e ∈ es, e ∈ G) ∧ Chained .tru es .fls ∧ LFeasible R es trueFact falseFact ∧
      ds.tail.map DStep.clauseId = es.map fun e => some e.id := by
  obtain ⟨net, r, hn, hr, hok, h⟩ := netSolve_cases hX hR hl h
  cases r with
  | found path net' =>
    simp only at h
    obtain ⟨h1, h2, h3⟩ := h
    obtain ⟨e, g, path', rfl, hp⟩ := hok
    have hw : w = true := by
      cases w with
      | true => rfl
      | false => rw [h2 rfl] at hds; cases hds
    obtain ⟨ids, ds', hids, hfe, hds'⟩ := h3 hw
    rw [hds] at hds'
    cases hds'
    rw [netErrorPath_eq, Option.map_eq_some_iff] at hids
    obtain ⟨es, hes, rfl⟩ := hids
    obtain ⟨hG, hch⟩ := hp.chained
    have hmem := netExpand_mem hG hes
    have hc := netExpand_chained hch hes
    have hne : es.map LEdge.id ≠ [] := by
      intro h
      simp only [List.map_eq_nil_iff] at h
      subst h
      have := chained_nil.1 hc
      simp [PathEntry.vertex] at this
    obtain ⟨_, b, c⟩ := C27_fromErrorPath_sound hX.V.S hR (mapM_find_ids hid hmem) hne hc hfe
    exact ⟨es, hmem, hc, c, by rw [b, List.map_map]; rfl⟩
  | exhausted net' =>
    simp only at h
    obtain ⟨h1, h2, h3⟩ := h
    cases w with
    | false => rw [h2 rfl] at hds; cases hds
    | true =>
      obtain ⟨D, _, hD⟩ := h3 rfl
      rw [hds] at hD
      cases D <;> cases hD

theorem nestedQuery_hold {ρ : Valuation T} : ∀ {es : List (LEdge T)} {k : Nat}, AllHold ρ (nestedQuery k es) ↔
    ∀ (i : Nat) (e : LEdge T), es[i]? = some e → (sendFla e.fla ((k + i : Nat) : Int)).holds ρ
  | [], k => by simp [nestedQuery, AllHold]
  | e :: es, k => by
    have ih := nestedQuery_hold (ρ := ρ) (es := es) (k := k + 1)
    simp only [AllHold, nestedQuery, List.mem_cons, forall_eq_or_imp] at ih ⊢
    rw [ih]
    constructor
    · rintro ⟨h0, hs⟩ i e' he'
      cases i with
      | zero => simp at he'; subst he'; simpa using h0
      | succ i =>
        have := hs i e' (by simpa using he')
        rwa [show k + 1 + i = k + (i + 1) by omega] at this
    · intro h
      refine ⟨by simpa using h 0 e rfl, fun i e' he' => ?_⟩
      have := h (i + 1) e' (by simpa using he')
      rwa [show k + (i + 1) = k + 1 + i by omega] at this

section
variable {names : Nat → Pred} {dead : List Pred} {k : Nat} {x : Nested T}

/-- Edges that do not lead to a new vertex keep identity and target. -/
theorem Contracts.edge_back (h : Contracts names k R G x) {l : LEdge T} (hl : l ∈ x.G) (hn : ∀ c ∈ x.loops, c.vertex ≠ l.tgt) :
    ∃ e ∈ G, e.id = l.id ∧ e.tgt = l.tgt := by
  induction h with
  | done hc => exact ⟨l, hl, rfl, rfl⟩
  | @step k R G x vs hp hlen hcs ih =>
    simp only [List.mem_cons, forall_eq_or_imp] at hn
    obtain ⟨e1, he1, h1, h2⟩ := ih hl hn.2
    rcases mem_contractVertices.1 he1 with rfl | ⟨e, he, rfl, hb⟩
    · exact absurd h2 hn.1
    · obtain ⟨_, e2⟩ := crossEdge_ends (R := R) (N := names k) hb
      refine ⟨e, he, by rw [← h1, crossEdge_id], ?_⟩
      rw [← h2, e2]
      split
      · rename_i ht
        rw [e2, if_pos ht] at h2
        exact absurd h2 hn.1
      · rfl

theorem nestedEdges_spec (hid : (G.map LEdge.id).Nodup) : ∀ {ts : List Pred} {s : Pred} {ids : List Nat},
    nestedEdges G s ts = .done (some ids) → ∃ es : List (LEdge T), ids.mapM G.find = some es ∧ Chained s es (ts.getLastD s) ∧
      ids.length = ts.length
  | [], s, ids, h => by
    simp only [nestedEdges, Outcome.done.injEq, Option.some.injEq] at h
    subst h
    exact ⟨[], rfl, by simp [chained_nil], rfl⟩
  | t :: ts, s, ids, h => by
    rw [nestedEdges] at h
    split at h
    · cases h
    · rename_i e he
      have hm : e ∈ (G.out s).filter fun e => decide (e.tgt = t) := by rw [he]; simp
      simp only [List.mem_filter, decide_eq_true_eq] at hm
      obtain ⟨hm, ht⟩ := hm
      obtain ⟨hmG, hs⟩ := mem_out.1 hm
      rw [Outcome.andThen_done] at h
      obtain ⟨r, hr, h⟩ := h
      simp only [Outcome.done.injEq, Option.map_eq_some_iff] at h
      obtain ⟨ids', rfl, rfl⟩ := h
      obtain ⟨es, h1, h2, h3⟩ := nestedEdges_spec hid hr
      refine ⟨e :: es, by simp [List.mapM_cons, LGraph.find_of_mem hid hmG, h1], ?_, by simp [h3]⟩
      rw [chained_cons]
      refine ⟨hs.symm, ?_⟩
      rw [ht]
      rw [List.getLastD_cons]; exact h2
    · cases h

theorem nestedVertices_last {loops : List LoopContraction} {m : Valuation T} {e : LEdge T} (he : ∀ c ∈ loops, c.vertex ≠ e.tgt) :
    ∀ {es : List (LEdge T)} {i : Nat} {vs : List Pred}, nestedVertices loops G m i (es ++ [e]) = some vs →
    ∃ e' vs', G.find e.id = some e' ∧ vs = vs' ++ [e'.tgt]
  | [], i, vs, h => by
    have hf : loops.find? (fun c => decide (c.vertex = e.tgt)) = none := by
      rw [List.find?_eq_none]; intro c hc; simpa using he c hc
    simp only [List.nil_append, nestedVertices, nestedVertex, hf, Option.bind_eq_bind, Option.bind_eq_some_iff, Option.map_eq_some_iff,
      Option.pure_def, Option.some.injEq] at h
    obtain ⟨v, ⟨e', h1, rfl⟩, vs', rfl, rfl⟩ := h
    exact ⟨e', [], h1, rfl⟩
  | e0 :: es, i, vs, h => by
    simp only [List.cons_append, nestedVertices, Option.bind_eq_bind, Option.bind_eq_some_iff, Option.pure_def, Option.some.injEq] at h
    obtain ⟨v, _, vs', h1, rfl⟩ := h
    obtain ⟨e', vs'', h2, rfl⟩ := nestedVertices_last he h1
    exact ⟨e', v :: vs'', h2, rfl⟩

theorem mapM_clauseIds {G : LGraph T} : ∀ {ds : List (DStep T)} {es : List (LEdge T)}, (∀ e ∈ es, G.find e.id = some e) →
    ds.map DStep.clauseId = es.map (fun e => some e.id) → ds.mapM (fun d => d.clauseId.bind G.find) = some es
  | [], [], _, _ => rfl
  | [], _ :: _, _, h => by simp at h
  | _ :: _, [], _, h => by simp at h
  | d :: ds, e :: es, hf, h => by
    simp only [List.map_cons, List.cons.injEq] at h
    simp only [List.mem_cons, forall_eq_or_imp] at hf
    rw [List.mapM_cons, h.1, mapM_clauseIds hf.2 h.2]
    simp [hf.1]

/-- A derivation built from an error path of the contracted graph derives false in the initial graph. -/
theorem nestedErrorPath_ok (hinj : ∀ i j, names i = names j → i = j) (h : Contracts names k R G x) (hok : NestOk dead (Later names k) R G)
    {S : Smt T} (hS : S.Sound) {es : List (LEdge T)} (hes : ∀ e ∈ es, e ∈ x.G) (hch : Chained .tru es .fls) {ds ds' : List (DStep T)}
    (hds : ds.tail.map DStep.clauseId = es.map fun e => some e.id) (hr : nestedErrorPath S R G x ds = .done (some ds')) :
    LUnsafeWitness R G ds' := by
  obtain ⟨⟨k', _, hf, _⟩, _⟩ := h.facts hinj hok
  obtain ⟨hsy1, hsy2⟩ := h.symbols hinj hok
  have hm := mapM_clauseIds (fun e he => LGraph.find_of_mem hf.ids (hes e he)) hds
  unfold nestedErrorPath at hr
  rw [hm] at hr
  simp only at hr
  split at hr
  · simp only [Outcome.andThen_done, Outcome.orThrow_done] at hr
    obtain ⟨vs, hvs, oids, hids, hr⟩ := hr
    cases oids with
    | none => cases hr
    | some ids =>
      simp only [Outcome.andThen_done, Outcome.done.injEq, Option.some.injEq] at hr
      obtain ⟨ds'', hfe, rfl⟩ := hr
      have hne : es ≠ [] := by rintro rfl; have := chained_nil.1 hch; simp at this
      obtain ⟨es0, e, rfl⟩ : ∃ es0 e, es = es0 ++ [e] := ⟨es.dropLast, es.getLast hne, (List.dropLast_concat_getLast hne).symm⟩
      have het : e.tgt = .fls := by
        have : ∀ {l : List (LEdge T)} {u : Pred}, Chained u (l ++ [e]) .fls → e.tgt = .fls := by
          intro l
          induction l with
          | nil => intro u hu; exact chained_nil.1 (chained_cons.1 hu).2
          | cons a l ih => intro u hu; exact ih (chained_cons.1 hu).2
        exact this hch
      have hnl : ∀ c ∈ x.loops, c.vertex ≠ e.tgt := fun c hc => by rw [het]; exact (hsy1 c hc).2.2
      obtain ⟨e', vs', hfind, rfl⟩ := nestedVertices_last hnl hvs
      obtain ⟨e1, he1, h1, h2⟩ := h.edge_back (hes e (by simp)) hnl
      rw [← h1, LGraph.find_of_mem hok.ids he1] at hfind
      cases hfind
      obtain ⟨es', h3, h4, h5⟩ := nestedEdges_spec hok.ids hids
      rw [List.getLastD_eq_getLast?, List.getLast?_concat, Option.getD_some, h2, het] at h4
      have hne : ids ≠ [] := by intro h0; rw [h0] at h5; simp at h5
      exact (C27_fromErrorPath_sound hS hok.wf h3 hne h4 hfe).1
  · cases hr

/-! ### The translation succeeds -/

def EncAll : PRepr → List LoopContraction → Fact T → Fact T → Prop
  | _, [], f, f' => f' = f
  | R, c :: cs, f, f' => ∃ m, Enc R c.vertex c.vs f m ∧ EncAll (R.contract c.vertex c.vs) cs m f'

theorem EncAll.old {f : Fact T} : ∀ {loops : List LoopContraction} {R : PRepr}, (∀ c ∈ loops, f.1 ∉ c.vs) → EncAll R loops f f
  | [], _, _ => rfl
  | c :: cs, R, h => by
    simp only [List.mem_cons, forall_eq_or_imp] at h
    exact ⟨f, .old h.1, EncAll.old h.2⟩

theorem EncAll.eq_of {f f' : Fact T} : ∀ {loops : List LoopContraction} {R : PRepr}, (∀ c ∈ loops, f.1 ∉ c.vs) → EncAll R loops f f' → f' = f
  | [], _, _, h => h
  | c :: cs, R, h, ⟨m, h1, h2⟩ => by
    simp only [List.mem_cons, forall_eq_or_imp] at h
    rcases h1 with ⟨_, rfl⟩ | ⟨h1, _⟩
    · exact EncAll.eq_of h.2 h2
    · exact absurd h1 h.1

theorem EncAll.eq_back {f f' : Fact T} : ∀ {loops : List LoopContraction} {R : PRepr}, (∀ c ∈ loops, c.vertex ≠ f'.1) → EncAll R loops f f' → f' = f
  | [], _, _, h => h
  | c :: cs, R, h, ⟨m, h1, h2⟩ => by
    simp only [List.mem_cons, forall_eq_or_imp] at h
    have := EncAll.eq_back h.2 h2
    subst this
    rcases h1 with ⟨_, rfl⟩ | ⟨_, σ, _, rfl⟩
    · rfl
    · exact absurd rfl h.1

theorem EncAll.decode {f f' : Fact T} : ∀ {loops : List LoopContraction} {R : PRepr}, Flat loops → (loops.map LoopContraction.vertex).Nodup →
    (∀ c ∈ loops, c.vertex ≠ f.1) → EncAll R loops f f' → ∀ c ∈ loops, c.vertex = f'.1 →
    f.1 ∈ c.vs ∧ ∃ σ, AtLoc R c.vs f.1 f.2 σ ∧ f' = encFact R c.vertex c.vs σ
  | [], _, _, _, _, _, c, hc, _ => by simp at hc
  | d :: cs, R, hfl, hnd, hf, ⟨m, h1, h2⟩, c, hc, hcv => by
    simp only [List.map_cons, List.nodup_cons, List.mem_map, not_exists, not_and] at hnd
    have hfl' : Flat cs := fun a ha b hb => hfl a (List.mem_cons_of_mem _ ha) b (List.mem_cons_of_mem _ hb)
    rcases h1 with ⟨hv, rfl⟩ | ⟨hv, σ, hσ, rfl⟩
    · rcases List.mem_cons.1 hc with rfl | hc
      · have := EncAll.eq_back (fun d hd e => hnd.1 d hd (e.trans hcv.symm)) h2
        subst this
        exact absurd hcv (hf c (by simp))
      · obtain ⟨a, σ, b, e⟩ := EncAll.decode hfl' hnd.2 (fun c hc => hf c (by simp [hc])) h2 c hc hcv
        have hN : d.vertex ∉ c.vs := hfl d (by simp) c (by simp [hc])
        refine ⟨a, σ, ⟨b.here, b.others, ?_⟩, ?_⟩
        · rw [← b.args, argNames_contract (by intro e; rw [e] at a; exact hN a)]
        · rw [e, encFact, encFact, contractedArgs_contract hN]
    · have := EncAll.eq_of (f := encFact R d.vertex d.vs σ) (fun c hc => hfl d (by simp) c (by simp [hc])) h2
      subst this
      rcases List.mem_cons.1 hc with rfl | hc
      · exact ⟨hv, σ, hσ, rfl⟩
      · exact absurd hcv (hnd.1 c hc)

theorem Contracts.vertexNodup (hinj : ∀ i j, names i = names j → i = j) (h : Contracts names k R G x) :
    ∀ {dead : List Pred}, NestOk dead (Later names k) R G → (x.loops.map LoopContraction.vertex).Nodup := by
  induction h with
  | done hc => intro _ _; simp
  | @step k R G x vs hp hlen hcs ih =>
    intro dead hok
    have hn := hok.next hinj hp
    simp only [List.map_cons, List.nodup_cons]
    refine ⟨fun hm => ?_, ih hn⟩
    obtain ⟨c, hc, e⟩ := List.mem_map.1 hm
    obtain ⟨⟨k', _, _, h2⟩, _⟩ := hcs.facts hinj hn
    obtain ⟨j, hj, _, e'⟩ := h2 c hc
    have := hinj j k (e'.symm.trans e)
    omega

theorem Contracts.back (hinj : ∀ i j, names i = names j → i = j) (h : Contracts names k R G x) : ∀ {dead : List Pred},
    NestOk dead (Later names k) R G → ∀ {l : LEdge T}, l ∈ x.G → ∀ {f f' g' : Fact T}, l.Fires x.R f' g' → EncAll R x.loops f f' →
    ¬ Later names k f.1 → ∃ e ∈ G, ∃ g, e.Fires R f g ∧ EncAll R x.loops g g' ∧
      ((∀ c ∈ x.loops, c.vertex ≠ l.tgt) → e.id = l.id ∧ e.tgt = l.tgt) := by
  induction h with
  | done hc =>
    intro _ _ l hl f f' g' hF hf _
    cases hf
    exact ⟨l, hl, g', hF, rfl, fun _ => ⟨rfl, rfl⟩⟩
  | @step k R G x vs hp hlen hcs ih =>
    intro dead hok l hl f f' g' hF hf hnl
    obtain ⟨m, hm, hf⟩ := hf
    simp only at hm hf
    have hml : ¬ Later names (k + 1) m.1 := by
      rintro ⟨j, hj, e⟩
      rcases hm with ⟨_, rfl⟩ | ⟨_, σ, _, rfl⟩
      · exact hnl ⟨j, by omega, e⟩
      · have := hinj k j e; omega
    obtain ⟨e1, he1, g1, hF1, hg1, hc1⟩ := ih (hok.next hinj hp) hl hF hf hml
    obtain ⟨e, he, g, hF', hg, hc⟩ := enc_back hok hp later_self he1 hF1 hm fun e => hnl ⟨k, Nat.le_refl _, e⟩
    refine ⟨e, he, g, hF', ⟨g1, hg, hg1⟩, fun hn => ?_⟩
    simp only [List.mem_cons, forall_eq_or_imp] at hn
    obtain ⟨a, b⟩ := hc1 hn.2
    rcases hc with ⟨_, h2⟩ | ⟨_, h2, h3⟩
    · exact absurd (h2 ▸ b) hn.1
    · exact ⟨h2.trans a, h3.trans b⟩

theorem find?_unique {α : Type} {p : α → Bool} {a : α} (ha : p a = true) : ∀ {l : List α}, a ∈ l → (∀ b ∈ l, p b = true → b = a) → l.find? p = some a
  | [], h, _ => by simp at h
  | b :: l, h, hu => by
    rw [List.find?_cons]
    cases hb : p b with
    | true => simp [hu b (by simp) hb]
    | false =>
      simp only
      refine find?_unique ha ?_ fun b hb => hu b (by simp [hb])
      rcases List.mem_cons.1 h with rfl | h
      · rw [ha] at hb; cases hb
      · exact h

theorem nestedVertices_total (hinj : ∀ i j, names i = names j → i = j) (h : Contracts names k R G x) (hok : NestOk dead (Later names k) R G)
    (hfl : Flat x.loops) {m : Valuation T} : ∀ {es : List (LEdge T)} {i : Nat} {u v : Pred} {f : Fact T}, (∀ e ∈ es, e ∈ x.G) → Chained u es v →
    (∀ (j : Nat) (e : LEdge T), es[j]? = some e → (sendFla e.fla ((i + j : Nat) : Int)).holds m) →
    EncAll R x.loops f (pathFact x.R m u i) → ¬ Later names k f.1 →
    ∃ es' g, (∀ e ∈ es', e ∈ G) ∧ LFeasible R es' f g ∧ EncAll R x.loops g (pathFact x.R m v (i + es.length)) ∧
      nestedVertices x.loops G m i es = some (es'.map LEdge.tgt)
  | [], i, u, v, f, _, hch, _, henc, _ => by
    rw [chained_nil] at hch
    subst hch
    exact ⟨[], f, by simp, .nil _, by simpa using henc, rfl⟩
  | l :: es, i, u, v, f, hes, hch, hm, henc, hnl => by
    rw [chained_cons] at hch
    obtain ⟨rfl, hch⟩ := hch
    have hF := pathFact_step (R := x.R) (ρ := m) (e := l) (i := i) (by simpa using hm 0 l rfl)
    obtain ⟨e, he, g, hF', hg, hid⟩ := h.back hinj hok (hes l (by simp)) hF henc hnl
    have hgv : G.Vertex g.1 := ⟨e, he, .inl hF'.tgt⟩
    have hgl : ¬ Later names k g.1 := by rw [hF'.tgt]; exact (hok.fresh e he).2
    obtain ⟨es', g', h1, h2, h3, h4⟩ := nestedVertices_total hinj h hok hfl (es := es) (i := i + 1) (u := l.tgt) (v := v) (f := g)
      (fun e he => hes e (by simp [he])) hch (fun j e' he' => by
        have := hm (j + 1) e' (by simpa using he')
        rwa [show i + (j + 1) = i + 1 + j by omega] at this) hg hgl
    have hv : nestedVertex x.loops G m i l = some e.tgt := by
      unfold nestedVertex
      split
      · rename_i c hc
        have hcm := List.mem_of_find?_eq_some hc
        have hcv : c.vertex = l.tgt := by simpa using List.find?_some hc
        have hsy := h.symbols hinj hok
        obtain ⟨a, σ, hσ, e2⟩ := EncAll.decode hfl (h.vertexNodup hinj hok) (fun c hc e => (hsy.1 c hc).1 (e ▸ hgv)) hg c hcm hcv
        have hσm : ∀ n ∈ contractedArgs R c.vs, σ n = m (.ver n (i + 1)) := by
          intro n hn
          simp only [pathFact, encFact, Prod.mk.injEq, PRepr.stateVars, ← hcv, h.loopArgs hinj hok hfl c hcm, List.map_map] at e2
          have := List.map_inj_left.1 e2.2 n hn
          simp only [Function.comp, shift] at this
          rw [← this]
          congr 2
          omega
        have hloc : ∀ q ∈ c.vs, locName q ∈ contractedArgs R c.vs := fun q hq => List.mem_append_left _ (List.mem_map.2 ⟨q, hq, rfl⟩)
        have hne := (h.disjoint hinj hok).2 c hcm
        rw [hF'.tgt] at a hσ
        refine find?_unique ?_ ?_ ?_
        · simp only [a, decide_true, Bool.true_and]
          rw [← hσm _ (hloc _ a)]; exact hσ.here
        · refine (mem_getVertices he).2
        · intro q hq hq2
          simp only [Bool.and_eq_true, decide_eq_true_eq] at hq2
          apply Classical.byContradiction
          intro hne
          have := hσ.others q hq2.1 hne
          rw [hσm _ (hloc _ hq2.1), hq2.2] at this
          cases this
      · rename_i hnone
        rw [List.find?_eq_none] at hnone
        obtain ⟨a, b⟩ := hid fun c hc => by simpa using hnone c hc
        rw [← a, LGraph.find_of_mem hok.ids he]; rfl
    refine ⟨e :: es', g', by simpa [he] using h1, .cons hF' h2, ?_, ?_⟩
    · rw [List.length_cons, show i + (es.length + 1) = i + 1 + es.length by omega]; exact h3
    · simp [nestedVertices, hv, h4]

theorem nodup_of_ids (hid : (G.map LEdge.id).Nodup) : G.Nodup := List.Pairwise.of_map LEdge.id (by rintro a b h rfl; exact h rfl) hid

theorem nestedEdges_total (hid : (G.map LEdge.id).Nodup) (hnp : G.NoParallel) : ∀ {es : List (LEdge T)} {f g : Fact T}, (∀ e ∈ es, e ∈ G) →
    LFeasible R es f g → nestedEdges G f.1 (es.map LEdge.tgt) = .done (some (es.map LEdge.id))
  | [], f, g, _, _ => rfl
  | e :: es, f, g, hes, h => by
    cases h with
    | @cons _ _ _ g' _ hF hp =>
      have ih := nestedEdges_total hid hnp (fun e he => hes e (by simp [he])) hp
      have he := hes e (by simp)
      have hs : (G.out f.1).filter (fun e' => decide (e'.tgt = e.tgt)) = [e] := by
        refine singleton_of ?_ ?_ ?_
        · exact ((nodup_of_ids hid).sublist List.filter_sublist).sublist List.filter_sublist
        · simp only [List.mem_filter, decide_eq_true_eq, and_true]
          exact mem_out.2 ⟨he, hF.src.symm⟩
        · intro e' he'
          simp only [List.mem_filter, decide_eq_true_eq] at he'
          obtain ⟨a, b⟩ := mem_out.1 he'.1
          exact hnp e' a e he (b.trans hF.src) he'.2
      rw [List.map_cons, nestedEdges, hs]
      simp only
      rw [← hF.tgt, ih]
      simp [Outcome.andThen]

theorem LFeasible.chain {es : List (LEdge T)} {f g : Fact T} (h : LFeasible R es f g) : Chained f.1 es g.1 := by
  induction h with
  | nil f => exact chained_nil.2 rfl
  | cons hF _ ih => rw [chained_cons]; exact ⟨hF.src, by rw [← hF.tgt]; exact ih⟩

theorem nestedErrorPath_total (hinj : ∀ i j, names i = names j → i = j) (h : Contracts names k R G x) (hok : NestOk dead (Later names k) R G)
    (hfl : Flat x.loops) (hnp : G.NoParallel) {S : Smt T} (hS : S.Sound) (hc : S.Complete) {es : List (LEdge T)} (hes : ∀ e ∈ es, e ∈ x.G)
    (hch : Chained .tru es .fls) (hfe : LFeasible x.R es trueFact falseFact) {ds : List (DStep T)}
    (hds : ds.tail.map DStep.clauseId = es.map fun e => some e.id) : ∃ ds', nestedErrorPath S R G x ds = .done (some ds') := by
  obtain ⟨⟨k', _, hf, _⟩, _⟩ := h.facts hinj hok
  obtain ⟨hsy1, hsy2⟩ := h.symbols hinj hok
  have hm := mapM_clauseIds (fun e he => LGraph.find_of_mem hf.ids (hes e he)) hds
  have hne : es ≠ [] := by rintro rfl; have := chained_nil.1 hch; simp at this
  have hsat : S.check (nestedQuery 1 es) = .sat := by
    obtain ⟨ρ, hρ, _⟩ := feasible_model (fun e he => hf.label e (hes e he)) hne hfe
    rcases hc (nestedQuery 1 es) with hs | hs
    · exact hs
    · refine absurd ⟨fun y => ρ (shift (-1) y), ?_⟩ (hS.unsat _ hs)
      rw [nestedQuery_hold]
      intro i e he
      have := pathQuery_hold.1 hρ i e he
      rw [sendFla_holds] at this ⊢
      refine (Fla.holds_congr fun y _ => ?_).1 this
      rw [shift_shift]
      congr 2
      omega
  have hmod := nestedQuery_hold.1 (hS.sat _ hsat)
  have htr : ∀ i, pathFact x.R (S.model (nestedQuery 1 es)) .tru i = trueFact := fun i => by
    simp [pathFact, trueFact, tru_state hf.wf]
  have hfa : ∀ i, pathFact x.R (S.model (nestedQuery 1 es)) .fls i = falseFact := fun i => by
    simp [pathFact, falseFact, PRepr.stateVars, hf.wf.fls]
  obtain ⟨es', g, h1, h2, h3, h4⟩ := nestedVertices_total hinj h hok hfl (i := 1) (f := trueFact) hes hch hmod
    (by rw [htr]; exact EncAll.old fun c hc => ((h.disjoint hinj hok).2 c hc).2.1) hok.freshEnds.1
  rw [hfa] at h3
  have := EncAll.eq_back (f' := (falseFact : Fact T)) (fun c hc => (hsy1 c hc).2.2) h3
  subst this
  have h5 := nestedEdges_total hok.ids hnp h1 h2
  have h6 := mapM_find_ids hok.ids h1
  have hne' : es'.map LEdge.id ≠ [] := by
    intro h0
    simp only [List.map_eq_nil_iff] at h0
    subst h0
    have := chained_nil.1 h2.chain
    cases this
  rcases C27_fromErrorPath_exact hS hc hok.wf hok.label h6 hne' h2.chain with ⟨_, ds', hds'⟩ | ⟨hn, _⟩
  · refine ⟨ds', ?_⟩
    unfold nestedErrorPath
    simp only [hm, hsat, if_true, h4]
    have h5 : nestedEdges G .tru (es'.map LEdge.tgt) = .done (some (es'.map LEdge.id)) := h5
    simp [Outcome.orThrow, Outcome.andThen, h5, hds']
  · exact absurd h2 hn

end

end Golem
