import Verif.Lemmas.InlineRun

/-! The edge inliner: derivable facts and UNSAFE witnesses. -/

namespace Golem
variable {T : Theory}

theorem Derivable.cases' {Q : Rules T} {f : Fact T} (h : Derivable Q f) :
    f = trueFact ∨ ∃ b, Q ⟨b, f⟩ ∧ ∀ g ∈ b, Derivable Q g := by
  cases h with
  | entry => exact .inl rfl
  | step r hr hb => exact .inr ⟨r.body, hr, hb⟩

/-- A derivable fact of a vertex other than the entry is derived by an edge. -/
theorem derivable_edge {R : PRepr} {G : Graph T} {f : Fact T} (h : Derivable (graphRules R G) f) (hf : f.1 ≠ .tru) :
    ∃ q ∈ G, ∃ b, q.Fires R b f ∧ ∀ g ∈ b, Derivable (graphRules R G) g := by
  rcases h.cases' with rfl | ⟨b, hr, hb⟩
  · exact absurd rfl hf
  · obtain ⟨q, hq, hfire⟩ := graphRules_iff.1 hr
    exact ⟨q, hq, b, hfire, hb⟩

theorem blocks_fires {R : PRepr} {v : Pred} {p e : Edge T} (h : Blocks R v p e) (hp : p.tgt = v) (he : e.src = [v])
    {b : List (Fact T)} {f g : Fact T} (h1 : p.Fires R b f) (h2 : e.Fires R [f] g) : False := by
  obtain ⟨ρ, hl, _, rfl⟩ := h1
  obtain ⟨ρ', hl', hb, _⟩ := h2
  refine h ρ ρ' hl hl' ?_
  unfold Edge.srcFacts at hb
  rw [he, instances_one] at hb
  simp only [List.map_cons, List.map_nil, List.cons.injEq, and_true, Edge.tgtFact, Prod.mk.injEq] at hb
  rw [hp] at hb
  exact hb.2

theorem Merged.fires_two {R : PRepr} {u : Pred} {n p e : Edge T} (hM : Merged R u n p e) (hR : R.WF) (hp : p.src = [u])
    (hs : e.src = [p.tgt]) {f g : Fact T} : n.Fires R [f] g ↔ ∃ h, p.Fires R [f] h ∧ e.Fires R [h] g := by
  have hbody : ∀ fu fv : Fact T, fv.1 = p.tgt → fu.1 = u → (u = .tru → fu = trueFact) → mergeBody u p.tgt fu [fv] = [fu] := by
    intro fu fv h1 h2 h3
    unfold mergeBody
    simp only [List.map_cons, h1, if_true, List.map_nil]
    split
    · rename_i hu
      simp [h3 hu, trueFact]
    · rfl
  rw [hM.comp]
  constructor
  · rintro ⟨fu, fv, bo, h1, h2, h3, h4⟩
    obtain ⟨fv', rfl, hv⟩ := fires_one h2 hs
    obtain rfl := h3 fv' (by simp) hv
    obtain ⟨fu', he, hfu⟩ := fires_one h1 hp
    cases he
    rw [hbody fu fv' hv hfu fun hu => fires_tru hR h1 (by simp) (hfu.trans hu)] at h4
    cases h4
    exact ⟨fv', h1, h2⟩
  · rintro ⟨h, h1, h2⟩
    obtain ⟨fu', he, hfu⟩ := fires_one h1 hp
    cases he
    refine ⟨f, h, [h], h1, h2, by simp, ?_⟩
    rw [hbody f h h1.tgt hfu fun hu => fires_tru hR h1 (by simp) (hfu.trans hu)]

section
variable {R : PRepr} {st st' : GS T} {es : List (InlineEntry T)}

/-- Inlining keeps all derivable facts. -/
theorem InlineRun.derivable (hR : R.WF) (h : InlineRun R st es st') (f : Fact T) :
    Derivable (graphRules R st.edges) f ↔ Derivable (graphRules R st'.edges) f := by
  induction h with
  | nil => exact Iff.rfl
  | @del st st1 st' es e v hst he hs hv hb h1 hf rest ih =>
    rw [← ih]
    constructor
    · intro hd
      refine hd.sound (M := Derivable (graphRules R st1.edges)) ⟨.entry, ?_⟩
      rintro ⟨b, hd⟩ hr hbd
      obtain ⟨q, hq, hfire⟩ := graphRules_iff.1 hr
      by_cases hqe : q = e
      · subst hqe
        exfalso
        obtain ⟨fv, hbe, hfv⟩ := fires_one hfire hs
        simp only at hbe
        subst hbe
        obtain ⟨p, hp, b', hpf, _⟩ := derivable_edge (hbd fv (by simp)) (by rw [hfv]; exact hv)
        rw [h1, mem_deleteEdge hst he] at hp
        have hpt : p.tgt = v := hpf.tgt.symm.trans hfv
        exact blocks_fires (hb p (mem_inEdges.2 ⟨hp.1, hpt⟩)) hpt hs hpf hfire
      · exact derivable_fires (by rw [h1]; exact (mem_deleteEdge hst he).2 ⟨hq, hqe⟩) hfire hbd
    · intro hd
      refine hd.mono fun r hr => ?_
      obtain ⟨q, hq, hfire⟩ := graphRules_iff.1 hr
      rw [h1, mem_deleteEdge hst he] at hq
      exact hfire.rule hq.1
  | @repl st st1 st' es n e p u hst hp hs hv hb hM hid h1 hf rest ih =>
    rw [← ih]
    have hmem : ∀ x, x ∈ st1.edges ↔ (x ∈ st.edges ∧ x ≠ e) ∨ x = n := by
      intro x; rw [h1]; exact mem_replaceEdge hst hp.mo hid
    constructor
    · intro hd
      refine hd.sound (M := Derivable (graphRules R st1.edges)) ⟨.entry, ?_⟩
      rintro ⟨b, hd⟩ hr hbd
      obtain ⟨q, hq, hfire⟩ := graphRules_iff.1 hr
      by_cases hqe : q = e
      · subst hqe
        obtain ⟨fv, hbe, hfv⟩ := fires_one hfire hs
        simp only at hbe
        subst hbe
        obtain ⟨i, hi, b', hif, hbd'⟩ := derivable_edge (hbd fv (by simp)) (by rw [hfv]; exact hv)
        have hit : i.tgt = p.tgt := hif.tgt.symm.trans hfv
        rcases (hmem i).1 hi with ⟨hi1, hi2⟩ | rfl
        · by_cases hip : i = p
          · subst hip
            obtain ⟨fu, rfl, _⟩ := fires_one hif hp.isrc
            exact derivable_fires ((hmem n).2 (.inr rfl)) ((hM.fires_two hR hp.isrc hs).2 ⟨fv, hif, hfire⟩)
              (fun g hg => hbd' g hg)
          · exact (blocks_fires (hb i (mem_inEdges.2 ⟨hi1, hit⟩) hip) hit hs hif hfire).elim
        · exfalso
          have hqt : q.tgt = p.tgt := hM.tgt.symm.trans hit
          obtain ⟨fu, rfl, _⟩ := fires_one hif (hM.single hs)
          obtain ⟨k, _, hk⟩ := (hM.fires_two hR hp.isrc hs).1 hif
          exact blocks_fires (hb q (mem_inEdges.2 ⟨hp.mo, hqt⟩) (Ne.symm hp.dist)) hqt hs hk hfire
      · exact derivable_fires ((hmem q).2 (.inl ⟨hq, hqe⟩)) hfire hbd
    · intro hd
      refine hd.sound (M := Derivable (graphRules R st.edges)) ⟨.entry, ?_⟩
      rintro ⟨b, hd⟩ hr hbd
      obtain ⟨q, hq, hfire⟩ := graphRules_iff.1 hr
      rcases (hmem q).1 hq with ⟨hq, _⟩ | rfl
      · exact derivable_fires hq hfire hbd
      · obtain ⟨fu, hbe, _⟩ := fires_one hfire (hM.single hs)
        simp only at hbe
        subst hbe
        obtain ⟨k, hk1, hk2⟩ := (hM.fires_two hR hp.isrc hs).1 hfire
        refine derivable_fires hp.mo hk2 fun g hg => ?_
        simp at hg; subst hg
        exact derivable_fires hp.mi hk1 fun g hg => hbd g hg

theorem UnsafeWitness.drop {U G : Graph T} {n : Edge T} (hU : ∀ e ∈ U, e ∈ G ∨ e = n) {ds : List (DStep T)}
    (h : UnsafeWitness R U ds) (hn : some n.id ∉ ds.map DStep.clauseId) : UnsafeWitness R G ds := by
  refine ⟨h.first, h.last, fun i d hi hd => ?_⟩
  obtain ⟨h1, e, he, hc, hf⟩ := h.steps i d hi hd
  refine ⟨h1, e, (hU e he).resolve_right ?_, hc, hf⟩
  rintro rfl
  exact hn (List.mem_map.2 ⟨d, List.mem_of_getElem? hd, hc⟩)

/-- The translation of UNSAFE witnesses. -/
theorem InlineRun.uns {S : Smt T} (hS : S.Sound) (hR : R.WF) (h : InlineRun R st es st') {ds : List (DStep T)}
    (hw : UnsafeWitness R st'.edges ds) :
    inlineUns S R es ds ≠ .outOfFuel ∧
      (∀ ds', inlineUns S R es ds = .done ds' → UnsafeWitness R st.edges ds') ∧
      (S.Complete → ∃ ds', inlineUns S R es ds = .done ds') := by
  induction h with
  | nil =>
    refine ⟨by simp [inlineUns], ?_, fun _ => ⟨_, rfl⟩⟩
    intro ds' h; cases h; exact hw
  | @del st st1 st' es e v hst he hs hv hb h1 hf rest ih =>
    obtain ⟨a, b, c⟩ := ih hw
    refine ⟨a, fun ds' hd => (b ds' hd).mono fun x hx => ?_, c⟩
    rw [h1, mem_deleteEdge hst he] at hx
    exact hx.1
  | @repl st st1 st' es n e p u hst hp hs hv hb hM hid h1 hf rest ih =>
    obtain ⟨a, b, c⟩ := ih hw
    have hsum : SumOk R st.edges ([p, e], n) := by
      refine ⟨⟨u, e.tgt, hM.single hs, hM.tgt, .cons hp.isrc (.cons hs (.nil _))⟩, by simp, ?_, fun f g => ?_⟩
      · intro x hx
        simp at hx
        rcases hx with rfl | rfl
        · exact hp.mi
        · exact hp.mo
      · rw [hM.fires_two hR hp.isrc hs]
        simp only [ChainFires]
        exact ⟨fun ⟨h, a, b⟩ => ⟨h, a, g, b, rfl⟩, fun ⟨h, a, k, b, e⟩ => ⟨h, a, e ▸ b⟩⟩
    have hspec := fun ds1 (hw1 : UnsafeWitness R (st.edges ++ [n]) ds1) => replaceAll_spec (U := st.edges ++ [n]) hS hR hsum
      (fun x hx => hst.ok.labelOk hx) (by
        show ((st.edges ++ [n]).map Edge.id).Nodup
        rw [List.map_append, List.nodup_append]
        refine ⟨hst.ok.ids, by simp, ?_⟩
        intro i hi j hj
        simp at hj
        subst hj
        obtain ⟨x, hx, rfl⟩ := List.mem_map.1 hi
        have := hst.ok.idlt x hx
        omega) (fun x hx => List.mem_append_left _ hx) (by simp) (fun x hx => by
        have := hst.ok.idlt x hx
        show x.id ≠ n.id
        omega) ds1.length ds1 hw1 (by
        refine Nat.le_trans (List.count_le_length) ?_
        simp)
    have hmono : ∀ ds1, UnsafeWitness R st1.edges ds1 → UnsafeWitness R (st.edges ++ [n]) ds1 := by
      intro ds1 h
      refine h.mono fun x hx => ?_
      rw [h1, mem_deleteEdges] at hx
      exact hx.1
    unfold inlineUns
    cases hr : inlineUns S R es ds with
    | outOfFuel => exact absurd hr a
    | thrown =>
      refine ⟨by simp, by simp, fun hSC => ?_⟩
      obtain ⟨_, h⟩ := c hSC
      rw [hr] at h
      cases h
    | done ds1 =>
      obtain ⟨i, j, k⟩ := hspec ds1 (hmono ds1 (b ds1 hr))
      refine ⟨i, fun ds' hd => ?_, k⟩
      obtain ⟨l1, l2, _⟩ := j ds' hd
      exact l1.drop (n := n) (fun x hx => by simpa using hx) l2

/-- A graph with edges from the entry to the exit only is left alone. -/
theorem InlineRun.direct (h : InlineRun R st es st') (hd : ∀ e ∈ st.edges, e.src = [.tru] ∧ e.tgt = .fls) :
    es = [] ∧ st' = st := by
  cases h with
  | nil => exact ⟨rfl, rfl⟩
  | del _ he hs hv _ _ _ _ =>
    have := (hd _ he).1
    rw [hs] at this
    simp at this
    exact absurd this hv
  | repl _ hp hs hv _ _ _ _ _ _ =>
    have := (hd _ hp.mo).1
    rw [hs] at this
    simp at this
    exact absurd this hv

theorem inlineUns_nil (S : Smt T) (R : PRepr) (es : List (InlineEntry T)) : inlineUns S R es [] = .done [] := by
  induction es with
  | nil => rfl
  | cons e es ih =>
    cases e with
    | deletion => exact ih
    | replacement =>
      unfold inlineUns
      rw [ih]
      simp only
      rw [replaceAllSummaries.eq_def]
      rfl

end

end Golem
