import Verif.Lemmas.InlineSafe

/-! The edge inliner: the translation of SAFE witnesses, step by step. -/

namespace Golem
variable {T : Theory}

/-- A removed self loop has no auxiliary variables. -/
def PlainLoop (R : PRepr) (e : Edge T) : Prop := e.tgt ∈ e.src → ∀ x ∈ e.fla.vars, x ∈ R.own e.src e.tgt

def InlineEntry.removed : InlineEntry T → Edge T
  | .deletion e _ => e
  | .replacement _ e _ _ => e

section
variable {R : PRepr} {st : GS T} {e : Edge T} {v : Pred}

theorem label_notBase (hst : st.Ok R) {q : Edge T} (hq : q ∈ st.edges) {x : Var} (hx : x ∈ q.fla.vars) : x.NotBase := by
  rintro n rfl
  rcases hst.label q hq _ hx with ho | ⟨_, h, _⟩ | ⟨_, h, _⟩
  · rcases mem_own.1 ho with ⟨_, _, h⟩ | h
    · obtain ⟨_, _, h⟩ := R.mem_srcVars.1 h; cases h
    · obtain ⟨_, _, h⟩ := R.mem_tgtVars.1 h; cases h
  · cases h
  · cases h

theorem inline_query (hR : R.WF) (hst : st.Ok R) (he : e ∈ st.edges) (hs : e.src = [v]) (hplain : PlainLoop R e) {A B : Fla T}
    (hA : ∀ x ∈ A.vars, (∃ q ∈ st.edges.inEdges v, x ∈ q.fla.vars) ∨ ∃ u, st.edges.Vertex u ∧ x ∈ R.srcVars u 0)
    (hB : ∀ x ∈ B.vars, x ∈ e.fla.vars ∨ x ∈ R.tgtVars e.tgt) : ItpQuery R v A B := by
  have hev : ∀ x ∈ e.fla.vars, x ∈ R.srcVars v 0 ∨ x ∈ R.tgtVars e.tgt ∨ st.edges.Aux R x := by
    intro x hx
    rcases hst.label e he x hx with ho | ho
    · rcases mem_own.1 ho with ⟨q, hq, h⟩ | h
      · rw [hs, instances_one] at hq
        simp at hq
        subst hq
        exact .inl h
      · exact .inr (.inl h)
    · exact .inr (.inr ho)
  have srcTgt : ∀ {x p q i}, x ∈ R.srcVars p i → x ∉ R.tgtVars q := fun h => srcVars_not_tgt h
  have auxTgt : ∀ {x q}, st.edges.Aux R x → x ∉ R.tgtVars q := by
    intro x q h h'
    obtain ⟨_, _, rfl⟩ := R.mem_tgtVars.1 h'
    rcases h with ⟨_, h, _⟩ | ⟨_, h, _⟩ <;> cases h
  refine ⟨fun x hx => ?_, fun x hx => ?_, fun x hxA hxB => ?_⟩
  · rcases hA x hx with ⟨q, hq, h⟩ | ⟨u, _, h⟩
    · exact label_notBase hst (mem_inEdges.1 hq).1 h
    · obtain ⟨_, _, rfl⟩ := R.mem_srcVars.1 h
      intro n h; cases h
  · rcases hB x hx with h | h
    · exact label_notBase hst he h
    · obtain ⟨_, _, rfl⟩ := R.mem_tgtVars.1 h
      intro n h; cases h
  · rcases hA x hxA with ⟨q, hq, h⟩ | ⟨u, hu, h⟩
    · obtain ⟨hqG, hqt⟩ := mem_inEdges.1 hq
      rcases hB x hxB with hb | hb
      · by_cases hqe : q = e
        · subst hqe
          have := hplain (by rw [hs, hqt]; simp) x hb
          rcases mem_own.1 this with ⟨s, hsm, h'⟩ | h'
          · rw [hs, instances_one] at hsm
            simp at hsm
            subst hsm
            exact .inr h'
          · exact .inl (hqt ▸ h')
        · rcases hst.label q hqG x h with ho | ho
          · rcases mem_own.1 ho with ⟨s, hsm, h'⟩ | h'
            · rcases hev x hb with h1 | h1 | h1
              · exact .inr h1
              · exact absurd h1 (srcTgt h')
              · exact absurd h1 (own_not_aux hR (fun s hs => vertex_src hqG hs) ho)
            · exact .inl (hqt ▸ h')
          · exact absurd hb (hst.sep q hqG e he hqe x h ho)
      · rcases hst.label q hqG x h with ho | ho
        · rcases mem_own.1 ho with ⟨s, hsm, h'⟩ | h'
          · exact absurd hb (srcTgt h')
          · exact .inl (hqt ▸ h')
        · exact absurd hb (auxTgt ho)
    · rcases hB x hxB with hb | hb
      · rcases hev x hb with h1 | h1 | h1
        · exact .inr h1
        · exact absurd h1 (srcTgt h)
        · refine absurd h1 (own_not_aux hR (ss := [u]) (t := .fls) (fun s hs => ?_) (mem_own.2 (.inl ⟨(u, 0), ?_, h⟩)))
          · simp at hs; subst hs; exact hu
          · rw [instances_one]; simp
      · exact absurd hb (srcTgt h)

/-- Firing an edge with one source. -/
theorem fires_single {f g : Fact T} (hs : e.src = [v]) (h : e.Fires R [f] g) :
    ∃ ρ : Valuation T, e.fla.holds ρ ∧ f = (v, (R.srcVars v 0).map ρ) ∧ g = (e.tgt, (R.tgtVars e.tgt).map ρ) := by
  obtain ⟨ρ, hl, hb, rfl⟩ := h
  refine ⟨ρ, hl, ?_, rfl⟩
  unfold Edge.srcFacts at hb
  rw [hs, instances_one] at hb
  simpa using hb

/-! ### A deletion -/

theorem inlineSafeDel_flex {S : Smt T} (hS : S.Sound) (hR : R.WF) (hst : st.Inv R) (he : e ∈ st.edges) (hs : e.src = [v])
    (hv : v ≠ .tru) (hplain : PlainLoop R e) {G' : Graph T} (hG' : G' = deleteEdges st.edges [e.id]) {D D' : Defs T}
    (hD : SafeFlex R G' D) (h : inlineSafeDel S R e (st.edges.inEdges v) D = .done (some D')) :
    SafeFlex R st.edges D' ∧ (∀ p, st.edges.Vertex p → G'.Vertex p ∨ (D'.get p).isSome) ∧ ∀ p, (D.get p).isSome → (D'.get p).isSome := by
  have hvf : v ≠ .fls := by
    rintro rfl
    exact (hst.ends e he).2 (by rw [hs]; simp)
  have htt : e.tgt ≠ .tru := (hst.ends e he).1
  have hvv : st.edges.Vertex v := vertex_src he (by rw [hs]; simp)
  have hmem : ∀ x, x ∈ G' ↔ x ∈ st.edges ∧ x ≠ e := by intro x; rw [hG']; exact mem_deleteEdge hst he
  unfold inlineSafeDel at h
  rw [hs] at h
  simp only at h
  obtain ⟨d, hd⟩ : ∃ d, (D.insertNew v .tt).get v = some d := Option.isSome_iff_exists.1 get_insertNew_self
  have hdv : ∀ x ∈ d.vars, x ∈ R.baseVars v := by
    rw [Defs.get_insertNew] at hd
    split at hd
    · cases hd; simp [Fla.vars]
    · exact hD.closed v d hd
  -- the new definition of `v` is the old one and something more
  have key : ∀ D2 : Defs T, (∃ d2, D2.get v = some d2 ∧ (∀ x ∈ d2.vars, x ∈ R.baseVars v) ∧
      (∀ p, p ≠ v → D2.get p = D.get p) ∧ ∃ I : Fact T → Prop, (∀ f, f.1 = v → (FlaOf R v d2 f ↔ FlaOf R v d f ∧ I f)) ∧
        (∀ q ∈ st.edges, q.tgt = v → ∀ b f, q.Fires R b f → I f) ∧
        (∀ f g, e.Fires R [f] g → FlaOf R v d f → I f → False)) →
      SafeFlex R st.edges (D2.insertNew e.tgt .tt) ∧
      (∀ p, st.edges.Vertex p → G'.Vertex p ∨ ((D2.insertNew e.tgt .tt).get p).isSome) ∧
      ∀ p, (D.get p).isSome → ((D2.insertNew e.tgt .tt).get p).isSome := by
    rintro D2 ⟨d2, h2, hcl, hoth, I, hI, hin, hout⟩
    have hsome : ∀ p, (D2.get p).isSome → (D2.insertNew e.tgt .tt).get p = D2.get p := by
      intro p hp
      rw [Defs.get_insertNew]
      split
      · rename_i h; rw [h.1, h.2] at hp; simp at hp
      · rfl
    have hDp : ∀ p, (D.get p).isSome → (D2.get p).isSome := by
      intro p hp
      by_cases hpv : p = v
      · subst hpv; rw [h2]; rfl
      · rw [hoth p hpv]; exact hp
    have hg2 : ∀ p, p ≠ v → (D.get p).isSome → (D2.insertNew e.tgt .tt).get p = D.get p := by
      intro p hpv hp
      rw [hsome p (hDp p hp), hoth p hpv]
    have hgv : (D2.insertNew e.tgt .tt).get v = some d2 := by rw [hsome v (by rw [h2]; rfl), h2]
    refine ⟨⟨?_, ?_, ?_, ?_, ?_⟩, ?_, ?_⟩
    · intro p x hx
      rw [Defs.get_insertNew] at hx
      split at hx
      · cases hx; simp [Fla.vars]
      · by_cases hpv : p = v
        · subst hpv; rw [h2] at hx; cases hx; exact hcl
        · rw [hoth p hpv] at hx; exact hD.closed p x hx
    · rw [hg2 .tru (Ne.symm hv) (by rw [hD.tru]; rfl)]; exact hD.tru
    · rw [hg2 .fls (Ne.symm hvf) (by rw [hD.fls]; rfl)]; exact hD.fls
    · intro p hp
      rw [Defs.get_insertNew] at hp
      split at hp
      · rename_i h; rw [h.1]; exact .inl (vertex_tgt he)
      · by_cases hpv : p = v
        · subst hpv; exact .inl hvv
        · rw [hoth p hpv] at hp
          exact (hD.only p hp).imp_left fun h => h.mono fun x hx => ((hmem x).1 hx).1
    · refine fun M2 hM2 => flex_strengthen (v := v) (e := e) (I := I) (Mv := FlaOf R v d) ⟨hv, hvf⟩ hs
        (fun q hq hqe => (hmem q).2 ⟨hq, hqe⟩) hD (fun hsome f hf => ?_) hg2 (by rw [hgv]; rfl) (fun f hf => ?_) ?_ ?_ M2 hM2
      · have : D.get v = some d := by
          rw [Defs.get_insertNew] at hd
          split at hd
          · rename_i h; rw [h.2] at hsome; simp at hsome
          · exact hd
        exact (interp_flaOf this hf).symm
      · rw [interp_flaOf hgv hf]; exact hI f hf
      · intro M _ _ q hq hqt b f hf _
        exact hin q hq hqt b f hf
      · intro M _ hMv f g hf hMf hIf
        have hfv : f.1 = v := by
          obtain ⟨ρ, _, rfl, _⟩ := fires_single hs hf; rfl
        exact (hout f g hf ((hMv f hfv).1 hMf) hIf).elim
    · rintro p ⟨q, hq, hqp⟩
      by_cases hqe : q = e
      · subst hqe
        right
        rcases hqp with rfl | hqp
        · exact get_insertNew_self
        · rw [hs] at hqp
          simp at hqp
          subst hqp
          rw [hgv]; rfl
      · exact .inl ⟨q, (hmem q).2 ⟨hq, hqe⟩, hqp⟩
    · intro p hp
      rw [hsome p (hDp p hp)]
      exact hDp p hp
  have hins : ∀ p, p ≠ v → (D.insertNew v .tt).get p = D.get p := fun p hp => get_insertNew_ne hp
  have hset : ∀ (x : Fla T), ((D.insertNew v .tt).set v x).get v = some x ∧
      ∀ p, p ≠ v → ((D.insertNew v .tt).set v x).get p = D.get p := by
    intro x
    refine ⟨?_, fun p hp => ?_⟩
    · rw [Defs.get_set]; simp [hd]
    · rw [Defs.get_set]; simp only [hp, false_and, if_false]; exact hins p hp
  by_cases hem : (st.edges.inEdges v).isEmpty
  · rw [if_pos hem] at h
    simp only [Outcome.done.injEq, Option.some.injEq] at h
    subst h
    refine key _ ⟨.ff, (hset .ff).1, by simp [Fla.vars], (hset .ff).2, fun _ => False, ?_, ?_, ?_⟩
    · intro f _
      simp only [and_false, iff_false]
      rintro ⟨ρ, _, h⟩
      exact h
    · intro q hq hqt b f _
      have : q ∈ st.edges.inEdges v := mem_inEdges.2 ⟨hq, hqt⟩
      rw [List.isEmpty_iff] at hem
      rw [hem] at this
      simp at this
    · exact fun _ _ _ _ h => h
  · rw [if_neg hem, hd] at h
    simp only at h
    by_cases hff : d = .ff
    · rw [if_pos hff] at h
      simp only [Outcome.done.injEq, Option.some.injEq] at h
      subst h
      refine key _ ⟨d, hd, hdv, hins, fun _ => True, by simp, by simp, ?_⟩
      rintro f g _ ⟨ρ, _, h⟩ _
      rw [hff] at h
      exact h
    · rw [if_neg hff] at h
      cases hi : inlineItp S R v (Fla.disj ((st.edges.inEdges v).map Edge.fla)) e.fla with
      | thrown => rw [hi] at h; simp at h
      | outOfFuel => rw [hi] at h; simp at h
      | done i =>
        rw [hi] at h
        simp only [Outcome.done.injEq, Option.some.injEq] at h
        subst h
        have hq : ItpQuery R v (Fla.disj ((st.edges.inEdges v).map Edge.fla)) e.fla := by
          refine inline_query hR hst.ok he hs hplain (fun x hx => .inl ?_) fun x hx => .inl hx
          obtain ⟨f, hf, hx⟩ := Fla.mem_vars_disj.1 hx
          obtain ⟨q, hq, rfl⟩ := List.mem_map.1 hf
          exact ⟨q, hq, hx⟩
        obtain ⟨i1, i2, i3⟩ := inlineItp_spec hS hR hq hi
        refine key _ ⟨.and d i, (hset _).1, ?_, (hset _).2, FlaOf R v i, fun f _ => flaOf_and i1, ?_, ?_⟩
        · intro x hx
          simp only [Fla.vars, List.mem_append] at hx
          exact hx.elim (hdv x) (i1 x)
        · intro q hq hqt b f hf
          obtain ⟨ρ, hl, _, rfl⟩ := hf
          have := flaOf_tgt hR (i := i) (ρ := ρ) (v := v) fun ρ' hρ' => i2 ρ ρ' (by
            rw [Fla.holds_disj]
            exact ⟨q.fla, List.mem_map_of_mem (mem_inEdges.2 ⟨hq, hqt⟩), hl⟩) hρ'
          unfold Edge.tgtFact
          rw [hqt]
          exact this
        · intro f g hf _ hI
          obtain ⟨ρ, hl, rfl, _⟩ := fires_single hs hf
          obtain ⟨ρ', h1, h2⟩ := hI
          exact i3 ρ ρ' h2 h1 hl

theorem inlineSafeDel_total {S : Smt T} (hS : S.Sound) (hSC : S.Complete) (hR : R.WF) (hs : e.src = [v])
    (hb : ∀ p ∈ st.edges.inEdges v, Blocks R v p e) (D : Defs T) :
    ∃ D', inlineSafeDel S R e (st.edges.inEdges v) D = .done (some D') := by
  unfold inlineSafeDel
  rw [hs]
  simp only
  obtain ⟨d, hd⟩ : ∃ d, (D.insertNew v .tt).get v = some d := Option.isSome_iff_exists.1 get_insertNew_self
  obtain ⟨i, hi⟩ := inlineItp_total hS hSC hR (v := v) (A := Fla.disj ((st.edges.inEdges v).map Edge.fla)) (B := e.fla) (by
    intro ρ ρ' hA hB
    rw [Fla.holds_disj] at hA
    obtain ⟨f, hf, hh⟩ := hA
    obtain ⟨q, hq, rfl⟩ := List.mem_map.1 hf
    exact hb q hq ρ ρ' hh hB)
  rw [hd]
  simp only [hi]
  split
  · exact ⟨_, rfl⟩
  · rename_i hno
    exfalso
    split at hno
    · exact hno _ rfl
    · split at hno
      · exact hno _ rfl
      · exact hno _ rfl

/-! ### A replacement -/

theorem vars_inlineIncoming {u : Pred} {p : Edge T} (hpu : st.edges.Vertex u) {D : Defs T} (hD : D.Closed R) {du : Fla T}
    (hdu : D.get u = some du) (hp : p ∈ st.edges.inEdges v) {x : Var}
    (hx : x ∈ (Fla.disj ((st.edges.inEdges v).map (inlineIncoming du p))).vars) :
    (∃ q ∈ st.edges.inEdges v, x ∈ q.fla.vars) ∨ ∃ u, st.edges.Vertex u ∧ x ∈ R.srcVars u 0 := by
  obtain ⟨f, hf, hx⟩ := Fla.mem_vars_disj.1 hx
  obtain ⟨q, hq, rfl⟩ := List.mem_map.1 hf
  unfold inlineIncoming at hx
  split at hx
  · simp only [Fla.vars, List.mem_append] at hx
    rcases hx with hx | hx
    · exact .inr ⟨u, hpu, rename_src_vars hD hdu hx⟩
    · exact .inl ⟨p, hp, hx⟩
  · exact .inl ⟨q, hq, hx⟩

theorem inlineSafeRepl_flex {S : Smt T} (hS : S.Sound) (hR : R.WF) (hst : st.Inv R) {n p : Edge T} {u : Pred}
    (hp : MergePair st.edges u p e) (hs : e.src = [p.tgt]) (hv : p.tgt ≠ .tru) (hM : Merged R u n p e)
    (hid : n.id = st.freeId) (hplain : PlainLoop R e) {G' : Graph T} (hG' : G' = deleteEdges (st.edges ++ [n]) [e.id])
    {D D' : Defs T} (hD : SafeFlex R G' D)
    (h : inlineSafeRepl S R e p (st.edges.inEdges p.tgt) D = .done (some D')) :
    SafeFlex R st.edges D' ∧ (∀ q, st.edges.Vertex q → G'.Vertex q ∨ (D'.get q).isSome) ∧
      ∀ q, (D.get q).isSome → (D'.get q).isSome := by
  have hvf : p.tgt ≠ .fls := by
    intro hf
    exact (hst.ends e hp.mo).2 (by rw [hs, hf]; simp)
  have hvu : st.edges.Vertex u := vertex_src hp.mi (by rw [hp.isrc]; simp)
  have hpin : p ∈ st.edges.inEdges p.tgt := mem_inEdges.2 ⟨hp.mi, rfl⟩
  have hmem : ∀ x, x ∈ G' ↔ (x ∈ st.edges ∧ x ≠ e) ∨ x = n := by
    intro x; rw [hG']; exact mem_replaceEdge hst hp.mo hid
  unfold inlineSafeRepl at h
  rw [hp.isrc, hs] at h
  simp only at h
  cases hdu : D.get u with
  | none => rw [hdu] at h; simp at h
  | some du =>
  cases hdm : D.get p.tgt with
  | none => rw [hdu, hdm] at h; simp at h
  | some dm =>
  cases hdt : D.get e.tgt with
  | none => rw [hdu, hdm, hdt] at h; simp at h
  | some dt =>
  rw [hdu, hdm, hdt] at h
  simp only [if_neg hp.ne] at h
  cases hi : inlineItp S R p.tgt (Fla.disj ((st.edges.inEdges p.tgt).map (inlineIncoming du p)))
      (.and e.fla (.not (dt.rename toTgt))) with
  | thrown => rw [hi] at h; simp at h
  | outOfFuel => rw [hi] at h; simp at h
  | done i =>
  rw [hi] at h
  simp only [Outcome.done.injEq, Option.some.injEq] at h
  subst h
  have hq : ItpQuery R p.tgt (Fla.disj ((st.edges.inEdges p.tgt).map (inlineIncoming du p)))
      (.and e.fla (.not (dt.rename toTgt))) := by
    refine inline_query hR hst.ok hp.mo hs hplain (fun x hx => vars_inlineIncoming hvu hD.closed hdu hpin hx) fun x hx => ?_
    simp only [Fla.vars, List.mem_append] at hx
    rcases hx with hx | hx
    · exact .inl hx
    · exact .inr (rename_tgt_vars hD.closed hdt hx)
  obtain ⟨i1, i2, i3⟩ := inlineItp_spec hS hR hq hi
  have hgv : (D.set p.tgt (.and dm i)).get p.tgt = some (.and dm i) := by rw [Defs.get_set]; simp [hdm]
  have hgo : ∀ q, q ≠ p.tgt → (D.set p.tgt (.and dm i)).get q = D.get q := by
    intro q hq; rw [Defs.get_set]; simp [hq]
  have hsome : ∀ q, (D.get q).isSome → ((D.set p.tgt (.and dm i)).get q).isSome := by
    intro q hq
    by_cases hqv : q = p.tgt
    · subst hqv; rw [hgv]; rfl
    · rw [hgo q hqv]; exact hq
  refine ⟨⟨?_, ?_, ?_, ?_, ?_⟩, ?_, hsome⟩
  · intro q x hx
    by_cases hqv : q = p.tgt
    · subst hqv
      rw [hgv] at hx
      cases hx
      intro y hy
      simp only [Fla.vars, List.mem_append] at hy
      exact hy.elim (hD.closed _ _ hdm y) (i1 y)
    · rw [hgo q hqv] at hx; exact hD.closed q x hx
  · rw [hgo _ (Ne.symm hv)]; exact hD.tru
  · rw [hgo _ (Ne.symm hvf)]; exact hD.fls
  · intro q hq
    have hq' : (D.get q).isSome := by
      by_cases hqv : q = p.tgt
      · subst hqv; rw [hdm]; rfl
      · rw [hgo q hqv] at hq; exact hq
    refine (hD.only q hq').imp_left ?_
    rintro ⟨x, hx, hxq⟩
    rcases (hmem x).1 hx with ⟨hx, _⟩ | rfl
    · exact ⟨x, hx, hxq⟩
    · rw [hM.tgt, hM.single hs] at hxq
      rcases hxq with rfl | hxq
      · exact vertex_tgt hp.mo
      · simp at hxq; subst hxq; exact hvu
  · refine fun M2 hM2 => flex_strengthen (v := p.tgt) (e := e) (I := FlaOf R p.tgt i) (Mv := FlaOf R p.tgt dm) ⟨hv, hvf⟩ hs
      (fun q hq hqe => (hmem q).2 (.inl ⟨hq, hqe⟩)) hD (fun _ f hf => (interp_flaOf hdm hf).symm) (fun q hqv _ => hgo q hqv)
      (by rw [hgv]; rfl) (fun f hf => by rw [interp_flaOf hgv hf, flaOf_and i1]) ?_ ?_ M2 hM2
    · intro M hMa hMv q hq hqt b f hf hb
      obtain ⟨ρ, hl, rfl, rfl⟩ := hf
      have hqin : q ∈ st.edges.inEdges p.tgt := mem_inEdges.2 ⟨hq, hqt⟩
      have := flaOf_tgt hR (i := i) (ρ := ρ) (v := p.tgt) fun ρ' hρ' => i2 ρ ρ' (by
        rw [Fla.holds_disj]
        refine ⟨inlineIncoming du p q, List.mem_map_of_mem hqin, ?_⟩
        unfold inlineIncoming
        split
        · rename_i hid'
          obtain rfl := ids_inj hst.ok.ids hq hp.mi hid'
          rw [Fla.holds_and]
          refine ⟨?_, hl⟩
          rw [← Defs.interp_src hdu (hD.closed _ _ hdu)]
          refine (hMa _ (by rw [hdu]; rfl)).1 (hb _ ?_)
          unfold Edge.srcFacts
          rw [hp.isrc, instances_one]
          simp
        · exact hl) hρ'
      unfold Edge.tgtFact
      rw [hqt]
      exact this
    · intro M hMa hMv f g hf hMf hI
      obtain ⟨ρ, hl, rfl, rfl⟩ := fires_single hs hf
      obtain ⟨ρ', h1, h2⟩ := hI
      have hnB := i3 ρ ρ' h2 h1
      rw [Fla.holds_and, Fla.holds_not] at hnB
      have : (dt.rename toTgt).holds ρ := Classical.byContradiction fun h => hnB ⟨hl, h⟩
      rw [← Defs.interp_tgt hdt (hD.closed _ _ hdt)] at this
      exact (hMa _ (by rw [hdt]; rfl)).2 this
  · rintro q ⟨x, hx, hxq⟩
    by_cases hxe : x = e
    · subst hxe
      right
      rcases hxq with rfl | hxq
      · exact hsome _ (by rw [hdt]; rfl)
      · rw [hs] at hxq
        simp at hxq
        subst hxq
        exact hsome _ (by rw [hdm]; rfl)
    · exact .inl ⟨x, (hmem x).2 (.inl ⟨hx, hxe⟩), hxq⟩

theorem inlineSafeRepl_total {S : Smt T} (hS : S.Sound) (hSC : S.Complete) (hR : R.WF) (hst : st.Inv R) {n p : Edge T} {u : Pred}
    (hp : MergePair st.edges u p e) (hs : e.src = [p.tgt]) (hM : Merged R u n p e) (hid : n.id = st.freeId)
    (hb : ∀ q ∈ st.edges.inEdges p.tgt, q ≠ p → Blocks R p.tgt q e) {G' : Graph T}
    (hG' : G' = deleteEdges (st.edges ++ [n]) [e.id]) {D : Defs T} (hD : SafeWitness R G' D) :
    ∃ D', inlineSafeRepl S R e p (st.edges.inEdges p.tgt) D = .done (some D') := by
  have hmem : ∀ x, x ∈ G' ↔ (x ∈ st.edges ∧ x ≠ e) ∨ x = n := by
    intro x; rw [hG']; exact mem_replaceEdge hst hp.mo hid
  have hn : n ∈ G' := (hmem n).2 (.inr rfl)
  obtain ⟨du, hdu⟩ := Option.isSome_iff_exists.1 (hD.complete u (vertex_src hn (by rw [hM.single hs]; simp)))
  obtain ⟨dm, hdm⟩ := Option.isSome_iff_exists.1 (hD.complete p.tgt (vertex_tgt ((hmem p).2 (.inl ⟨hp.mi, hp.dist⟩))))
  obtain ⟨dt, hdt⟩ := Option.isSome_iff_exists.1 (hD.complete e.tgt (hM.tgt ▸ vertex_tgt hn))
  obtain ⟨i, hi⟩ := inlineItp_total hS hSC hR (v := p.tgt)
    (A := Fla.disj ((st.edges.inEdges p.tgt).map (inlineIncoming du p))) (B := .and e.fla (.not (dt.rename toTgt))) (by
      intro ρ ρ' hA hB heq
      rw [Fla.holds_disj] at hA
      rw [Fla.holds_and, Fla.holds_not, ← Defs.interp_tgt hdt (hD.closed _ _ hdt)] at hB
      obtain ⟨f, hf, hh⟩ := hA
      obtain ⟨q, hq, rfl⟩ := List.mem_map.1 hf
      unfold inlineIncoming at hh
      split at hh
      · rw [Fla.holds_and, ← Defs.interp_src hdu (hD.closed _ _ hdu)] at hh
        have h1 : p.Fires R [(u, (R.srcVars u 0).map ρ)] (p.tgt, (R.tgtVars p.tgt).map ρ) :=
          ⟨ρ, hh.2, by unfold Edge.srcFacts; rw [hp.isrc, instances_one]; rfl, rfl⟩
        have h2 : e.Fires R [(p.tgt, (R.tgtVars p.tgt).map ρ)] (e.tgt, (R.tgtVars e.tgt).map ρ') :=
          ⟨ρ', hB.1, by unfold Edge.srcFacts; rw [hs, instances_one, heq]; rfl, rfl⟩
        have h3 := (hM.fires_two hR hp.isrc hs).2 ⟨_, h1, h2⟩
        exact hB.2 (hD.model.1.2 _ (h3.rule hn) (by simpa using hh.1))
      · rename_i hne
        exact hb q hq (fun h => hne (h ▸ rfl)) ρ ρ' hh hB.1 heq)
  unfold inlineSafeRepl
  rw [hp.isrc, hs]
  simp only [hdu, hdm, hdt, if_neg hp.ne, hi]
  exact ⟨_, rfl⟩

end

/-! ### The whole translation -/

section
variable {R : PRepr} {st st' : GS T} {es : List (InlineEntry T)}

theorem InlineRun.safeLoop {S : Smt T} (hS : S.Sound) (hR : R.WF) (h : InlineRun R st es st')
    (hplain : ∀ en ∈ es, PlainLoop R en.removed) {D D' : Defs T} (hD : SafeFlex R st'.edges D)
    (hr : inlineSafeLoop S R es D = .done (some D')) :
    SafeFlex R st.edges D' ∧ (SafeWitness R st'.edges D → SafeWitness R st.edges D') := by
  suffices hsuf : SafeFlex R st.edges D' ∧
      (∀ q, st.edges.Vertex q → Graph.Vertex st'.edges q ∨ (D'.get q).isSome) ∧ ∀ q, (D.get q).isSome → (D'.get q).isSome by
    refine ⟨hsuf.1, fun hw => hsuf.1.complete fun q hq => ?_⟩
    exact (hsuf.2.1 q hq).elim (fun h => hsuf.2.2 q (hw.complete q h)) id
  induction h generalizing D' with
  | nil => cases hr; exact ⟨hD, fun _ h => .inl h, fun _ h => h⟩
  | @del st st1 st' es e v hst he hs hv hb h1 hf rest ih =>
    unfold inlineSafeLoop at hr
    split at hr
    · rename_i D1 hD1
      obtain ⟨a1, a2, a3⟩ := ih (fun en hen => hplain en (by simp [hen])) hD hD1
      obtain ⟨b1, b2, b3⟩ := inlineSafeDel_flex hS hR hst he hs hv (hplain _ (List.mem_cons_self ..)) h1 a1 hr
      exact ⟨b1, fun q hq => (b2 q hq).elim (fun h => (a2 q h).imp_right (b3 q)) .inr, fun q hq => b3 q (a3 q hq)⟩
    · rename_i hno
      exact absurd hr (hno D')
  | @repl st st1 st' es n e p u hst hp hs hv hb hM hid h1 hf rest ih =>
    unfold inlineSafeLoop at hr
    split at hr
    · rename_i D1 hD1
      obtain ⟨a1, a2, a3⟩ := ih (fun en hen => hplain en (by simp [hen])) hD hD1
      obtain ⟨b1, b2, b3⟩ := inlineSafeRepl_flex hS hR hst hp hs hv hM hid (hplain _ (List.mem_cons_self ..)) h1 a1 hr
      exact ⟨b1, fun q hq => (b2 q hq).elim (fun h => (a2 q h).imp_right (b3 q)) .inr, fun q hq => b3 q (a3 q hq)⟩
    · rename_i hno
      exact absurd hr (hno D')

theorem InlineRun.safeLoop_total {S : Smt T} (hS : S.Sound) (hSC : S.Complete) (hR : R.WF) (h : InlineRun R st es st')
    (hplain : ∀ en ∈ es, PlainLoop R en.removed) {D : Defs T} (hD : SafeWitness R st'.edges D) :
    ∃ D', inlineSafeLoop S R es D = .done (some D') := by
  induction h with
  | nil => exact ⟨D, rfl⟩
  | @del st st1 st' es e v hst he hs hv hb h1 hf rest ih =>
    obtain ⟨D1, hD1⟩ := ih (fun en hen => hplain en (by simp [hen])) hD
    unfold inlineSafeLoop
    simp only [hD1]
    exact inlineSafeDel_total hS hSC hR hs hb D1
  | @repl st st1 st' es n e p u hst hp hs hv hb hM hid h1 hf rest ih =>
    obtain ⟨D1, hD1⟩ := ih (fun en hen => hplain en (by simp [hen])) hD
    have hw := (rest.safeLoop hS hR (fun en hen => hplain en (by simp [hen])) hD.flex hD1).2 hD
    unfold inlineSafeLoop
    simp only [hD1]
    exact inlineSafeRepl_total hS hSC hR hst hp hs hM hid hb h1 hw

/-- The inliner adds no vertices. -/
theorem InlineRun.vertex (h : InlineRun R st es st') {q : Pred} (hq : Graph.Vertex st'.edges q) : st.edges.Vertex q := by
  induction h with
  | nil => exact hq
  | @del st st1 st' es e v hst he hs hv hb h1 hf rest ih =>
    refine (ih hq).mono fun x hx => ?_
    rw [h1, mem_deleteEdge hst he] at hx
    exact hx.1
  | @repl st st1 st' es n e p u hst hp hs hv hb hM hid h1 hf rest ih =>
    obtain ⟨x, hx, hxq⟩ := ih hq
    rw [h1, mem_replaceEdge hst hp.mo hid] at hx
    rcases hx with ⟨hx, _⟩ | rfl
    · exact ⟨x, hx, hxq⟩
    · rw [hM.tgt, hM.single hs] at hxq
      rcases hxq with rfl | hxq
      · exact vertex_tgt hp.mo
      · simp at hxq; subst hxq; exact vertex_src hp.mi (by rw [hp.isrc]; simp)

end

end Golem
