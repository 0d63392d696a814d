import Verif.Lemmas.TPANetSearch

/-! # C62: the network of transition systems of TPA answers correctly -/

namespace Golem
variable {T : Theory} {X : NetEnv T} {R : PRepr} {G : LGraph T}

theorem getVertices_nodup (G : LGraph T) : (getVertices G).Nodup := by
  unfold getVertices
  have h := foldl_insert_sorted ((G.flatMap fun e => [e.src, e.tgt]).filterMap Pred.num) [] List.Pairwise.nil
  have h' : (((G.flatMap fun e => [e.src, e.tgt]).filterMap Pred.num).foldl (fun l p => insertPred p l) []).Nodup :=
    h.imp fun h => Nat.ne_of_lt h
  simp only [List.nodup_cons, List.mem_cons, reduceCtorEq, List.mem_map, false_or, exists_false, and_false, not_false_eq_true,
    true_and]
  exact nodup_map_of_inj (by intro a b h; cases h; rfl) h'

theorem mem_getVertices_iff {p : Pred} (h1 : p ≠ .tru) (h2 : p ≠ .fls) : p ∈ getVertices G ↔ G.Vertex p := by
  constructor
  · intro h
    exact (mem_loopVertices.1 (by simp only [loopVertices, List.mem_filter, Bool.and_eq_true, decide_eq_true_eq]; exact ⟨h, h1, h2⟩)).1
  · rintro ⟨e, he, rfl | rfl⟩
    · exact (mem_getVertices he).2
    · exact (mem_getVertices he).1

/-- The result of the network when the search has ended. -/
theorem netSolve_cases (hX : X.Ok) (hR : R.WF) (hl : ∀ e ∈ G, e.LabelOk R) {w : Bool} {res : VerificationResult T}
    (h : netSolve X R w G = .done res) :
    ∃ net r, initNetwork X.core X.simpT R G = some net ∧ netLoop X R X.fuel [.post .tru .tt] net = .done r ∧ r.Ok X R G ∧
      match (generalizing := false) r with
      | .found path net' => res.answer = .unsafeAns ∧ (w = false → res.witness = .none) ∧
          (w = true → ∃ ids ds, netErrorPath G net' path = some ids ∧ fromErrorPath X.V.S R G ids = .done ds ∧ res.witness = .invalidity ds)
      | .exhausted net' => res.answer = .safe ∧ (w = false → res.witness = .none) ∧
          (w = true → ∃ D, netDefs X R net' (getVertices G) = .done D ∧
            res.witness = match D with | some D => .validity (trivialDefinitions ++ D) | none => .none) := by
  unfold netSolve at h
  simp only [Outcome.andThen_done] at h
  obtain ⟨net, hn, r, hr, h⟩ := h
  have hn : initNetwork X.core X.simpT R G = some net := by
    revert hn
    cases initNetwork X.core X.simpT R G with
    | none => intro h; cases h
    | some n => intro h; cases h; rfl
  refine ⟨net, r, hn, hr, netLoop_ok hX hR _ _ _ _ (initNetwork_inv hX hR hl hn) hr, ?_⟩
  cases r with
  | found path net' =>
    simp only at h ⊢
    split at h
    · rename_i hw
      simp only [Outcome.andThen_done, Outcome.done.injEq] at h
      obtain ⟨ids, hids, ds, hds, rfl⟩ := h
      have hids : netErrorPath G net' path = some ids := by
        revert hids
        cases netErrorPath G net' path with
        | none => intro h; cases h
        | some n => intro h; cases h; rfl
      exact ⟨rfl, fun h => (by rw [hw] at h; cases h), fun _ => ⟨ids, ds, hids, hds, rfl⟩⟩
    · rename_i hw
      simp only [Outcome.done.injEq] at h
      subst h
      exact ⟨rfl, fun _ => rfl, fun h => absurd h hw⟩
  | exhausted net' =>
    simp only at h ⊢
    split at h
    · rename_i hw
      simp only [Outcome.andThen_done] at h
      obtain ⟨D, hD, h⟩ := h
      cases D with
      | none =>
        simp only [Outcome.done.injEq] at h
        subst h
        exact ⟨rfl, fun _ => rfl, fun _ => ⟨none, hD, rfl⟩⟩
      | some D =>
        simp only [Outcome.done.injEq] at h
        subst h
        exact ⟨rfl, fun h => (by rw [hw] at h; cases h), fun _ => ⟨some D, hD, rfl⟩⟩
    · rename_i hw
      simp only [Outcome.done.injEq] at h
      subst h
      exact ⟨rfl, fun _ => rfl, fun h => absurd h hw⟩

theorem mapM_find_ids (hid : (G.map LEdge.id).Nodup) {es : List (LEdge T)} (h : ∀ e ∈ es, e ∈ G) :
    (es.map LEdge.id).mapM G.find = some es := by
  induction es with
  | nil => rfl
  | cons e es ih =>
    rw [List.map_cons, List.mapM_cons, LGraph.find_of_mem hid (h e (by simp)), ih fun e' he' => h e' (by simp [he'])]
    rfl

/-- **C62** When the network answers UNSAFE, false can be reached, and the witness derives it. Every graph; whatever the solver says,
as long as its answers are right. -/
theorem C62_unsafe (hX : X.Ok) (hR : R.WF) (hl : ∀ e ∈ G, e.LabelOk R) (hid : (G.map LEdge.id).Nodup) {w : Bool}
    {res : VerificationResult T} (h : netSolve X R w G = .done res) :
    (res.answer = .unsafeAns → G.Unsafe R ∧ (w = true → ∃ ds, res.witness = .invalidity ds)) ∧
    ∀ ds, res.witness = .invalidity ds → res.answer = .unsafeAns ∧ LUnsafeWitness R G ds := by
  obtain ⟨net, r, hn, hr, hok, h⟩ := netSolve_cases hX hR hl h
  cases r with
  | found path net' =>
    simp only at h
    obtain ⟨h1, h2, h3⟩ := h
    obtain ⟨e, g, path', rfl, hp⟩ := hok
    refine ⟨fun _ => ⟨?_, fun hw => ?_⟩, fun ds hds => ⟨h1, ?_⟩⟩
    · obtain ⟨b, hb⟩ := hp.overV.2
      obtain ⟨es, he, hf⟩ := hp.reach hR hb
      have : b = [] := by
        obtain ⟨ρ, _, e⟩ := hb
        simpa [PathEntry.vertex, PRepr.stateVars, hR.fls] using e.symm
      subst this
      exact ⟨es, he, hf⟩
    · obtain ⟨_, ds, _, _, hds⟩ := h3 hw
      exact ⟨ds, hds⟩
    · have hw : w = true := by
        cases w with
        | true => rfl
        | false => rw [h2 rfl] at hds; cases hds
      obtain ⟨ids, ds', hids, hfe, hds'⟩ := h3 hw
      rw [hds] at hds'
      cases hds'
      rw [netErrorPath_eq, Option.map_eq_some_iff] at hids
      obtain ⟨es, hes, rfl⟩ := hids
      obtain ⟨hG, hch⟩ := hp.chained
      have hmem := netExpand_mem hG hes
      have hc := netExpand_chained hch hes
      have hne : es.map LEdge.id ≠ [] := by
        intro h
        simp only [List.map_eq_nil_iff] at h
        subst h
        have := chained_nil.1 hc
        simp [PathEntry.vertex] at this
      exact (C27_fromErrorPath_sound hX.V.S hR (mapM_find_ids hid hmem) hne hc hfe).1
  | exhausted net' =>
    simp only at h
    obtain ⟨h1, h2, h3⟩ := h
    refine ⟨fun h => (by rw [h1] at h; cases h), fun ds hds => ?_⟩
    cases w with
    | false => rw [h2 rfl] at hds; cases hds
    | true =>
      obtain ⟨D, _, hD⟩ := h3 rfl
      rw [hds] at hD
      cases D <;> cases hD

/-- **C62** When the network answers SAFE, false cannot be reached, and the witness is an inductive interpretation of all vertices. -/
theorem C62_safe (hX : X.Ok) (hc : X.V.S.Complete) (hQ : X.V.Q.Exact) (hK : X.V.K.Exact) (hR : R.WF) (hl : ∀ e ∈ G, e.LabelOk R)
    (hone : G.OneLoop) {w : Bool} {res : VerificationResult T} (h : netSolve X R w G = .done res) :
    (res.answer = .safe → ¬ G.Unsafe R ∧ (w = true → ∃ D, res.witness = .validity D)) ∧
    ∀ D, res.witness = .validity D → res.answer = .safe ∧ LSafeWitness R G D := by
  obtain ⟨net, r, hn, hr, hok, h⟩ := netSolve_cases hX hR hl h
  cases r with
  | found path net' =>
    simp only at h
    obtain ⟨h1, h2, h3⟩ := h
    refine ⟨fun h => (by rw [h1] at h; cases h), fun D hD => ?_⟩
    cases w with
    | false => rw [h2 rfl] at hD; cases hD
    | true =>
      obtain ⟨_, ds, _, _, hds⟩ := h3 rfl
      rw [hD] at hds; cases hds
  | exhausted net' =>
    simp only at h
    obtain ⟨h1, h2, h3⟩ := h
    have hok : NetInv X R G net' [] := hok
    have key : w = true → ∃ D, res.witness = .validity D ∧ LSafeWitness R G D := by
      intro hw
      obtain ⟨D, hD, hwit⟩ := h3 hw
      obtain ⟨D', rfl, hdom, hdef⟩ := netDefs_ok hX hQ hK hc hR hok _ _ hD (getVertices_nodup G)
      refine ⟨_, hwit, ?_⟩
      have hgt : Defs.get (trivialDefinitions ++ D') .tru = some .tt := rfl
      have hgf : Defs.get (trivialDefinitions ++ D') .fls = some .ff := rfl
      have hgo : ∀ p, p ≠ .tru → p ≠ .fls → Defs.get (trivialDefinitions ++ D') p = Defs.get D' p := by
        intro p h1 h2
        simp only [trivialDefinitions, List.cons_append, List.nil_append, Defs.get_cons, if_neg h1, if_neg h2]
      refine ⟨?_, hgt, hgf, ?_, ?_, ?_⟩
      · intro p d hd x hx
        by_cases h1 : p = .tru
        · subst h1; rw [hgt] at hd; cases hd; simp [Fla.vars] at hx
        · by_cases h2 : p = .fls
          · subst h2; rw [hgf] at hd; cases hd; simp [Fla.vars] at hx
          · rw [hgo p h1 h2] at hd
            exact (hdef p d hd).1 x hx
      · have hJ : NetClosed R G net' (fun v b => Defs.interp R (trivialDefinitions ++ D') (v, b) ∧ (Defs.get D' v).isSome ∨
            (Defs.get D' v) = none ∧ False) := by
          have hd : ∀ v, v ≠ .tru → v ≠ .fls → ∀ b, Defs.interp R (trivialDefinitions ++ D') (v, b) → ∃ d, Defs.get D' v = some d ∧
              ∃ ρ : Valuation T, (R.baseVars v).map ρ = b ∧ d.holds ρ := by
            rintro v h1 h2 b ⟨d, hd, h⟩
            simp only [hgo v h1 h2] at hd
            exact ⟨d, hd, h⟩
          have hi : ∀ v, v ≠ .tru → v ≠ .fls → ∀ b d, Defs.get D' v = some d → (∃ ρ : Valuation T, (R.baseVars v).map ρ = b ∧ d.holds ρ) →
              Defs.interp R (trivialDefinitions ++ D') (v, b) := by
            intro v h1 h2 b d hd h
            exact ⟨d, by simp only [hgo v h1 h2]; exact hd, h⟩
          refine ⟨fun v a h1 h2 ha => ?_, fun v a b h1 h2 ha hst => ?_, fun v a h1 h2 ha => ?_⟩
          · left
            have hv : v ∈ getVertices G := by
              have hx := (hok.comp hc).1.loops v 0 a a ha (.refl _)
              have hw := (hok.comp hc).1.walk v a hx
              rw [mem_getVertices_iff h1 h2]
              cases hw with
              | refl => exact absurd rfl h1
              | snoc _ he =>
                simp only [LGraph.succ, List.mem_map] at he
                obtain ⟨e, he, rfl⟩ := he
                exact ⟨e, (mem_out.1 he).1, .inl rfl⟩
            have hs := (hdom v).2 ⟨hv, h1, h2⟩
            obtain ⟨d, hd'⟩ := Option.isSome_iff_exists.1 hs
            obtain ⟨_, J, j1, j2, j3, j4⟩ := hdef v d hd'
            exact ⟨hi v h1 h2 a d hd' ((j1 a).2 (j2 a ha)), hs⟩
          · rcases ha with ⟨ha, hs⟩ | ⟨_, hf⟩
            · left
              obtain ⟨d, hd', ha⟩ := hd v h1 h2 a ha
              obtain ⟨_, J, j1, j2, j3, j4⟩ := hdef v d hd'
              exact ⟨hi v h1 h2 b d hd' ((j1 b).2 (j3 a b ((j1 a).1 ha) hst)), hs⟩
            · exact absurd hf id
          · rcases ha with ⟨ha, hs⟩ | ⟨_, hf⟩
            · obtain ⟨d, hd', ha⟩ := hd v h1 h2 a ha
              obtain ⟨_, J, j1, j2, j3, j4⟩ := hdef v d hd'
              exact j4 a ((j1 a).1 ha)
            · exact absurd hf id
        intro e he f g hfi hf
        have hfe : f = (e.src, f.2) := by obtain ⟨ρ, _, h1, _⟩ := hfi; rw [h1]; rfl
        have hge : g = (e.tgt, g.2) := by obtain ⟨ρ, _, _, h1⟩ := hfi; rw [h1]; rfl
        rw [hfe] at hf
        rw [hge]
        rw [hfe, hge] at hfi
        have hsf : e.src ≠ .fls := by
          intro h
          rw [h] at hf
          obtain ⟨d, hd, ρ, _, hh⟩ := hf
          rw [hgf] at hd
          cases hd
          exact hh
        obtain ⟨s1, s2⟩ := hJ.step hone hok hc hR he hfi ⟨hsf, fun h => by
          left
          refine ⟨hf, ?_⟩
          obtain ⟨d, hd, _⟩ := hf
          simp only [hgo e.src h hsf] at hd
          rw [hd]; rfl⟩
        by_cases ht : e.tgt = .tru
        · obtain ⟨ρ, _, _, h3⟩ := hfi
          rw [h3]
          refine ⟨.tt, by simp only [LEdge.tgtFact, ht]; exact hgt, ρ, ?_, trivial⟩
          simp [LEdge.tgtFact, ht, PRepr.baseVars, PRepr.nextVars, hR.tru]
        · rcases s2 ht with ⟨h, _⟩ | ⟨_, hf⟩
          · exact h
          · exact absurd hf id
      · intro p hp
        by_cases h1 : p = .tru
        · subst h1; rw [hgt]; rfl
        · by_cases h2 : p = .fls
          · subst h2; rw [hgf]; rfl
          · rw [hgo p h1 h2, hdom]
            exact ⟨(mem_getVertices_iff h1 h2).2 hp, h1, h2⟩
      · intro p hp
        by_cases h1 : p = .tru
        · exact .inr (.inl h1)
        · by_cases h2 : p = .fls
          · exact .inr (.inr h2)
          · rw [hgo p h1 h2, hdom] at hp
            exact .inl ((mem_getVertices_iff h1 h2).1 hp.1)
    refine ⟨fun _ => ⟨exhausted_safe hok hone hc hR, fun hw => ?_⟩, fun D hD => ⟨h1, ?_⟩⟩
    · obtain ⟨D, hD, _⟩ := key hw
      exact ⟨D, hD⟩
    · cases w with
      | false => rw [h2 rfl] at hD; cases hD
      | true =>
        obtain ⟨D', hD', hw⟩ := key rfl
        rw [hD] at hD'
        cases hD'
        exact hw

/-- **C62** Split TPA on an acyclic network: whenever the search finds a counterexample, the error path with the counted loop
iterations is feasible, so that the witness is produced. -/
theorem C62_unsafe_witness_total (hX : X.Ok) (hc : X.V.S.Complete) (hcore : X.core = .split) (hR : R.WF) (hl : ∀ e ∈ G, e.LabelOk R)
    (hid : (G.map LEdge.id).Nodup) (hrank : G.Ranked) (h : netSolve X R false G = .done ⟨.unsafeAns, .none⟩) :
    ∃ ds, netSolve X R true G = .done ⟨.unsafeAns, .invalidity ds⟩ := by
  obtain ⟨net, r, hn, hr, hok, h⟩ := netSolve_cases hX hR hl h
  cases r with
  | exhausted net' => simp only at h; cases h.1
  | found path net' =>
    obtain ⟨e, g, path', rfl, hp⟩ := hok
    obtain ⟨es, h1, h2⟩ := hp.reachExact ⟨hcore, hrank⟩ hR
    simp only at h1 h2
    have he : e.tgt = .fls := hp.preVertex.1
    have hexp : netExpand G (fun v => (net' v).steps) (extractPath (.pre .fls e g :: path')) = some (es ++ [e]) := by
      rw [extractPath_pre, netExpand_append]
      exact ⟨es, [e], h1, by simp [netExpand, he], rfl⟩
    obtain ⟨hG, hch⟩ := hp.chained
    have hmem := netExpand_mem hG hexp
    have hcc := netExpand_chained hch hexp
    obtain ⟨b, hb⟩ := hp.overV.2
    have hfe := h2 b hb
    have : b = [] := by
      obtain ⟨ρ, _, e⟩ := hb
      simpa [PathEntry.vertex, PRepr.stateVars, hR.fls] using e.symm
    subst this
    rcases C27_fromErrorPath_exact hX.V.S hc hR hl (mapM_find_ids hid hmem) (by simp) hcc with ⟨_, ds, hds⟩ | ⟨hnf, _⟩
    · refine ⟨ds, ?_⟩
      have hep : netErrorPath G net' (extractPath (.pre .fls e g :: path')) = some ((es ++ [e]).map LEdge.id) := by
        rw [netErrorPath_eq, hexp]; rfl
      simp only [netSolve, hn, hr, Outcome.orThrow, Outcome.andThen, hep, hds, if_true]
    · exact absurd hfe hnf

end Golem
