import Verif.Props.Hyper

/-! Back from linear graphs to hypergraphs, and what merging parallel edges leaves. -/

namespace Golem
variable {T : Theory}

theorem gaux_bound : ∀ l : List Var, ∃ K, ∀ k, (.ver (.gaux k) 0 ∈ l ∨ .ver (.auxg k) 0 ∈ l) → k < K
  | [] => ⟨0, by simp⟩
  | x :: l => by
    obtain ⟨K, hK⟩ := gaux_bound l
    have key : ∃ K', ∀ k, (x = .ver (.gaux k) 0 ∨ x = .ver (.auxg k) 0) → k < K' := by
      by_cases h : ∃ k, x = .ver (.gaux k) 0 ∨ x = .ver (.auxg k) 0
      · obtain ⟨k, h⟩ := h
        refine ⟨k + 1, fun j hj => ?_⟩
        rcases h with rfl | rfl <;> rcases hj with hj | hj <;> cases hj <;> omega
      · exact ⟨0, fun k hk => absurd ⟨k, hk⟩ h⟩
    obtain ⟨K', hK'⟩ := key
    refine ⟨max K K', fun k hk => ?_⟩
    simp only [List.mem_cons] at hk
    have : k < K ∨ k < K' := by
      rcases hk with (h | h) | (h | h)
      · exact .inr (hK' k (.inl h.symm))
      · exact .inl (hK k (.inl h))
      · exact .inr (hK' k (.inr h.symm))
      · exact .inl (hK k (.inr h))
    omega

section
variable {R : PRepr} {G : LGraph T}

/-- The variables of the label of a hyperedge made from a linear edge. -/
theorem toHyper_vars (hR : R.WF) {l : LEdge T} (hl : l.LabelOk R) {i : Nat} {x : Var} (hx : x ∈ (toHyperEdge R l i).fla.vars) :
    x ∈ R.own [l.src] l.tgt ∨ (R.AuxFor [l.src] x ∧ x ∈ l.fla.vars) := by
  rw [toHyperEdge, varSubstitute, Fla.mem_vars_subst] at hx
  obtain ⟨y, hy, hx⟩ := hx
  have nd : ∀ (p : Pred) (k : Int), ((R.args p).map (Var.ver · k)).Nodup := fun p k =>
    nodup_map_of_inj (fun _ _ h => by cases h; rfl) (hR.nodup p)
  rcases hl y hy with h | h | h
  · obtain ⟨n, hn, rfl⟩ := List.mem_map.1 h
    simp only [toHyperSubst, PRepr.stateVars] at hx
    rw [map_fn_zip _ _ _ (nd _ _) hn] at hx
    simp only [Tm.vars, List.mem_singleton] at hx
    subst hx
    refine .inl (mem_own.2 (.inl ⟨(l.src, 0), by rw [instances_single]; simp, R.mem_srcVars.2 ⟨n, hn, rfl⟩⟩))
  · obtain ⟨n, hn, rfl⟩ := List.mem_map.1 h
    simp only [toHyperSubst, PRepr.stateVars, PRepr.nextVars] at hx
    rw [fn_zip_skip _ _ _ (by intro m hm h; cases h), ← List.append_nil (List.zip _ _),
      map_fn_zip _ _ _ (nd _ _) hn] at hx
    simp only [Tm.vars, List.mem_singleton] at hx
    subst hx
    exact .inl (mem_own.2 (.inr (R.mem_tgtVars.2 ⟨n, hn, rfl⟩)))
  · have e1 : ∀ m ∈ R.args l.src, Var.ver m 0 ≠ y := by
      rintro m hm rfl
      exact h.not_state l.src (List.mem_map.2 ⟨m, hm, rfl⟩)
    have e2 : ∀ m ∈ R.args l.tgt, Var.ver m 1 ≠ y := by
      rintro m hm rfl
      exact h.not_next l.tgt (List.mem_map.2 ⟨m, hm, rfl⟩)
    simp only [toHyperSubst, PRepr.stateVars, PRepr.nextVars] at hx
    rw [fn_zip_skip _ _ _ e1, ← List.append_nil (List.zip _ _), fn_zip_skip _ _ _ e2, fn_nil] at hx
    simp only [Tm.vars, List.mem_singleton] at hx
    subst hx
    exact .inr ⟨h, hy⟩

/-- The hypergraph of a linear graph keeps the invariant of the hypergraph layer. -/
theorem toHyper_ok (hR : R.WF) (hl : ∀ e ∈ G, e.LabelOk R) (hid : (G.map LEdge.id).Nodup) (hd : G.AuxDisjoint R)
    (hs : ∀ e ∈ G, ∀ n, .src n 0 ∈ e.fla.vars → ∀ p, G.Vertex p → n ∉ R.args p) :
    ∃ K, GS.Ok R ⟨toHyperGraph R G, G.length, K, K⟩ := by
  obtain ⟨K, hK⟩ := gaux_bound ((toHyperGraph R G).flatMap fun e => e.fla.vars)
  have hK' : ∀ e ∈ toHyperGraph R G, ∀ k, (.ver (.gaux k) 0 ∈ e.fla.vars ∨ .ver (.auxg k) 0 ∈ e.fla.vars) → k < K := by
    intro e he k hk
    refine hK k ?_
    rcases hk with h | h
    · exact .inl (List.mem_flatMap.2 ⟨e, he, h⟩)
    · exact .inr (List.mem_flatMap.2 ⟨e, he, h⟩)
  have hv : ∀ p, (toHyperGraph R G).Vertex p → G.Vertex p := by
    rintro p ⟨e, he, h⟩
    obtain ⟨i, l, hi, rfl⟩ := mem_toHyperGraph.1 he
    refine ⟨l, List.mem_of_getElem? hi, ?_⟩
    simpa [toHyperEdge] using h
  have haux : ∀ l ∈ G, ∀ x ∈ l.fla.vars, R.AuxFor [l.src] x → (toHyperGraph R G).Aux R x := by
    rintro l hlG x hx (⟨n, rfl, hn⟩ | ⟨n, rfl, hn⟩)
    · exact .inl ⟨n, rfl, hn⟩
    · exact .inr ⟨n, rfl, fun p hp => hs l hlG n hx p (hv p hp)⟩
  refine ⟨K, ?_, ?_, ?_, ?_, ?_, ?_, ?_, ?_⟩
  · show ((toHyperGraph R G).map Edge.id).Nodup
    have : (toHyperGraph R G).map Edge.id = List.range' 0 G.length := by
      simp only [toHyperGraph, List.map_map]
      exact List.zipIdx_map_snd 0 G
    rw [this]
    exact List.nodup_range' ..
  · intro e he
    obtain ⟨i, l, hi, rfl⟩ := mem_toHyperGraph.1 he
    exact List.getElem?_lt hi
  · intro e he
    obtain ⟨i, l, hi, rfl⟩ := mem_toHyperGraph.1 he
    simp [toHyperEdge]
  · intro e he h1
    obtain ⟨i, l, hi, rfl⟩ := mem_toHyperGraph.1 he
    simp [toHyperEdge] at h1
  · intro e he x hx
    obtain ⟨i, l, hi, rfl⟩ := mem_toHyperGraph.1 he
    have hm := List.mem_of_getElem? hi
    rcases toHyper_vars hR (hl l hm) hx with h | ⟨h, hx⟩
    · exact .inl h
    · exact .inr (haux l hm x hx h)
  · intro e he e' he' hne x hx ha hx'
    have hv1 : ∀ s ∈ e.src, (toHyperGraph R G).Vertex s := fun s hs => vertex_src he hs
    have hv2 : ∀ s ∈ e'.src, (toHyperGraph R G).Vertex s := fun s hs => vertex_src he' hs
    obtain ⟨i, l, hi, rfl⟩ := mem_toHyperGraph.1 he
    obtain ⟨i', l', hi', rfl⟩ := mem_toHyperGraph.1 he'
    have hm := List.mem_of_getElem? hi
    have hm' := List.mem_of_getElem? hi'
    rcases toHyper_vars hR (hl l hm) hx with h | ⟨h, hx⟩
    · exact own_not_aux hR hv1 h ha
    rcases toHyper_vars hR (hl l' hm') hx' with h' | ⟨h', hx'⟩
    · exact own_not_aux hR hv2 h' ha
    refine hd l hm l' hm' ?_ x h hx hx'
    rintro rfl
    apply hne
    have : i = i' := by
      have h1 : (G.map LEdge.id)[i]? = (G.map LEdge.id)[i']? := by simp [hi, hi']
      exact (List.getElem?_inj (by simpa using List.getElem?_lt hi) hid).1 h1
    rw [this]
  · exact fun e he k hk => hK' e he k (.inl hk)
  · exact fun e he k hk => hK' e he k (.inr hk)

end

/-! ### Merging leaves no parallel edges -/

/-- After merging, an edge with a single source is determined by its source and target. -/
theorem merge_unique {G : Graph T} (hG : G.IdsNodup) {e e' : Edge T} {s t : Pred} (he : e ∈ (mergeMultiEdges G).1)
    (he' : e' ∈ (mergeMultiEdges G).1) (hs : e.src = [s]) (ht : e.tgt = t) (hs' : e'.src = [s]) (ht' : e'.tgt = t) : e = e' := by
  have recs : ∀ r ∈ mergedRecords G, r.2.src = [s] → r.2.tgt = t → ∃ a b l, bucket G s t = a :: b :: l ∧
      r = (a :: b :: l, { a with fla := Fla.disj ((a :: b :: l).map Edge.fla) }) := by
    intro r hr h1 h2
    obtain ⟨s', t', a, b, l, hb, rfl⟩ := mem_mergedRecords.1 hr
    have ha : a ∈ bucket G s' t' := by rw [hb]; simp
    obtain ⟨_, h3, h4⟩ := mem_bucket.1 ha
    simp only [h3, List.cons.injEq, and_true] at h1
    simp only [h4] at h2
    subst h1 h2
    exact ⟨a, b, l, hb, rfl⟩
  have one : ∀ r ∈ mergedRecords G, r.2.src = [s] → r.2.tgt = t → ∀ x ∈ G, x.src = [s] → x.tgt = t → x ∈ r.1 := by
    intro r hr h1 h2 x hx h3 h4
    obtain ⟨a, b, l, hb, rfl⟩ := recs r hr h1 h2
    simp only
    rw [← hb]
    exact mem_bucket.2 ⟨hx, h3, h4⟩
  rcases (mem_applyRecords hG).1 he with ⟨r, hr, rfl⟩ | ⟨hm, hn⟩ <;>
    rcases (mem_applyRecords hG).1 he' with ⟨r', hr', rfl⟩ | ⟨hm', hn'⟩
  · obtain ⟨a, b, l, hb, rfl⟩ := recs r hr hs ht
    obtain ⟨a', b', l', hb', rfl⟩ := recs r' hr' hs' ht'
    rw [hb] at hb'
    cases hb'
    rfl
  · exact absurd (one r hr hs ht _ hm' hs' ht') (hn' r hr)
  · exact absurd (one r' hr' hs' ht' _ hm hs ht) (hn r' hr')
  · apply Classical.byContradiction
    intro hne
    have h1 : e ∈ bucket G s t := mem_bucket.2 ⟨hm, hs, ht⟩
    have h2 : e' ∈ bucket G s t := mem_bucket.2 ⟨hm', hs', ht'⟩
    cases hb : bucket G s t with
    | nil => rw [hb] at h1; simp at h1
    | cons a l =>
      cases l with
      | nil =>
        rw [hb] at h1 h2
        simp only [List.mem_singleton] at h1 h2
        exact hne (h1.trans h2.symm)
      | cons b l =>
        refine hn _ (mem_mergedRecords.2 ⟨s, t, a, b, l, hb, rfl⟩) ?_
        simp only
        rw [← hb]
        exact h1

/-! ### Graphs with one loop -/

theorem singleton_of {α : Type} {l : List α} (hn : l.Nodup) {a : α} (ha : a ∈ l) (h : ∀ b ∈ l, b = a) : l = [a] := by
  cases l with
  | nil => simp at ha
  | cons b l =>
    cases l with
    | nil => rw [h b (by simp)]
    | cons c l =>
      simp only [List.nodup_cons] at hn
      exact absurd (by rw [h b (by simp), h c (by simp)]; simp) hn.1

theorem pair_of {α : Type} {l : List α} (hn : l.Nodup) {a b : α} (ha : a ∈ l) (hb : b ∈ l) (hab : a ≠ b)
    (h : ∀ c ∈ l, c = a ∨ c = b) : l = [a, b] ∨ l = [b, a] := by
  cases l with
  | nil => simp at ha
  | cons c l =>
    simp only [List.nodup_cons] at hn
    rcases h c (by simp) with rfl | rfl
    · left
      rw [singleton_of hn.2 (a := b) (by simpa [Ne.symm hab] using hb) fun d hd => ?_]
      rcases h d (by simp [hd]) with rfl | rfl
      · exact absurd hd hn.1
      · rfl
    · right
      rw [singleton_of hn.2 (a := a) (by simpa [hab] using ha) fun d hd => ?_]
      rcases h d (by simp [hd]) with rfl | rfl
      · rfl
      · exact absurd hd hn.1

/-- A graph with one edge of each of the three kinds, and no others. -/
theorem shape_of_three {G : LGraph T} {v : Pred} (hv : v ≠ .tru ∧ v ≠ .fls) (hnd : G.Nodup) {eI eL eQ : LEdge T} (mI : eI ∈ G)
    (mL : eL ∈ G) (mQ : eQ ∈ G) (sI : eI.src = .tru) (tI : eI.tgt = v) (sL : eL.src = v) (tL : eL.tgt = v) (sQ : eQ.src = v)
    (tQ : eQ.tgt = .fls) (hall : ∀ e ∈ G, e = eI ∨ e = eL ∨ e = eQ) : TSShape G v eI eL eQ := by
  have n1 : (Pred.tru = v) ↔ False := by simp [Ne.symm hv.1]
  have n2 : (v = Pred.fls) ↔ False := by simp [hv.2]
  have n3 : (v = Pred.tru) ↔ False := by simp [hv.1]
  have hLQ : eL ≠ eQ := by rintro rfl; rw [tL] at tQ; exact hv.2 tQ
  have outT : G.out .tru = [eI] := by
    refine singleton_of (hnd.filter _) (mem_out.2 ⟨mI, sI⟩) fun e he => ?_
    obtain ⟨he, h⟩ := mem_out.1 he
    rcases hall e he with rfl | rfl | rfl
    · rfl
    · rw [sL] at h; exact absurd h hv.1
    · rw [sQ] at h; exact absurd h hv.1
  have outV : G.out v = [eL, eQ] ∨ G.out v = [eQ, eL] := by
    refine pair_of (hnd.filter _) (mem_out.2 ⟨mL, sL⟩) (mem_out.2 ⟨mQ, sQ⟩) hLQ fun e he => ?_
    obtain ⟨he, h⟩ := mem_out.1 he
    rcases hall e he with rfl | rfl | rfl
    · rw [sI] at h; exact absurd h.symm hv.1
    · exact .inl rfl
    · exact .inr rfl
  have outF : G.out .fls = [] := by
    apply List.eq_nil_iff_forall_not_mem.2
    intro e he
    obtain ⟨he, h⟩ := mem_out.1 he
    rcases hall e he with rfl | rfl | rfl
    · rw [sI] at h; cases h
    · rw [sL] at h; exact hv.2 h
    · rw [sQ] at h; exact hv.2 h
  refine ⟨hv, ?_, mI, mL, mQ, sI, tI, sL, tL, sQ, tQ, outT, outV, outF⟩
  have hlen : 2 ≤ G.length := by
    match G, mL, mQ with
    | [], h, _ => simp at h
    | [a], h, h' =>
      simp only [List.mem_singleton] at h h'
      exact absurd (h.trans h'.symm) hLQ
    | a :: b :: l, _, _ => simp
  obtain ⟨m, hm⟩ : ∃ m, G.length = m + 2 := ⟨G.length - 2, by omega⟩
  have s1 : G.succ .tru = [v] := by simp [LGraph.succ, outT, tI]
  have s3 : G.succ .fls = [] := by simp [LGraph.succ, outF]
  have f1 : v ∉ [Pred.tru] := by simpa using hv.1
  have f2 : Pred.fls ∉ [v, Pred.tru] := by simpa [eq_comm] using hv.2
  unfold reversePostOrder postOrder
  rw [hm]
  rcases outV with h | h
  · have s2 : G.succ v = [v, .fls] := by simp [LGraph.succ, h, tL, tQ]
    simp [dfsVisit, dfsFold, s1, s2, s3, n3, Ne.symm hv.2]
  · have s2 : G.succ v = [.fls, v] := by simp [LGraph.succ, h, tL, tQ]
    simp [dfsVisit, dfsFold, s1, s2, s3, n3, Ne.symm hv.2]

/-- Graphs with the same rules have the same paths between two facts. -/
theorem paths_of_rules {R : PRepr} {G G' : LGraph T} (h : ∀ r, lgraphRules R G r → lgraphRules R G' r) {es : List (LEdge T)}
    {f g : Fact T} (hp : LFeasible R es f g) (hes : ∀ e ∈ es, e ∈ G) :
    ∃ es', (∀ e ∈ es', e ∈ G') ∧ es'.length = es.length ∧ LFeasible R es' f g := by
  induction hp with
  | nil f => exact ⟨[], by simp, rfl, .nil f⟩
  | @cons e es f g k hF hp ih =>
    obtain ⟨es', h1, h2, h3⟩ := ih fun e he => hes e (by simp [he])
    obtain ⟨e', he', f', hb, hF'⟩ := lgraphRules_iff.1 (h ⟨[f], g⟩ (lgraphRules_iff.2 ⟨e, hes e (by simp), f, rfl, hF⟩))
    simp only [List.cons.injEq, and_true] at hb
    subst hb
    exact ⟨e' :: es', by simpa [he'] using h1, by simp [h2], .cons hF' h3⟩

end Golem
