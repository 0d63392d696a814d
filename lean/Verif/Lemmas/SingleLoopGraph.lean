import Verif.Lemmas.SingleLoop
import Verif.Props.LinearBmc
import Verif.Props.Hyper

/-! The contracted graph and the final graph of the single-loop transformation. -/

namespace Golem
variable {T : Theory}

/-- What is assumed of a linear graph given to the single-loop transformation: labels as usual, names as golem makes them, a
new vertex that is new, no edge into the entry or out of the exit, and none from the entry to the exit. -/
structure SLOk (R : PRepr) (N : Pred) (G : LGraph T) : Prop where
  wf : R.WF
  argNames : ∀ p, ∀ n ∈ R.args p, n.Plain
  labelNames : ∀ e ∈ G, ∀ x ∈ e.fla.vars, x.nm.Plain
  label : ∀ e ∈ G, e.LabelOk R
  aux : G.AuxDisjoint R
  ids : (G.map LEdge.id).Nodup
  new : ∀ e ∈ G, e.src ≠ N ∧ e.tgt ≠ N
  newNe : N ≠ .tru ∧ N ≠ .fls
  ends : ∀ e ∈ G, e.tgt ≠ .tru ∧ e.src ≠ .fls
  noDirect : ∀ e ∈ G, ¬ (e.src = .tru ∧ e.tgt = .fls)

/-! ### Vertices -/

theorem mem_foldl_insert : ∀ (l acc : List Nat) (n : Nat), n ∈ l.foldl (fun l p => insertPred p l) acc ↔ n ∈ l ∨ n ∈ acc
  | [], acc, n => by simp
  | a :: l, acc, n => by
    rw [List.foldl_cons, mem_foldl_insert l, mem_insertPred, List.mem_cons]
    constructor
    · rintro (h | h | h) <;> simp [h]
    · rintro ((h | h) | h) <;> simp [h]

theorem insertPred_sorted {p : Nat} : ∀ {l : List Nat}, l.Pairwise (· < ·) → (insertPred p l).Pairwise (· < ·)
  | [], _ => by simp [insertPred]
  | q :: l, h => by
    simp only [List.pairwise_cons] at h
    unfold insertPred
    split
    · rename_i hlt
      simp only [List.pairwise_cons, List.mem_cons, forall_eq_or_imp]
      exact ⟨⟨hlt, fun a ha => Nat.lt_trans hlt (h.1 a ha)⟩, h.1, h.2⟩
    · split
      · exact List.pairwise_cons.2 h
      · refine List.pairwise_cons.2 ⟨fun a ha => ?_, insertPred_sorted h.2⟩
        rcases mem_insertPred.1 ha with rfl | ha
        · omega
        · exact h.1 a ha

theorem foldl_insert_sorted : ∀ (l acc : List Nat), acc.Pairwise (· < ·) →
    (l.foldl (fun l p => insertPred p l) acc).Pairwise (· < ·)
  | [], _, h => h
  | a :: l, acc, h => foldl_insert_sorted l _ (insertPred_sorted h)

theorem mem_loopVertices {G : LGraph T} {p : Pred} : p ∈ loopVertices G ↔ G.Vertex p ∧ p ≠ .tru ∧ p ≠ .fls := by
  simp only [loopVertices, List.mem_filter, Bool.and_eq_true, decide_eq_true_eq]
  constructor
  · rintro ⟨h, h1, h2⟩
    refine ⟨?_, h1, h2⟩
    simp only [getVertices, List.mem_cons, h1, h2, false_or, List.mem_map] at h
    obtain ⟨n, hn, rfl⟩ := h
    rw [mem_foldl_insert] at hn
    simp only [List.not_mem_nil, or_false, List.mem_filterMap, List.mem_flatMap] at hn
    obtain ⟨q, ⟨e, he, hq⟩, hqn⟩ := hn
    have : q = .p n := by cases q <;> simp [Pred.num] at hqn; rw [hqn]
    subst this
    simp only [List.mem_cons, List.not_mem_nil, or_false] at hq
    exact ⟨e, he, hq.symm⟩
  · rintro ⟨⟨e, he, h⟩, h1, h2⟩
    refine ⟨?_, h1, h2⟩
    rcases h with rfl | rfl
    · exact (mem_getVertices he).2
    · exact (mem_getVertices he).1

theorem loopVertices_nodup (G : LGraph T) : (loopVertices G).Nodup := by
  unfold loopVertices
  apply List.Nodup.filter
  unfold getVertices
  have h := foldl_insert_sorted ((G.flatMap fun e => [e.src, e.tgt]).filterMap Pred.num) [] List.Pairwise.nil
  have h' : (((G.flatMap fun e => [e.src, e.tgt]).filterMap Pred.num).foldl (fun l p => insertPred p l) []).Nodup :=
    h.imp fun h => Nat.ne_of_lt h
  simp only [List.nodup_cons, List.mem_cons, reduceCtorEq, List.mem_map, false_or, exists_false, and_false, not_false_eq_true,
    true_and]
  exact nodup_map_of_inj (by intro a b h; cases h; rfl) h'

section
variable {R : PRepr} {N : Pred} {G : LGraph T}

theorem SLOk.contr (h : SLOk R N G) : Contractible R N (loopVertices G) where
  wf := h.wf
  nodup := loopVertices_nodup G
  new := by
    intro hm
    obtain ⟨⟨e, he, hp⟩, _⟩ := mem_loopVertices.1 hm
    rcases hp with hp | hp
    · exact (h.new e he).2 hp.symm
    · exact (h.new e he).1 hp.symm
  ntru := h.newNe.1
  nfls := h.newNe.2
  tru := by intro hm; exact (mem_loopVertices.1 hm).2.1 rfl
  fls := by intro hm; exact (mem_loopVertices.1 hm).2.2 rfl
  fresh p n hn hm := contractedArgs_not_plain hm (h.argNames p n hn)

theorem SLOk.labelFresh (h : SLOk R N G) (e : LEdge T) (he : e ∈ G) : ∀ x ∈ e.fla.vars, x.nm ∉ contractedArgs R (loopVertices G) :=
  fun x hx hm => contractedArgs_not_plain hm (h.labelNames e he x hx)

/-- The three kinds of edges. -/
theorem SLOk.cases (h : SLOk R N G) {e : LEdge T} (he : e ∈ G) :
    (e.src = .tru ∧ e.tgt ∈ loopVertices G) ∨ (e.src ∈ loopVertices G ∧ e.tgt ∈ loopVertices G) ∨
    (e.src ∈ loopVertices G ∧ e.tgt = .fls) := by
  have hs : e.src ≠ .tru → e.src ∈ loopVertices G := fun hn => mem_loopVertices.2 ⟨⟨e, he, .inr rfl⟩, hn, (h.ends e he).2⟩
  have ht : e.tgt ≠ .fls → e.tgt ∈ loopVertices G := fun hn => mem_loopVertices.2 ⟨⟨e, he, .inl rfl⟩, (h.ends e he).1, hn⟩
  by_cases h1 : e.src = .tru
  · exact .inl ⟨h1, ht fun h2 => h.noDirect e he ⟨h1, h2⟩⟩
  · by_cases h2 : e.tgt = .fls
    · exact .inr (.inr ⟨hs h1, h2⟩)
    · exact .inr (.inl ⟨hs h1, ht h2⟩)

/-- The edges of the contracted graph. -/
theorem mem_contracted (h : SLOk R N G) {l : LEdge T} : l ∈ contractedGraph R N G ↔
    l = loopEdge R N (loopVertices G) G ∨
    ∃ e ∈ G, l = crossEdge R N (loopVertices G) e ∧
      ((e.src = .tru ∧ e.tgt ∈ loopVertices G) ∨ (e.src ∈ loopVertices G ∧ e.tgt = .fls)) := by
  simp only [contractedGraph, contractVertices, List.mem_append, List.mem_map, List.mem_filter, List.mem_singleton]
  constructor
  · rintro (⟨e, ⟨he, hin⟩, rfl⟩ | rfl)
    · refine .inr ⟨e, he, rfl, ?_⟩
      rcases h.cases he with hc | hc | hc
      · exact .inl hc
      · simp [innerEdge, hc] at hin
      · exact .inr hc
    · exact .inl rfl
  · rintro (rfl | ⟨e, he, rfl, hc⟩)
    · exact .inr rfl
    · refine .inl ⟨e, ⟨he, ?_⟩, rfl⟩
      rcases hc with ⟨h1, h2⟩ | ⟨h1, h2⟩
      · simp [innerEdge, h1, h.contr.tru]
      · simp [innerEdge, h2, h.contr.fls]

theorem cross_in_ends (h : SLOk R N G) {e : LEdge T} (hs : e.src = .tru) (ht : e.tgt ∈ loopVertices G) :
    (crossEdge R N (loopVertices G) e).src = .tru ∧ (crossEdge R N (loopVertices G) e).tgt = N := by
  simp [crossEdge, hs, h.contr.tru, ht]

theorem cross_out_ends {e : LEdge T} (hs : e.src ∈ loopVertices G) (ht : e.tgt = .fls) :
    (crossEdge R N (loopVertices G) e).src = N ∧ (crossEdge R N (loopVertices G) e).tgt = .fls := by
  simp [crossEdge, hs, ht]

/-! ### Paths -/

theorem fact_eta {f : Fact T} {p : Pred} (h : f.1 = p) : f = (p, f.2) := by rw [← h]

theorem fires_length {e : LEdge T} {f g : Fact T} (h : e.Fires R f g) : g.2.length = (R.args e.tgt).length := by
  obtain ⟨ρ, _, _, rfl⟩ := h
  simp [LEdge.tgtFact, PRepr.nextVars]

/-- Paths of the graph are paths of the contracted graph. -/
theorem contracted_path (h : SLOk R N G) {es : List (LEdge T)} {f g : Fact T} (hp : LFeasible R es f g) (hg : g.1 = .fls)
    (hes : ∀ e ∈ es, e ∈ G) : ∀ σ : Name → T.Val, f.1 ∈ loopVertices G → AtLoc R (loopVertices G) f.1 f.2 σ →
    ∃ es', (∀ e ∈ es', e ∈ contractedGraph R N G) ∧ es'.length = es.length ∧
      LFeasible (R.contract N (loopVertices G)) es' (encFact R N (loopVertices G) σ) g := by
  induction hp with
  | nil f => intro σ hf _; rw [hg] at hf; exact absurd hf h.contr.fls
  | @cons e es f g k hF hp ih =>
    intro σ hf hσ
    have he := hes e (by simp)
    rw [hF.src] at hf hσ
    rcases h.cases he with hc | hc | hc
    · rw [hc.1] at hf; exact absurd hf h.contr.tru
    · obtain ⟨τ, hτ⟩ := exists_atLoc R (loopVertices G) e.tgt g.2 (fires_length hF)
      obtain ⟨es', h1, h2, h3⟩ := ih hg (fun e' he' => hes e' (by simp [he'])) τ (hF.tgt ▸ hc.2) (hF.tgt ▸ hτ)
      refine ⟨loopEdge R N (loopVertices G) G :: es', ?_, by simp [h2], .cons ((loop_fires h.contr).2
        ⟨e, he, hc.1, hc.2, σ, τ, _, _, rfl, rfl, hσ, hτ, ?_⟩) h3⟩
      · intro x hx
        rcases List.mem_cons.1 hx with rfl | hx
        · exact (mem_contracted h).2 (.inl rfl)
        · exact h1 x hx
      · rw [← fact_eta hF.src, ← fact_eta hF.tgt]; exact hF
    · have hgt : g.1 = .fls := by rw [hF.tgt, hc.2]
      have hnil : es = [] ∧ g = k := by
        cases hp with
        | nil => exact ⟨rfl, rfl⟩
        | cons hF' _ => exact absurd (by rw [← hF'.src, hgt]) (h.ends _ (hes _ (by simp))).2
      obtain ⟨rfl, rfl⟩ := hnil
      refine ⟨[crossEdge R N (loopVertices G) e], ?_, rfl, .cons ((cross_out_fires h.contr (h.labelFresh e he) hc.1 ?_).2
        ⟨σ, rfl, hσ.here, ?_⟩) (.nil _)⟩
      · intro x hx
        simp only [List.mem_singleton] at hx
        subst hx
        exact (mem_contracted h).2 (.inr ⟨e, he, rfl, .inr hc⟩)
      · exact (h.new e he).2
      · rw [hσ.args, ← fact_eta hF.src]; exact hF

/-- Paths of the contracted graph are paths of the graph. -/
theorem path_contracted (h : SLOk R N G) : ∀ {es : List (LEdge T)} {σ : Name → T.Val} {g : Fact T} {p : Pred} {v : List T.Val},
    LFeasible (R.contract N (loopVertices G)) es (encFact R N (loopVertices G) σ) g → g.1 = .fls →
    (∀ e ∈ es, e ∈ contractedGraph R N G) → p ∈ loopVertices G → AtLoc R (loopVertices G) p v σ →
    ∃ es', (∀ e ∈ es', e ∈ G) ∧ es'.length = es.length ∧ LFeasible R es' (p, v) g
  | [], σ, g, p, v, hp, hg, _, _, _ => by cases hp; exact absurd hg h.newNe.2
  | l :: es, σ, g, p, v, hp, hg, hes, hpv, hσ => by
    cases hp with
    | @cons _ _ _ k _ hF hp =>
      rcases (mem_contracted h).1 (hes l (by simp)) with rfl | ⟨e, he, rfl, hc | hc⟩
      · obtain ⟨e, he, hs, ht, σ', τ, v', w, h1, rfl, h2, h3, h4⟩ := (loop_fires h.contr).1 hF
        simp only [encFact, Prod.mk.injEq, true_and] at h1
        obtain ⟨rfl, rfl⟩ := hσ.unique (h2.congr hs h1.symm) hs
        obtain ⟨es', a, b, c⟩ := path_contracted h hp hg (fun e' he' => hes e' (by simp [he'])) ht h3
        exact ⟨e :: es', by simpa [he] using a, by simp [b], .cons h4 c⟩
      · have := hF.src
        rw [(cross_in_ends h hc.1 hc.2).1] at this
        exact absurd this h.newNe.1
      · obtain ⟨σ', h1, h2, h3⟩ := (cross_out_fires h.contr (h.labelFresh e he) hc.1 (h.new e he).2).1 hF
        simp only [encFact, Prod.mk.injEq, true_and] at h1
        have hkey : ∀ n ∈ contractedArgs R (loopVertices G), σ n = σ' n := List.map_inj_left.1 h1
        have hpe : e.src = p := by
          apply Classical.byContradiction
          intro hne
          have := hσ.others e.src hc.1 hne
          rw [hkey _ (loc_mem hc.1), h2] at this
          cases this
        have hv : (argNames R e.src).map σ' = v := by
          rw [← hσ.args, hpe]
          exact List.map_congr_left fun n hn => (hkey n (arg_mem hpv hn)).symm
        rw [hv, hpe] at h3
        have hnil : es = [] ∧ k = g := by
          cases hp with
          | nil => exact ⟨rfl, rfl⟩
          | @cons l' _ _ _ _ hF' _ =>
            exfalso
            have hk : k.1 = .fls := by rw [h3.tgt, hc.2]
            have hsrc : l'.src = .fls := by rw [← hF'.src, hk]
            rcases (mem_contracted h).1 (hes l' (by simp)) with rfl | ⟨e', he', rfl, hc' | hc'⟩
            · exact h.newNe.2 hsrc
            · rw [(cross_in_ends h hc'.1 hc'.2).1] at hsrc; cases hsrc
            · rw [(cross_out_ends hc'.1 hc'.2).1] at hsrc; exact h.newNe.2 hsrc
        obtain ⟨rfl, rfl⟩ := hnil
        exact ⟨[e], by simpa using he, rfl, .cons h3 (.nil _)⟩

theorem encFact_ne_true (h : SLOk R N G) (vs : List Pred) (σ : Name → T.Val) : encFact R N vs σ ≠ trueFact := by
  intro he
  exact h.newNe.1 (congrArg Prod.fst he)

/-- The graph and the contracted graph have error paths of the same lengths. -/
theorem contracted_paths (h : SLOk R N G) (n : Nat) :
    (∃ es : List (LEdge T), (∀ e ∈ es, e ∈ contractedGraph R N G) ∧ es.length = n ∧
      LFeasible (R.contract N (loopVertices G)) es trueFact falseFact) ↔
    ∃ es : List (LEdge T), (∀ e ∈ es, e ∈ G) ∧ es.length = n ∧ LFeasible R es trueFact falseFact := by
  constructor
  · rintro ⟨es, hes, hn, hp⟩
    generalize hf : (trueFact : Fact T) = f at hp
    cases hp with
    | nil => cases hf
    | @cons l es _ k _ hF hp =>
      subst hf
      rcases (mem_contracted h).1 (hes l (by simp)) with rfl | ⟨e, he, rfl, hc | hc⟩
      · exact absurd hF.src.symm h.newNe.1
      · obtain ⟨τ, w, rfl, h1, h2⟩ := (cross_in_fires h.contr (h.labelFresh e he) (by rw [hc.1]; exact h.contr.tru)
          (h.new e he).1 hc.2).1 hF
        obtain ⟨es', a, b, c⟩ := path_contracted h hp rfl (fun e' he' => hes e' (by simp [he'])) hc.2 h1
        exact ⟨e :: es', by simpa [he] using a, by simp [b, ← hn], .cons h2 c⟩
      · have := hF.src
        rw [(cross_out_ends hc.1 hc.2).1] at this
        exact absurd this.symm h.newNe.1
  · rintro ⟨es, hes, hn, hp⟩
    generalize hf : (trueFact : Fact T) = f at hp
    cases hp with
    | nil => cases hf
    | @cons e es _ k _ hF hp =>
      subst hf
      have he := hes e (by simp)
      rcases h.cases he with hc | hc | hc
      · obtain ⟨τ, hτ⟩ := exists_atLoc R (loopVertices G) e.tgt k.2 (fires_length hF)
        obtain ⟨es', a, b, c⟩ := contracted_path h hp rfl (fun e' he' => hes e' (by simp [he'])) τ (hF.tgt ▸ hc.2) (hF.tgt ▸ hτ)
        refine ⟨crossEdge R N (loopVertices G) e :: es', ?_, by simp [b, ← hn], .cons ((cross_in_fires h.contr
          (h.labelFresh e he) (by rw [hc.1]; exact h.contr.tru) (h.new e he).1 hc.2).2 ⟨τ, k.2, rfl, hτ, ?_⟩) c⟩
        · intro x hx
          rcases List.mem_cons.1 hx with rfl | hx
          · exact (mem_contracted h).2 (.inr ⟨e, he, rfl, .inl hc⟩)
          · exact a x hx
        · rw [← fact_eta hF.tgt]; exact hF
      · have := hF.src
        rw [← this] at hc
        exact absurd hc.1 h.contr.tru
      · have := hF.src
        rw [← this] at hc
        exact absurd hc.1 h.contr.tru

end

end Golem
