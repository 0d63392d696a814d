import Verif.Props.SingleLoop

/-! C17: back-translation of error paths of the single-loop system does not fail if there are no parallel edges. -/

namespace Golem
variable {T : Theory} {R : PRepr} {N : Pred} {G : LGraph T}

/-- No two edges with the same ends (what `MultiEdgeMerger` achieves). -/
def LGraph.NoParallel (G : LGraph T) : Prop := ∀ e ∈ G, ∀ e' ∈ G, e.src = e'.src → e.tgt = e'.tgt → e = e'

theorem contracted_tail (h : SLOk R N G) : ∀ {es : List (LEdge T)}, (∀ l ∈ es, l ∈ contractedGraph R N G) →
    Chained N es .fls → ∃ k, ∃ e ∈ G, e.src ∈ loopVertices G ∧ e.tgt = .fls ∧
      es = List.replicate k (loopEdge R N (loopVertices G) G) ++ [crossEdge R N (loopVertices G) e]
  | [], _, hc => absurd (chained_nil.1 hc) h.newNe.2
  | l :: es, hes, hc => by
    obtain ⟨hsrc, hc⟩ := chained_cons.1 hc
    rcases (mem_contracted h).1 (hes l (by simp)) with rfl | ⟨e, he, rfl, hk | hk⟩
    · obtain ⟨k, e, he, h1, h2, rfl⟩ := contracted_tail h (fun l hl => hes l (by simp [hl])) hc
      exact ⟨k + 1, e, he, h1, h2, by simp [List.replicate_succ]⟩
    · rw [(cross_in_ends h hk.1 hk.2).1] at hsrc; exact absurd hsrc h.newNe.1
    · rw [(cross_out_ends hk.1 hk.2).2] at hc
      cases es with
      | nil => exact ⟨0, e, he, hk.1, hk.2, rfl⟩
      | cons l' es =>
        exfalso
        have hs' := (chained_cons.1 hc).1
        rcases (mem_contracted h).1 (hes l' (by simp)) with rfl | ⟨e', he', rfl, hc' | hc'⟩
        · exact h.newNe.2 hs'.symm
        · rw [(cross_in_ends h hc'.1 hc'.2).1] at hs'; cases hs'
        · rw [(cross_out_ends hc'.1 hc'.2).1] at hs'; exact h.newNe.2 hs'.symm

theorem contracted_shape (h : SLOk R N G) {es : List (LEdge T)} (hes : ∀ l ∈ es, l ∈ contractedGraph R N G)
    (hc : Chained .tru es .fls) : ∃ e0 ∈ G, e0.src = .tru ∧ e0.tgt ∈ loopVertices G ∧
      ∃ k, ∃ e ∈ G, e.src ∈ loopVertices G ∧ e.tgt = .fls ∧
      es = crossEdge R N (loopVertices G) e0 :: (List.replicate k (loopEdge R N (loopVertices G) G) ++
        [crossEdge R N (loopVertices G) e]) := by
  cases es with
  | nil => cases chained_nil.1 hc
  | cons l es =>
    obtain ⟨hsrc, hc⟩ := chained_cons.1 hc
    rcases (mem_contracted h).1 (hes l (by simp)) with rfl | ⟨e, he, rfl, hk | hk⟩
    · exact absurd hsrc.symm h.newNe.1
    · rw [(cross_in_ends h hk.1 hk.2).2] at hc
      obtain ⟨k, e', he', h1, h2, rfl⟩ := contracted_tail h (fun l hl => hes l (by simp [hl])) hc
      exact ⟨e, he, hk.1, hk.2, k, e', he', h1, h2, rfl⟩
    · rw [(cross_out_ends hk.1 hk.2).1] at hsrc; exact absurd hsrc.symm h.newNe.1

theorem mem_pathQuery {es : List (LEdge T)} {i : Nat} {e : LEdge T} (h : es[i]? = some e) :
    sendFla e.fla (i : Int) ∈ pathQuery es :=
  List.mem_map.2 ⟨(e, i), List.mem_zipIdx_iff_getElem?.2 (by simpa using h), rfl⟩

/-- The transition label the query uses is that of the loop. -/
theorem slTrans (h : SLOk R N G) : lastEdge (fun e => decide (e.src ≠ .tru ∧ e.tgt ≠ .fls)) (contractedGraph R N G) =
    some (loopEdge R N (loopVertices G) G) := by
  apply lastEdge_eq ((mem_contracted h).2 (.inl rfl))
  · simp [loopEdge, h.newNe.1, h.newNe.2]
  · intro e' he' hp
    simp only [decide_eq_true_eq] at hp
    rcases (mem_contracted h).1 he' with rfl | ⟨e, he, rfl, hk | hk⟩
    · rfl
    · exact absurd (cross_in_ends h hk.1 hk.2).1 hp.1
    · exact absurd (cross_out_ends hk.1 hk.2).2 hp.2

/-- What a model of the query says. -/
theorem slQuery_holds (h : SLOk R N G) {k : Nat} {m : Valuation T} : AllHold m (slQuery (contractedGraph R N G) k) ↔
    (∃ e ∈ G, e.src = .tru ∧ e.tgt ∈ loopVertices G ∧ (crossEdge R N (loopVertices G) e).fla.holds fun x => m (shift (-1) x)) ∧
    (∀ i, i < k → (loopEdge R N (loopVertices G) G).fla.holds fun x => m (shift (i : Int) x)) ∧
    ∃ e ∈ G, e.src ∈ loopVertices G ∧ e.tgt = .fls ∧ (crossEdge R N (loopVertices G) e).fla.holds fun x => m (shift (k : Int) x) := by
  unfold AllHold
  simp only [slQuery, slTrans h, Option.map_some, Option.getD_some, List.mem_cons, List.mem_append, List.mem_map, List.mem_range,
    List.not_mem_nil, or_false]
  constructor
  · intro hall
    refine ⟨?_, fun i hi => ?_, ?_⟩
    · obtain ⟨f, hf, hh⟩ := (Fla.holds_disj).1 (hall _ (.inl rfl))
      obtain ⟨l, hl, rfl⟩ := List.mem_map.1 hf
      obtain ⟨hl, hs⟩ := List.mem_filter.1 hl
      simp only [decide_eq_true_eq] at hs
      rw [sendFla_holds] at hh
      rcases (mem_contracted h).1 hl with rfl | ⟨e, he, rfl, hk | hk⟩
      · exact absurd hs h.newNe.1
      · exact ⟨e, he, hk.1, hk.2, hh⟩
      · rw [(cross_out_ends hk.1 hk.2).1] at hs; exact absurd hs h.newNe.1
    · have := hall _ (.inr (.inl ⟨i, hi, rfl⟩))
      rwa [sendFla_holds] at this
    · have := hall _ (.inr (.inr rfl))
      rw [sendFla_holds] at this
      obtain ⟨f, hf, hh⟩ := (Fla.holds_disj).1 this
      obtain ⟨l, hl, rfl⟩ := List.mem_map.1 hf
      obtain ⟨hl, hs⟩ := List.mem_filter.1 hl
      simp only [decide_eq_true_eq] at hs
      rcases (mem_contracted h).1 hl with rfl | ⟨e, he, rfl, hk | hk⟩
      · exact absurd hs.2 h.newNe.2
      · exact absurd (cross_in_ends h hk.1 hk.2).1 hs.1
      · exact ⟨e, he, hk.1, hk.2, hh⟩
  · rintro ⟨⟨e, he, h1, h2, h3⟩, hl, ⟨e', he', h1', h2', h3'⟩⟩ f (rfl | ⟨i, hi, rfl⟩ | rfl)
    · refine Fla.holds_disj.2 ⟨_, List.mem_map.2 ⟨_, List.mem_filter.2 ⟨(mem_contracted h).2 (.inr ⟨e, he, rfl, .inl ⟨h1, h2⟩⟩), ?_⟩, rfl⟩, ?_⟩
      · simp [(cross_in_ends h h1 h2).1]
      · rw [sendFla_holds]; exact h3
    · rw [sendFla_holds]; exact hl i hi
    · rw [sendFla_holds]
      refine Fla.holds_disj.2 ⟨_, List.mem_map.2 ⟨_, List.mem_filter.2 ⟨(mem_contracted h).2 (.inr ⟨e', he', rfl, .inr ⟨h1', h2'⟩⟩), ?_⟩, rfl⟩, ?_⟩
      · simp [(cross_out_ends h1' h2'), h.newNe.1]
      · exact h3'

/-- The query is satisfiable if the system can fail in `k` steps. -/
theorem slQuery_sat (h : SLOk R N G) {k : Nat} (hp : ∃ es : List (LEdge T), (∀ e ∈ es, e ∈ G) ∧ es.length = k + 2 ∧
    LFeasible R es trueFact falseFact) : SatList (slQuery (contractedGraph R N G) k) := by
  obtain ⟨es, hes, hlen, hf⟩ := (contracted_paths h _).2 hp
  obtain ⟨e0, he0, h1, h2, j, e, he, h3, h4, rfl⟩ := contracted_shape h hes hf.chained
  obtain rfl : j = k := by simpa using hlen
  obtain ⟨ρ, hρ⟩ := feasible_pathQuery (fun e he => contracted_labelOk h e (hes e he)) hf
  have hat : ∀ (i : Nat) (l : LEdge T), _ → l.fla.holds fun x => ρ (shift (i : Int) x) :=
    fun i l hl => sendFla_holds.1 (hρ _ (mem_pathQuery (i := i) (e := l) hl))
  refine ⟨fun x => ρ (shift 1 x), (slQuery_holds h).2 ⟨⟨e0, he0, h1, h2, ?_⟩, fun i hi => ?_, ⟨e, he, h3, h4, ?_⟩⟩⟩
  · have := hat 0 _ rfl
    simpa [shift_shift] using this
  · have := hat (i + 1) (loopEdge R N (loopVertices G) G) (by
      rw [List.getElem?_cons_succ, List.getElem?_append_left (by simpa using hi), List.getElem?_replicate, if_pos hi])
    simpa [shift_shift] using this
  · have := hat (j + 1) (crossEdge R N (loopVertices G) e) (by
      rw [List.getElem?_cons_succ, List.getElem?_append_right (by simp)]; simp)
    simpa [shift_shift] using this

/-- The values of the names at step `i` of a model. -/
def slState (m : Valuation T) (i : Nat) : Name → T.Val := fun n => m (.ver n (i : Int))

theorem out_single (h : SLOk R N G) (hn : G.NoParallel) {p : Pred} {f : LEdge T → Bool} {e : LEdge T} (he : e ∈ G) (hs : e.src = p)
    (hf : f e = true) (hu : ∀ e' ∈ G, e'.src = p → f e' = true → e'.tgt = e.tgt) : (G.out p).filter f = [e] := by
  have hG : G.Nodup := List.Nodup.of_map _ h.ids
  refine singleton_of (List.Nodup.filter _ ?_) (List.mem_filter.2 ⟨mem_out.2 ⟨he, hs⟩, hf⟩) ?_
  · unfold LGraph.out; exact List.Nodup.filter _ hG
  · intro b hb
    obtain ⟨hb, hfb⟩ := List.mem_filter.1 hb
    obtain ⟨hbG, hbs⟩ := mem_out.1 hb
    exact hn b hbG e he (by rw [hbs, hs]) (hu b hbG hbs hfb)

/-- From a state of the model at location `p` the walk finds a feasible path to the exit. -/
theorem slWalk_complete (h : SLOk R N G) (hn : G.NoParallel) {k : Nat} {m : Valuation T}
    (hm : AllHold m (slQuery (contractedGraph R N G) k)) : ∀ (n i : Nat) (p : Pred) (v : List T.Val), i + n = k →
    p ∈ loopVertices G → AtLoc R (loopVertices G) p v (slState m i) →
    ∃ ids es, slWalk m k G (n + 1) (i + 1) p = some ids ∧ ids.mapM G.find = some es ∧ LFeasible R es (p, v) falseFact
  | 0, i, p, v, hi, hp, hat => by
    obtain ⟨_, _, e, he, h1, h2, h3⟩ := (slQuery_holds h).1 hm
    obtain rfl : i = k := by omega
    have hF : (crossEdge R N (loopVertices G) e).Fires (R.contract N (loopVertices G)) (encFact R N (loopVertices G) (slState m i))
        falseFact := by
      refine ⟨_, h3, ?_, ?_⟩
      · simp only [LEdge.srcFact, (cross_out_ends h1 h2).1, state_new, shift, Int.zero_add]; rfl
      · simp only [LEdge.tgtFact, (cross_out_ends h1 h2).2, fls_next (contract_wf h.contr)]; rfl
    obtain ⟨σ, e1, e2, e3⟩ := (cross_out_fires h.contr (h.labelFresh e he) h1 (h.new e he).2).1 hF
    simp only [encFact, Prod.mk.injEq, true_and] at e1
    have hkey : ∀ n ∈ contractedArgs R (loopVertices G), slState m i n = σ n := List.map_inj_left.1 e1
    have hpe : e.src = p := by
      apply Classical.byContradiction
      intro hne
      have := hat.others e.src h1 hne
      rw [hkey _ (loc_mem h1), e2] at this
      cases this
    have hv : (argNames R e.src).map σ = v := by
      rw [← hat.args, hpe]
      exact List.map_congr_left fun n hn => (hkey n (arg_mem hp hn)).symm
    rw [hv, hpe] at e3
    have hfil := out_single h hn (f := canBeTaken m i (i + 1)) he hpe (by simp [canBeTaken, h2]) (by
      intro e' he' _ hc
      simp only [canBeTaken, if_pos rfl] at hc
      split at hc
      · rename_i ht; rw [ht, h2]
      · cases hc)
    refine ⟨[e.id], [e], ?_, by simp [LGraph.find_of_mem h.ids he], .cons e3 (.nil _)⟩
    rw [slWalk, hfil]; rfl
  | n + 1, i, p, v, hi, hp, hat => by
    obtain ⟨_, hl, _⟩ := (slQuery_holds h).1 hm
    have hF : (loopEdge R N (loopVertices G) G).Fires (R.contract N (loopVertices G)) (encFact R N (loopVertices G) (slState m i))
        (encFact R N (loopVertices G) (slState m (i + 1))) := by
      refine ⟨_, hl i (by omega), ?_, ?_⟩
      · simp only [LEdge.srcFact, loopEdge, state_new, shift, Int.zero_add]; rfl
      · simp only [LEdge.tgtFact, loopEdge, next_new, shift, encFact, slState, Int.add_comm 1, Int.natCast_add]; rfl
    obtain ⟨e, he, hs, ht, σ, τ, v', w, e1, e2, a1, a2, hf⟩ := (loop_fires h.contr).1 hF
    simp only [encFact, Prod.mk.injEq, true_and] at e1 e2
    obtain ⟨rfl, rfl⟩ := hat.unique (a1.congr hs e1.symm) hs
    have hat' := a2.congr ht e2.symm
    obtain ⟨ids, es, w1, w2, w3⟩ := slWalk_complete h hn hm n (i + 1) e.tgt w (by omega) ht hat'
    have hne : i + 1 ≠ k + 1 := by omega
    have hfil := out_single h hn (f := canBeTaken m k (i + 1)) he rfl (by
        have hf : e.tgt ≠ .fls := (mem_loopVertices.1 ht).2.2
        simp only [canBeTaken, if_neg hf, if_neg hne]
        exact hat'.here) (by
      intro e' he' hs' hc
      simp only [canBeTaken] at hc
      split at hc
      · simp at hc; omega
      · apply Classical.byContradiction
        intro hne'
        have hmem : e'.tgt ∈ loopVertices G := mem_loopVertices.2 ⟨⟨e', he', .inl rfl⟩, (h.ends e' he').1, by assumption⟩
        have := hat'.others _ hmem hne'
        rw [slState, hc] at this
        cases this)
    refine ⟨e.id :: ids, e :: es, ?_, by simp [List.mapM_cons, LGraph.find_of_mem h.ids he, w2], .cons hf w3⟩
    rw [slWalk, hfil]
    simp only [w1]; rfl

/-- **C17** Without parallel edges, and with a deciding backend, an error path of the system is always translated. -/
theorem C17_errorPath_total {S : Smt T} (hS : S.Sound) (hcomp : S.Complete) (h : SLOk R N G) (hn : G.NoParallel) {S' : Smt T}
    {E : ElimExcept T} (hE : E.Exact) (hin : ∃ e ∈ G, e.src = .tru) (hout : ∃ e ∈ G, e.tgt = .fls) {ts : TS T}
    (hts : singleLoop S' R E N G = some ts) {k : Nat} (hb : ts.sem.BadIn k) :
    ∃ ds, slErrorPath S R N G k = .done (some ds) := by
  obtain ⟨ts', hts', _, _, hk⟩ := C16_single_loop h S' hE hin hout
  rw [hts] at hts'; cases hts'
  have hsat := slQuery_sat h ((hk k).1 hb)
  have hc : S.check (slQuery (contractedGraph R N G) k) = .sat := by
    rcases hcomp (slQuery (contractedGraph R N G) k) with hc | hc
    · exact hc
    · exact absurd hsat (hS.unsat _ hc)
  have hm := hS.sat _ hc
  obtain ⟨⟨e, he, h1, h2, h3⟩, _, _⟩ := (slQuery_holds h).1 hm
  generalize hmm : S.model (slQuery (contractedGraph R N G) k) = m at hm h3
  have hF : (crossEdge R N (loopVertices G) e).Fires (R.contract N (loopVertices G)) trueFact
      (encFact R N (loopVertices G) (slState m 0)) := by
    refine ⟨_, h3, ?_, ?_⟩
    · simp only [LEdge.srcFact, (cross_in_ends h h1 h2).1, tru_state (contract_wf h.contr)]; rfl
    · simp only [LEdge.tgtFact, (cross_in_ends h h1 h2).2, next_new, shift, encFact, slState]; rfl
  obtain ⟨τ, w, e1, a1, hf⟩ := (cross_in_fires h.contr (h.labelFresh e he) (by rw [h1]; exact h.contr.tru)
    (h.new e he).1 h2).1 hF
  simp only [encFact, Prod.mk.injEq, true_and] at e1
  have hat := a1.congr h2 e1.symm
  obtain ⟨ids, es, w1, w2, w3⟩ := slWalk_complete h hn hm k 0 e.tgt w (by omega) h2 hat
  have hfil := out_single h hn (f := canBeTaken m k 0) he h1 (by
      have hf : e.tgt ≠ .fls := (mem_loopVertices.1 h2).2.2
      simp only [canBeTaken, if_neg hf]
      exact hat.here) (by
    intro e' he' hs' hc
    simp only [canBeTaken] at hc
    split at hc
    · simp at hc
    · rw [if_neg (by omega)] at hc
      apply Classical.byContradiction
      intro hne'
      have hmem : e'.tgt ∈ loopVertices G := mem_loopVertices.2 ⟨⟨e', he', .inl rfl⟩, (h.ends e' he').1, by assumption⟩
      have := hat.others _ hmem hne'
      rw [slState, hc] at this
      cases this)
  have hwalk : slWalk m k G (k + 2) 0 .tru = some (e.id :: ids) := by
    rw [slWalk, hfil]
    simp only [w1]; rfl
  have hfind : (e.id :: ids).mapM G.find = some (e :: es) := by
    simp [List.mapM_cons, LGraph.find_of_mem h.ids he, w2]
  have hfe : LFeasible R (e :: es) trueFact falseFact := .cons hf w3
  rcases C27_fromErrorPath_exact hS hcomp h.wf h.label hfind (by simp) hfe.chained with ⟨_, ds, hds⟩ | ⟨hnf, _⟩
  · exact ⟨ds, by simp only [slErrorPath, if_pos hc, hmm, hwalk, hds]⟩
  · exact absurd hfe hnf

end Golem
