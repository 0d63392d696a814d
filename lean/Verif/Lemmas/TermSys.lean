import Verif.Lemmas.TermTS
import Verif.Lemmas.Termination
import Verif.Model.Termination.Graph

/-! The transition system of the termination front end has the infinite runs of the graph. -/

namespace Golem
variable {T : Theory}

/-- A graph with an entry edge, a self loop, and nothing else. -/
structure LoopShape (G : LGraph T) (v : Pred) (eI eL : LEdge T) : Prop where
  ne : v ≠ .tru ∧ v ≠ .fls
  order : reversePostOrder G = some [.tru, v]
  mI : eI ∈ G
  mL : eL ∈ G
  sI : eI.src = .tru
  tI : eI.tgt = v
  sL : eL.src = v
  tL : eL.tgt = v
  all : ∀ e ∈ G, e = eI ∨ e = eL
  nodup : G.Nodup

/-- Its transition system. -/
def loopTS (R : PRepr) (E : ElimExcept T) (G : LGraph T) (v : Pred) (eI eL : LEdge T) : TS T where
  stateVars := R.stateVars v
  auxVars := G.flatMap (edgeAux R)
  init := varSubstitute (E (R.nextVars v) eI.fla) ((R.nextVars v).zip ((R.stateVars v).map Tm.var))
  trans := eL.fla
  query := .tt

section
variable {R : PRepr} {E : ElimExcept T} {G : LGraph T} {v : Pred} {eI eL : LEdge T}

theorem LoopShape.extract (h : LoopShape G v eI eL) : toTransitionSystemNoQuery R E G = some (loopTS R E G v eI eL) := by
  have hv := h.ne
  have sT : (Pred.tru = v) ↔ False := by simp [Ne.symm hv.1]
  have sV : (v = Pred.tru) ↔ False := by simp [hv.1]
  have e1 : lastEdge (fun e => decide (e.src = e.tgt)) G = some eL := by
    refine lastEdge_eq h.mL (by simp [h.sL, h.tL]) fun e he hp => ?_
    rcases h.all e he with rfl | rfl
    · simp [h.sI, h.tI, sT] at hp
    · rfl
  have e2 : lastEdge (fun e => decide (e.src = .tru ∧ e.tgt = v)) G = some eI := by
    refine lastEdge_eq h.mI (by simp [h.sI, h.tI]) fun e he hp => ?_
    rcases h.all e he with rfl | rfl
    · rfl
    · simp [h.sL, sV] at hp
  have e3 : lastEdge (fun e => decide (e.src = v ∧ e.tgt = v)) G = some eL := by
    refine lastEdge_eq h.mL (by simp [h.sL, h.tL]) fun e he hp => ?_
    rcases h.all e he with rfl | rfl
    · simp [h.sI, sT] at hp
    · rfl
  simp only [toTransitionSystemNoQuery, h.order, e1, e2, e3, Option.bind_eq_bind, Option.bind_some, Option.pure_def,
    h.sL, h.tL, loopTS]

/-- The query edge that is missing. -/
def dummyQuery (v : Pred) : LEdge T := ⟨v, .fls, .tt, 0⟩

theorem LoopShape.three (h : LoopShape G v eI eL) : TSShape (G ++ [dummyQuery v]) v eI eL (dummyQuery v) := by
  refine shape_of_three h.ne ?_ (by simp [h.mI]) (by simp [h.mL]) (by simp) h.sI h.tI h.sL h.tL rfl rfl ?_
  · rw [List.nodup_append]
    refine ⟨h.nodup, by simp, fun e he e' he' hee => ?_⟩
    rw [List.mem_singleton] at he'
    subst he' hee
    rcases h.all _ he with h1 | h1
    · exact h.ne.2 (h.tI.symm.trans (by rw [← h1]; rfl))
    · exact h.ne.2 (h.tL.symm.trans (by rw [← h1]; rfl))
  · intro e he
    rcases List.mem_append.1 he with he | he
    · rcases h.all e he with h1 | h1
      · exact .inl h1
      · exact .inr (.inl h1)
    · exact .inr (.inr (List.mem_singleton.1 he))

theorem loopTS_aux : (loopTS R E G v eI eL).auxVars = (shapeTS R E (G ++ [dummyQuery v]) v eI eL (dummyQuery v)).auxVars := by
  simp [loopTS, shapeTS, dummyQuery, edgeAux, Fla.vars]

theorem LoopShape.wf (hR : R.WF) (hE : E.Exact) (h : LoopShape G v eI eL) (hl : ∀ e ∈ G, e.LabelOk R) :
    (loopTS R E G v eI eL).WF := by
  have w := shape_wf hR hE h.three (by
    intro e he
    rcases List.mem_append.1 he with he | he
    · exact hl e he
    · rw [List.mem_singleton.1 he]; intro x hx; simp [dummyQuery, Fla.vars] at hx)
  have ha := loopTS_aux (R := R) (E := E) (G := G) (v := v) (eI := eI) (eL := eL)
  refine ⟨fun x hx => ?_, fun x hx => by simp [loopTS, Fla.vars] at hx, fun x hx => ?_, w.stateCur, ?_, w.nodup, ?_⟩
  · rw [ha]; exact w.init x hx
  · rw [ha]; exact w.trans x hx
  · rw [ha]; exact w.auxCur
  · rw [ha]; exact w.sep

theorem LoopShape.auxSep (hR : R.WF) (hE : E.Exact) (h : LoopShape G v eI eL) (hl : ∀ e ∈ G, e.LabelOk R)
    (hd : G.AuxDisjoint R) : (loopTS R E G v eI eL).AuxSep := by
  have w := shape_auxSep (E := E) hR hE h.three (by
    intro e he
    rcases List.mem_append.1 he with he | he
    · exact hl e he
    · rw [List.mem_singleton.1 he]; intro x hx; simp [dummyQuery, Fla.vars] at hx) (by
    intro e he e' he' hne x h1 h2 h3
    rcases List.mem_append.1 he with he | he
    · rcases List.mem_append.1 he' with he' | he'
      · exact hd e he e' he' hne x h1 h2 h3
      · rw [List.mem_singleton.1 he'] at h3; simp [dummyQuery, Fla.vars] at h3
    · rw [List.mem_singleton.1 he] at h2; simp [dummyQuery, Fla.vars] at h2)
  have ha := loopTS_aux (R := R) (E := E) (G := G) (v := v) (eI := eI) (eL := eL)
  refine ⟨?_, fun x _ _ hq => by simp [loopTS, Fla.vars] at hq, fun x _ _ hq => by simp [loopTS, Fla.vars] at hq⟩
  rw [ha]; exact w.it

theorem LoopShape.init (hR : R.WF) (hE : E.Exact) (h : LoopShape G v eI eL) (hl : eI.LabelOk R) (s : TS.State T) :
    (loopTS R E G v eI eL).sem.Init s ↔ eI.Fires R trueFact (v, s) := shape_init hR hE h.three hl s

theorem LoopShape.step (h : LoopShape G v eI eL) (s t : TS.State T) :
    (loopTS R E G v eI eL).sem.Step s t ↔ eL.Fires R (v, s) (v, t) := shape_step (E := E) h.three s t

/-- The infinite runs of the system are those of the graph. -/
theorem LoopShape.diverges (hR : R.WF) (hE : E.Exact) (h : LoopShape G v eI eL) (hl : eI.LabelOk R) :
    G.Diverges R ↔ (loopTS R E G v eI eL).sem.InfiniteRun := by
  constructor
  · rintro ⟨f, h0, hf⟩
    have hv : ∀ i, (f (i + 1)).1 = v := by
      intro i
      obtain ⟨e, he, hF⟩ := hf i
      rw [hF.tgt]
      rcases h.all e he with rfl | rfl
      · exact h.tI
      · exact h.tL
    refine ⟨fun i => (f (i + 1)).2, (h.init hR hE hl _).2 ?_, fun i => (h.step _ _).2 ?_⟩
    · obtain ⟨e, he, hF⟩ := hf 0
      rcases h.all e he with rfl | rfl
      · rw [h0] at hF
        have : (v, (f 1).2) = f 1 := by rw [← hv 0]
        show e.Fires R trueFact (v, (f 1).2)
        rw [this]; exact hF
      · have := hF.src
        rw [h0, h.sL] at this
        exact absurd this.symm h.ne.1
    · obtain ⟨e, he, hF⟩ := hf (i + 1)
      have e1 : (v, (f (i + 1)).2) = f (i + 1) := by rw [← hv i]
      have e2 : (v, (f (i + 1 + 1)).2) = f (i + 1 + 1) := by rw [← hv (i + 1)]
      rcases h.all e he with rfl | rfl
      · have := hF.src
        rw [hv i, h.sI] at this
        exact absurd this h.ne.1
      · show e.Fires R (v, (f (i + 1)).2) (v, (f (i + 1 + 1)).2)
        rw [e1, e2]; exact hF
  · rintro ⟨r, h0, hr⟩
    refine ⟨fun i => match i with | 0 => trueFact | i + 1 => (v, r i), rfl, fun i => ?_⟩
    cases i with
    | zero => exact ⟨eI, h.mI, (h.init hR hE hl _).1 h0⟩
    | succ i => exact ⟨eL, h.mL, (h.step _ _).1 (hr i)⟩

end

/-! ### The graph after the stages -/

/-- What the rest of the front end needs of the graph. -/
structure TermReady (R : PRepr) (N : Pred) (G : LGraph T) : Prop where
  ok : SLOk R N G
  noGoal : ∀ e ∈ G, e.tgt ≠ .fls

theorem ready_of_inv {R : PRepr} (hR : R.WF) (hA : ∀ p, ∀ n ∈ R.args p, n.Plain) {st : GS T} (h : TermInv R st) {N : Pred}
    (n1 : N ≠ .tru ∧ N ≠ .fls) (n2 : ∀ e ∈ toNormalGraph R st.edges, e.src ≠ N ∧ e.tgt ≠ N) :
    isNormalGraph st.edges = true ∧ TermReady R N (toNormalGraph R st.edges) := by
  have hn : isNormalGraph st.edges = true := List.all_eq_true.2 fun e he => by simpa using (h.tame e he).1
  have hg : ∀ e ∈ toNormalGraph R st.edges, e.tgt ≠ .fls := by
    intro l hl
    obtain ⟨e, he, s, hs, rfl⟩ := mem_toNormalGraph.1 hl
    exact fun ht => h.noGoal ⟨e, he, .inl ht.symm⟩
  refine ⟨hn, ⟨hR, hA, ?_, normal_labelOk hR h.inv.ok, normal_auxDisjoint hR h.inv.ok, normal_ids h.inv.ok, n2, n1, ?_,
    fun l hl hh => hg l hl hh.2⟩, hg⟩
  · intro l hl
    obtain ⟨e, he, s, hs, rfl⟩ := mem_toNormalGraph.1 hl
    refine plain_subst (h.tame e he).2 ?_
    intro p hp
    rcases List.mem_append.1 hp with hp | hp
    · obtain ⟨n, hn, he⟩ := List.mem_map.1 (List.of_mem_zip (a := p.1) (b := p.2) hp).2
      intro x hx
      rw [← he] at hx
      simp only [Tm.vars, List.mem_singleton] at hx
      subst hx; exact hA _ n hn
    · obtain ⟨n, hn, he⟩ := List.mem_map.1 (List.of_mem_zip (a := p.1) (b := p.2) hp).2
      intro x hx
      rw [← he] at hx
      simp only [Tm.vars, List.mem_singleton] at hx
      subst hx; exact hA _ n hn
  · intro l hl
    obtain ⟨e, he, s, hs, rfl⟩ := mem_toNormalGraph.1 hl
    refine ⟨(h.inv.ends e he).1, ?_⟩
    rintro rfl
    exact (h.inv.ends e he).2 (by rw [hs]; simp)

/-- A trivially terminating graph has no infinite run. -/
theorem trivial_terminates {R : PRepr} {N : Pred} {G : LGraph T} (h : TermReady R N G) (ht : isTriviallyTerminating G = true) :
    ¬ G.Diverges R := by
  rintro ⟨f, h0, hf⟩
  obtain ⟨e, he, hF⟩ := hf 0
  obtain ⟨e', he', hF'⟩ := hf 1
  rw [isTriviallyTerminating, Bool.or_eq_true] at ht
  rcases ht with ht | ht
  · rw [List.isEmpty_iff] at ht; rw [ht] at he; cases he
  · rw [List.all_eq_true] at ht
    have := of_decide_eq_true (ht e' he')
    rw [← hF'.src, hF.tgt] at this
    exact (h.ok.ends e he).1 this

theorem walk_two {G : LGraph T} {o : List Pred} (ho : reversePostOrder G = some o) {u v : Pred} (h : G.NoStray) {e : LEdge T} (he : e ∈ G)
    (heq : o = [u, v]) : e.src = u ∨ e.src = v := by
  obtain ⟨o', ho', _, _, hm⟩ := C41_reversePostOrder_exact G
  rw [ho] at ho'; cases ho'
  have := (hm e.src).2 (h e he)
  rw [heq] at this
  simpa using this

/-- A graph that passes the test, without edges that cannot be reached, has the shape. -/
theorem loopShape_of_test {R : PRepr} {N : Pred} {G : LGraph T} (h : TermReady R N G) (hn : G.NoStray) (ht : isTSWithoutQuery G = true) :
    ∃ v eI eL, LoopShape G v eI eL := by
  unfold isTSWithoutQuery at ht
  split at ht
  · rename_i beg loop ho
    simp only [Bool.and_eq_true, decide_eq_true_eq, beq_iff_eq, List.all_eq_true] at ht
    obtain ⟨⟨⟨⟨rfl, h1⟩, h2⟩, h3⟩, h4⟩ := ht
    obtain ⟨eI, hI⟩ := length_one h1
    obtain ⟨eL, hL⟩ := length_one h3
    have mI : eI ∈ G.out .tru := by rw [hI]; simp
    have mL : eL ∈ G.out loop := by rw [hL]; simp
    have tI := h2 eI mI
    refine ⟨loop, eI, eL, ⟨?_, ?_⟩, ho, (mem_out.1 mI).1, (mem_out.1 mL).1, (mem_out.1 mI).2, tI, (mem_out.1 mL).2,
      h4 eL mL, ?_, List.Nodup.of_map _ h.ok.ids⟩
    · rw [← tI]; exact (h.ok.ends eI (mem_out.1 mI).1).1
    · rw [← tI]; exact h.noGoal eI (mem_out.1 mI).1
    · intro e he
      rcases walk_two ho hn he rfl with hs | hs
      · left
        have : e ∈ G.out .tru := mem_out.2 ⟨he, hs⟩
        rw [hI] at this; simpa using this
      · right
        have : e ∈ G.out loop := mem_out.2 ⟨he, hs⟩
        rw [hL] at this; simpa using this
  · cases ht

section
variable {R : PRepr} {N : Pred} {G : LGraph T}

theorem final_ends (h : TermReady R N G) (S : Smt T) {e : LEdge T} (he : e ∈ finalGraph S R N G) :
    (e.src = N ∧ e.tgt = N) ∨ (e.src = .tru ∧ e.tgt = N ∧ ∃ e' ∈ G, e'.src = .tru) := by
  obtain ⟨_, h2, _⟩ := final_facts h.ok S
  obtain ⟨l, hl, e1, e2⟩ := h2 e he
  rcases (mem_contracted h.ok).1 hl with rfl | ⟨e', he', rfl, hc | hc⟩
  · exact .inl ⟨e1, e2⟩
  · have := cross_in_ends h.ok hc.1 hc.2
    exact .inr ⟨e1.trans this.1, e2.trans this.2, e', he', hc.1⟩
  · exact absurd hc.2 (h.noGoal e' he')

/-- With an entry edge, the final graph of the single-loop transformation has the shape. -/
theorem final_loopShape (h : TermReady R N G) (S : Smt T) (hin : ∃ e ∈ G, e.src = .tru) :
    ∃ eI eL, LoopShape (finalGraph S R N G) N eI eL := by
  obtain ⟨_, _, h3, h4, h5, _⟩ := final_facts h.ok S
  obtain ⟨e, he, hs⟩ := hin
  have hc : e.src = .tru ∧ e.tgt ∈ loopVertices G := by
    rcases h.ok.cases he with hc | hc | hc
    · exact hc
    · rw [hs] at hc; exact absurd hc.1 h.ok.contr.tru
    · rw [hs] at hc; exact absurd hc.1 h.ok.contr.tru
  have hce := cross_in_ends h.ok hc.1 hc.2
  obtain ⟨eI, mI, sI, tI⟩ := h3 _ ((mem_contracted h.ok).2 (.inr ⟨e, he, rfl, .inl hc⟩))
  obtain ⟨eL, mL, sL, tL⟩ := h3 _ ((mem_contracted h.ok).2 (.inl rfl))
  have sI := sI.trans hce.1
  have tI := tI.trans hce.2
  refine ⟨eI, eL, h.ok.newNe, ?_, mI, mL, sI, tI, sL, tL, ?_, h5⟩
  · obtain ⟨o, ho, hh, hnd, hm⟩ := C41_reversePostOrder_exact (finalGraph S R N G)
    have hw : ∀ v, Walk (finalGraph S R N G).succ .tru v → v = .tru ∨ v = N := by
      intro v hv
      cases hv with
      | refl => exact .inl rfl
      | snoc _ hl =>
        obtain ⟨l, hl', rfl⟩ := List.mem_map.1 hl
        rcases final_ends h S (mem_out.1 hl').1 with h6 | h6
        · exact .inr h6.2
        · exact .inr h6.2.1
    obtain ⟨rest, rfl⟩ : ∃ rest, o = .tru :: rest := by
      cases o with
      | nil => cases hh
      | cons a rest => rw [List.head?_cons, Option.some.injEq] at hh; exact ⟨rest, by rw [hh]⟩
    rw [List.nodup_cons] at hnd
    have hN : N ∈ rest := by
      have : N ∈ Pred.tru :: rest := (hm N).2 (.snoc (.refl _) (List.mem_map.2 ⟨eI, mem_out.2 ⟨mI, sI⟩, tI⟩))
      exact (List.mem_cons.1 this).resolve_left h.ok.newNe.1
    have : rest = [N] := singleton_of hnd.2 hN fun v hv => by
      rcases hw v ((hm v).1 (List.mem_cons_of_mem _ hv)) with rfl | h6
      · exact absurd hv hnd.1
      · exact h6
    rw [ho, this]
  · intro e' he'
    rcases final_ends h S he' with h6 | h6
    · exact .inr (h4 e' he' eL mL (h6.1.trans sL.symm) (h6.2.trans tL.symm))
    · exact .inl (h4 e' he' eI mI (h6.1.trans sI.symm) (h6.2.1.trans tI.symm))

/-- Without an entry edge there is no transition system. -/
theorem final_none (h : TermReady R N G) (S : Smt T) (E : ElimExcept T) (hin : ¬ ∃ e ∈ G, e.src = .tru) :
    singleLoop S R E N G = none := by
  obtain ⟨o, ho, hh, hnd, hm⟩ := C41_reversePostOrder_exact (finalGraph S R N G)
  have hw : ∀ v, Walk (finalGraph S R N G).succ .tru v → v = .tru := by
    intro v hv
    induction hv with
    | refl => rfl
    | snoc _ hl ih =>
      subst ih
      obtain ⟨l, hl', rfl⟩ := List.mem_map.1 hl
      rcases final_ends h S (mem_out.1 hl').1 with h6 | h6
      · exact absurd (h6.1.symm.trans (mem_out.1 hl').2) h.ok.newNe.1
      · exact absurd h6.2.2 hin
  have : o = [.tru] := by
    cases o with
    | nil => cases hh
    | cons a rest =>
      rw [List.head?_cons, Option.some.injEq] at hh
      subst hh
      rw [List.nodup_cons] at hnd
      cases rest with
      | nil => rfl
      | cons b rest =>
        obtain rfl := hw b ((hm b).1 (by simp))
        exact absurd (List.mem_cons_self ..) hnd.1
  subst this
  rw [singleLoop, toTransitionSystemNoQuery, ho]
  simp only [toTransitionSystem, ho]

/-- The transition system of the front end: it is well formed, keeps auxiliary variables apart, and its infinite runs are those
of the graph. -/
theorem extract_ok (h : TermReady R N G) {S : Smt T} {E : ElimExcept T} (hE : E.Exact) {ts : TS T}
    (hn : isTSWithoutQuery G = true → G.NoStray) (hx : extractTS S R E N G = some ts) :
    ts.WF ∧ ts.AuxSep ∧ (G.Diverges R ↔ ts.sem.InfiniteRun) ∧ ∀ x ∈ ts.stateVars, ∃ n, x = .ver n 0 := by
  unfold extractTS at hx
  split at hx
  · rename_i ht
    obtain ⟨v, eI, eL, hs⟩ := loopShape_of_test h (hn ht) ht
    rw [hs.extract] at hx
    cases hx
    exact ⟨hs.wf h.ok.wf hE h.ok.label, hs.auxSep h.ok.wf hE h.ok.label h.ok.aux,
      hs.diverges h.ok.wf hE (h.ok.label _ hs.mI), fun x hx => by
        obtain ⟨n, _, rfl⟩ := List.mem_map.1 hx; exact ⟨n, rfl⟩⟩
  · by_cases hin : ∃ e ∈ G, e.src = .tru
    · obtain ⟨eI, eL, hs⟩ := final_loopShape h S hin
      obtain ⟨f1, _, _, _, _, f6, f7⟩ := final_facts h.ok S
      have hR' := contract_wf h.ok.contr
      rw [singleLoop, hs.extract] at hx
      cases hx
      refine ⟨hs.wf hR' hE f6, hs.auxSep hR' hE f6 f7, ?_, fun x hx => by
        obtain ⟨n, _, rfl⟩ := List.mem_map.1 hx; exact ⟨n, rfl⟩⟩
      rw [contractedGraph_diverges h.ok, ← ldiverges_of_rules f1]
      exact hs.diverges hR' hE (f6 _ hs.mI)
    · rw [final_none h S E hin] at hx; cases hx

end

end Golem
