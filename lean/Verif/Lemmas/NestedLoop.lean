import Verif.Model.NestedLoop
import Verif.Props.TPAGraph

/-! Contraction of one cycle of a linear graph. -/

namespace Golem
variable {T : Theory}

theorem nodup_length_le_of {α : Type} [DecidableEq α] {l m : List α} (hn : l.Nodup) (hs : ∀ e ∈ l, e ∈ m) : l.length ≤ m.length := by
  induction l generalizing m with
  | nil => simp
  | cons a l ih =>
    rw [List.nodup_cons] at hn
    have ha := hs a (by simp)
    have := ih (m := m.erase a) hn.2 fun e he => by
      rw [List.mem_erase_of_ne]
      · exact hs e (by simp [he])
      · rintro rfl; exact hn.1 he
    rw [List.length_erase_of_mem ha] at this
    have : 0 < m.length := List.length_pos_of_mem ha
    simp only [List.length_cons]
    omega

/-! ### Names -/

/-- The name is not made up for a vertex, unless it is one of those contracted before. -/
def NameOk (dead : List Pred) (n : Name) : Prop := ∀ p, p ∉ dead → n ≠ locName p ∧ ∀ i, n ≠ .arg p.symNo i

theorem NameOk.mono {d d' : List Pred} {n : Name} (h : NameOk d n) (hs : ∀ p ∈ d, p ∈ d') : NameOk d' n :=
  fun p hp => h p fun hd => hp (hs p hd)

theorem contractedArgs_cases {R : PRepr} {vs : List Pred} {n : Name} (h : n ∈ contractedArgs R vs) :
    ∃ p ∈ vs, n = locName p ∨ ∃ i, n = .arg p.symNo i := by
  rcases List.mem_append.1 h with h | h
  · obtain ⟨p, hp, rfl⟩ := List.mem_map.1 h; exact ⟨p, hp, .inl rfl⟩
  · obtain ⟨p, hp, h⟩ := List.mem_flatMap.1 h
    exact ⟨p, hp, .inr (mem_argNames h)⟩

theorem NameOk.not_contracted {R : PRepr} {d vs : List Pred} {n : Name} (h : NameOk d n) (hv : ∀ p ∈ vs, p ∉ d) :
    n ∉ contractedArgs R vs := by
  intro hm
  obtain ⟨p, hp, h1 | ⟨i, h1⟩⟩ := contractedArgs_cases hm
  · exact (h p (hv p hp)).1 h1
  · exact (h p (hv p hp)).2 i h1

theorem contracted_nameOk {R : PRepr} {d vs : List Pred} {n : Name} (h : n ∈ contractedArgs R vs) (hs : ∀ p ∈ vs, p ∈ d) : NameOk d n := by
  intro q hq
  obtain ⟨p, hp, rfl | ⟨i, rfl⟩⟩ := contractedArgs_cases h
  · refine ⟨fun e => hq ?_, by simp [locName]⟩
    rw [← symNo_inj (by simpa [locName] using e : p.symNo = q.symNo)]; exact hs p hp
  · refine ⟨by simp [locName], fun j e => hq ?_⟩
    simp only [Name.arg.injEq] at e
    rw [← symNo_inj e.1]; exact hs p hp

/-! ### Graphs during the contractions -/

/-- A graph from which the vertices `dead` have been removed; `new` may still be used as a symbol. -/
structure NestOk (dead : List Pred) (new : Pred → Prop) (R : PRepr) (G : LGraph T) : Prop where
  wf : R.WF
  label : ∀ e ∈ G, e.LabelOk R
  ids : (G.map LEdge.id).Nodup
  ends : ∀ e ∈ G, e.tgt ≠ .tru ∧ e.src ≠ .fls
  live : ∀ e ∈ G, e.src ∉ dead ∧ e.tgt ∉ dead
  argNm : ∀ p, ∀ n ∈ R.args p, NameOk dead n ∧ ∀ i, n ≠ .et i
  lblNm : ∀ e ∈ G, ∀ x ∈ e.fla.vars, NameOk dead x.nm
  fresh : ∀ e ∈ G, ¬ new e.src ∧ ¬ new e.tgt
  freshDead : ∀ p ∈ dead, ¬ new p
  freshEnds : ¬ new .tru ∧ ¬ new .fls

/-- A set of vertices that can be contracted: each has an edge in and an edge out. -/
structure Picked (G : LGraph T) (vs : List Pred) : Prop where
  nodup : vs.Nodup
  out : ∀ p ∈ vs, ∃ e ∈ G, e.src = p
  inc : ∀ p ∈ vs, ∃ e ∈ G, e.tgt = p

section
variable {dead : List Pred} {new : Pred → Prop} {R : PRepr} {N : Pred} {G : LGraph T} {vs : List Pred}

theorem NestOk.pickedLive (h : NestOk dead new R G) (hp : Picked G vs) : ∀ p ∈ vs, p ∉ dead ∧ ¬ new p := by
  intro p hm
  obtain ⟨e, he, rfl⟩ := hp.out p hm
  exact ⟨(h.live e he).1, (h.fresh e he).1⟩

theorem NestOk.contr (h : NestOk dead new R G) (hp : Picked G vs) (hN : new N) : Contractible R N vs where
  wf := h.wf
  nodup := hp.nodup
  new hm := (h.pickedLive hp N hm).2 hN
  ntru e := h.freshEnds.1 (e ▸ hN)
  nfls e := h.freshEnds.2 (e ▸ hN)
  tru hm := by obtain ⟨e, he, h1⟩ := hp.inc _ hm; exact (h.ends e he).1 h1
  fls hm := by obtain ⟨e, he, h1⟩ := hp.out _ hm; exact (h.ends e he).2 h1
  fresh p n hn := (h.argNm p n hn).1.not_contracted fun q hq => (h.pickedLive hp q hq).1

theorem NestOk.labelFresh (h : NestOk dead new R G) (hp : Picked G vs) {e : LEdge T} (he : e ∈ G) :
    ∀ x ∈ e.fla.vars, x.nm ∉ contractedArgs R vs :=
  fun x hx => (h.lblNm e he x hx).not_contracted fun q hq => (h.pickedLive hp q hq).1

theorem NestOk.ne_new (h : NestOk dead new R G) (hN : new N) {e : LEdge T} (he : e ∈ G) : e.src ≠ N ∧ e.tgt ≠ N :=
  ⟨fun e1 => (h.fresh e he).1 (e1 ▸ hN), fun e1 => (h.fresh e he).2 (e1 ▸ hN)⟩

/-- The edges after the contraction. -/
theorem mem_contractVertices {l : LEdge T} : l ∈ contractVertices R N vs G ↔
    l = loopEdge R N vs G ∨ ∃ e ∈ G, l = crossEdge R N vs e ∧ ¬ (e.src ∈ vs ∧ e.tgt ∈ vs) := by
  simp only [contractVertices, List.mem_append, List.mem_map, List.mem_filter, List.mem_singleton, innerEdge]
  constructor
  · rintro (⟨e, ⟨he, hin⟩, rfl⟩ | rfl)
    · exact .inr ⟨e, he, rfl, by grind⟩
    · exact .inl rfl
  · rintro (rfl | ⟨e, he, rfl, hc⟩)
    · exact .inr rfl
    · exact .inl ⟨e, ⟨he, by grind⟩, rfl⟩

theorem crossEdge_ends {e : LEdge T} (hc : ¬ (e.src ∈ vs ∧ e.tgt ∈ vs)) :
    (crossEdge R N vs e).src = (if e.src ∈ vs then N else e.src) ∧
    (crossEdge R N vs e).tgt = (if e.tgt ∈ vs then N else e.tgt) := by
  unfold crossEdge
  by_cases h1 : e.src ∈ vs
  · have h2 : e.tgt ∉ vs := fun h2 => hc ⟨h1, h2⟩
    simp [h1, h2]
  · by_cases h2 : e.tgt ∈ vs <;> simp [h1, h2]

/-- The variables of an updated edge. -/
theorem crossEdge_vars (hR : R.WF) {e : LEdge T} (hc : ¬ (e.src ∈ vs ∧ e.tgt ∈ vs)) {x : Var} (hx : x ∈ (crossEdge R N vs e).fla.vars) :
    (e.src ∈ vs ∧ ∃ n ∈ contractedArgs R vs, x = .ver n 0) ∨ (e.tgt ∈ vs ∧ ∃ n ∈ contractedArgs R vs, x = .ver n 1) ∨
    (x ∈ e.fla.vars ∧ (e.src ∈ vs → x ∉ R.stateVars e.src) ∧ (e.tgt ∈ vs → x ∉ R.nextVars e.tgt)) := by
  unfold crossEdge at hx
  split at hx
  · rename_i hs
    have ht : e.tgt ∉ vs := fun h2 => hc ⟨hs, h2⟩
    rw [varSubstitute, Fla.mem_vars_subst] at hx
    obtain ⟨y, hy, hx⟩ := hx
    rw [← List.append_nil (List.zip _ _)] at hx
    by_cases hy' : y ∈ R.stateVars e.src
    · have := fn_zip_mem (stateVars_nodup hR e.src) (ts := (argNames R e.src).map fun n => (Tm.var (.ver n 0) : Tm T))
        (by simp [argNames_length, PRepr.stateVars]) hy' []
      obtain ⟨n, hn, e1⟩ := List.mem_map.1 this
      rw [← e1] at hx
      simp only [Tm.vars, List.mem_singleton] at hx
      exact .inl ⟨hs, n, arg_mem hs hn, hx⟩
    · rw [fn_zip_skip' hy', fn_nil] at hx
      simp only [Tm.vars, List.mem_singleton] at hx
      subst hx
      simp only [Fla.vars, locFla, Tm.vars, List.mem_append, List.mem_singleton] at hy
      rcases hy with hy | rfl
      · exact .inr (.inr ⟨hy, fun _ => hy', fun h => absurd h ht⟩)
      · exact .inl ⟨hs, _, loc_mem hs, rfl⟩
  · rename_i hs
    split at hx
    · rename_i ht
      obtain ⟨f, hf, hx⟩ := Fla.mem_vars_conj.1 hx
      simp only [List.mem_cons, List.not_mem_nil, or_false] at hf
      rcases hf with rfl | rfl | rfl
      · obtain ⟨f, hf, hx⟩ := Fla.mem_vars_conj.1 hx
        obtain ⟨q, hq, rfl⟩ := List.mem_map.1 hf
        obtain ⟨hq, _⟩ := List.mem_filter.1 hq
        simp only [Fla.vars, locFla, Tm.vars, List.mem_singleton] at hx
        exact .inr (.inl ⟨ht, _, loc_mem hq, hx⟩)
      · simp only [Fla.vars, locFla, Tm.vars, List.mem_singleton] at hx
        exact .inr (.inl ⟨ht, _, loc_mem ht, hx⟩)
      · rw [varSubstitute, Fla.mem_vars_subst] at hx
        obtain ⟨y, hy, hx⟩ := hx
        rw [← List.append_nil (List.zip _ _)] at hx
        by_cases hy' : y ∈ R.nextVars e.tgt
        · have := fn_zip_mem (nextVars_nodup hR e.tgt) (ts := (argNames R e.tgt).map fun n => (Tm.var (.ver n 1) : Tm T))
            (by simp [argNames_length, PRepr.nextVars]) hy' []
          obtain ⟨n, hn, e1⟩ := List.mem_map.1 this
          rw [← e1] at hx
          simp only [Tm.vars, List.mem_singleton] at hx
          exact .inr (.inl ⟨ht, n, arg_mem ht hn, hx⟩)
        · rw [fn_zip_skip' hy', fn_nil] at hx
          simp only [Tm.vars, List.mem_singleton] at hx
          subst hx
          exact .inr (.inr ⟨hy, fun h => absurd h hs, fun _ => hy'⟩)
    · rename_i ht
      exact .inr (.inr ⟨hx, fun h => absurd h hs, fun h => absurd h ht⟩)

theorem auxName_contract_of {n : Name} (h : R.AuxName n) (hn : n ∉ contractedArgs R vs) : (R.contract N vs).AuxName n := by
  intro p
  simp only [PRepr.contract]
  split
  · exact hn
  · exact h p

/-- The contraction keeps the assumptions on the graph. -/
theorem NestOk.step (h : NestOk dead new R G) (hp : Picked G vs) (hN : new N) :
    NestOk (dead ++ vs) (fun p => new p ∧ p ≠ N) (R.contract N vs) (contractVertices R N vs G) := by
  have hc := h.contr hp hN
  have hNd : N ∉ dead ++ vs := by
    intro hm
    rcases List.mem_append.1 hm with hm | hm
    · exact h.freshDead N hm hN
    · exact hc.new hm
  have hsub : ∀ p ∈ dead, p ∈ dead ++ vs := fun p hp => List.mem_append.2 (.inl hp)
  have hsub' : ∀ p ∈ vs, p ∈ dead ++ vs := fun p hp => List.mem_append.2 (.inr hp)
  refine ⟨contract_wf hc, ?_, ?_, ?_, ?_, ?_, ?_, ?_, ?_, ?_⟩
  · intro l hl x hx
    rcases mem_contractVertices.1 hl with rfl | ⟨e, he, rfl, hb⟩
    · rcases loop_vars_of h.wf hx with h1 | h1 | ⟨j, rfl⟩
      · exact .inl h1
      · exact .inr (.inl h1)
      · refine .inr (.inr (.inl ⟨_, rfl, fun p => ?_⟩))
        simp only [PRepr.contract]
        split
        · exact et_not_contracted
        · intro hm; exact (h.argNm p _ hm).2 j rfl
    · obtain ⟨e1, e2⟩ := crossEdge_ends (R := R) (N := N) hb
      rcases crossEdge_vars h.wf hb hx with ⟨hs, n, hn, rfl⟩ | ⟨ht, n, hn, rfl⟩ | ⟨hx', h1, h2⟩
      · rw [e1, if_pos hs]; exact .inl (state_contract hn)
      · rw [e2, if_pos ht]; exact .inr (.inl (next_contract hn))
      · have hnc := h.labelFresh hp he x hx'
        have hne := h.ne_new hN he
        rcases h.label e he x hx' with h3 | h3 | h3
        · have : e.src ∉ vs := fun hs => h1 hs h3
          rw [e1, if_neg this, state_old hne.1]; exact .inl h3
        · have : e.tgt ∉ vs := fun hs => h2 hs h3
          rw [e2, if_neg this, next_old hne.2]; exact .inr (.inl h3)
        · refine .inr (.inr ?_)
          rcases h3 with ⟨n, rfl, hn⟩ | ⟨n, rfl, hn⟩
          · exact .inl ⟨n, rfl, auxName_contract_of hn hnc⟩
          · refine .inr ⟨n, rfl, fun s hs => ?_⟩
            simp only [List.mem_singleton] at hs
            subst hs
            rw [e1]
            split
            · rw [contract_args_new]; exact hnc
            · rw [contract_args_ne hne.1]; exact hn _ (by simp)
  · simp only [contractVertices, List.map_append, List.map_cons, List.map_nil, List.map_map]
    rw [List.nodup_append]
    have e1 : (LEdge.id ∘ crossEdge R N vs) = (LEdge.id : LEdge T → Nat) := funext fun e => crossEdge_id _ e
    rw [e1]
    refine ⟨(List.Sublist.map _ List.filter_sublist).nodup h.ids, by simp, ?_⟩
    intro a ha b hb hab
    simp only [List.mem_singleton, loopEdge] at hb
    obtain ⟨e, he, rfl⟩ := List.mem_map.1 ha
    have := (le_foldl_max (G.map LEdge.id) 0).2 e.id (List.mem_map.2 ⟨e, (List.mem_filter.1 he).1, rfl⟩)
    omega
  · intro l hl
    rcases mem_contractVertices.1 hl with rfl | ⟨e, he, rfl, hb⟩
    · exact ⟨hc.ntru, hc.nfls⟩
    · obtain ⟨e1, e2⟩ := crossEdge_ends (R := R) (N := N) hb
      rw [e1, e2]
      constructor
      · split
        · exact hc.ntru
        · exact (h.ends e he).1
      · split
        · exact hc.nfls
        · exact (h.ends e he).2
  · intro l hl
    rcases mem_contractVertices.1 hl with rfl | ⟨e, he, rfl, hb⟩
    · exact ⟨hNd, hNd⟩
    · obtain ⟨e1, e2⟩ := crossEdge_ends (R := R) (N := N) hb
      rw [e1, e2]
      constructor
      · split
        · exact hNd
        · rename_i hs; simp [hs, (h.live e he).1]
      · split
        · exact hNd
        · rename_i hs; simp [hs, (h.live e he).2]
  · intro p n hn
    simp only [PRepr.contract] at hn
    split at hn
    · refine ⟨contracted_nameOk hn hsub', ?_⟩
      rintro i rfl
      exact et_not_contracted hn
    · exact ⟨(h.argNm p n hn).1.mono hsub, (h.argNm p n hn).2⟩
  · intro l hl x hx
    rcases mem_contractVertices.1 hl with rfl | ⟨e, he, rfl, hb⟩
    · rcases loop_vars_of h.wf hx with h1 | h1 | ⟨j, rfl⟩
      · obtain ⟨n, hn, rfl⟩ := List.mem_map.1 h1
        rw [contract_args_new] at hn
        exact contracted_nameOk hn hsub'
      · obtain ⟨n, hn, rfl⟩ := List.mem_map.1 h1
        rw [contract_args_new] at hn
        exact contracted_nameOk hn hsub'
      · intro p _; simp [Var.nm, locName]
    · rcases crossEdge_vars h.wf hb hx with ⟨hs, n, hn, rfl⟩ | ⟨ht, n, hn, rfl⟩ | ⟨hx', h1, h2⟩
      · exact contracted_nameOk hn hsub'
      · exact contracted_nameOk hn hsub'
      · exact (h.lblNm e he x hx').mono hsub
  · intro l hl
    rcases mem_contractVertices.1 hl with rfl | ⟨e, he, rfl, hb⟩
    · exact ⟨fun h => h.2 rfl, fun h => h.2 rfl⟩
    · obtain ⟨e1, e2⟩ := crossEdge_ends (R := R) (N := N) hb
      rw [e1, e2]
      constructor
      · split
        · exact fun h => h.2 rfl
        · exact fun hn => (h.fresh e he).1 hn.1
      · split
        · exact fun h => h.2 rfl
        · exact fun hn => (h.fresh e he).2 hn.1
  · intro p hm hn
    rcases List.mem_append.1 hm with hm | hm
    · exact h.freshDead p hm hn.1
    · exact (h.pickedLive hp p hm).2 hn.1
  · exact ⟨fun hn => h.freshEnds.1 hn.1, fun hn => h.freshEnds.2 hn.1⟩

theorem contract_oneLoop (h : NestOk dead new R G) (hN : new N) (h1 : G.OneLoop) :
    (contractVertices R N vs G).OneLoop := by
  have key : ∀ l ∈ contractVertices R N vs G, l.src = l.tgt → (l = loopEdge R N vs G ∧ l.src = N) ∨
      (l ∈ G ∧ l.src ∉ vs ∧ l.src ≠ N) := by
    intro l hl he
    rcases mem_contractVertices.1 hl with rfl | ⟨e, heG, rfl, hb⟩
    · exact .inl ⟨rfl, rfl⟩
    · obtain ⟨e1, e2⟩ := crossEdge_ends (R := R) (N := N) hb
      have hne := h.ne_new hN heG
      have hs : e.src ∉ vs := by
        intro hs
        have ht : e.tgt ∉ vs := fun ht => hb ⟨hs, ht⟩
        rw [e1, e2, if_pos hs, if_neg ht] at he
        exact hne.2 he.symm
      have ht : e.tgt ∉ vs := by
        intro ht
        rw [e1, e2, if_neg hs, if_pos ht] at he
        exact hne.1 he
      have hce : crossEdge R N vs e = e := by simp [crossEdge, hs, ht]
      rw [hce]
      exact .inr ⟨heG, hs, hne.1⟩
  intro l hl l' hl' he hs ht
  rcases key l hl he with ⟨rfl, a⟩ | ⟨a, b, c⟩
  · rcases key l' hl' (by rw [hs, ht]; exact he) with ⟨rfl, _⟩ | ⟨_, _, c'⟩
    · rfl
    · exact absurd (hs.trans a) c'
  · rcases key l' hl' (by rw [hs, ht]; exact he) with ⟨rfl, a'⟩ | ⟨a', _, _⟩
    · exact absurd (hs.symm.trans a') c
    · exact h1 l a l' a' he hs ht

/-- Vertices that are not contracted stay. -/
theorem contract_vertex {p : Pred} : (contractVertices R N vs G).Vertex p → p = N ∨ (G.Vertex p ∧ p ∉ vs) := by
  rintro ⟨l, hl, hp⟩
  rcases mem_contractVertices.1 hl with rfl | ⟨e, he, rfl, hb⟩
  · rcases hp with rfl | rfl <;> exact .inl rfl
  · obtain ⟨e1, e2⟩ := crossEdge_ends (R := R) (N := N) hb
    rw [e1, e2] at hp
    rcases hp with hp | hp
    · split at hp
      · exact .inl hp
      · rename_i ht; subst hp; exact .inr ⟨⟨e, he, .inl rfl⟩, ht⟩
    · split at hp
      · exact .inl hp
      · rename_i ht; subst hp; exact .inr ⟨⟨e, he, .inr rfl⟩, ht⟩

theorem vertex_contract {p : Pred} (hp : G.Vertex p) (hv : p ∉ vs) : (contractVertices R N vs G).Vertex p := by
  obtain ⟨e, he, hpe⟩ := hp
  have hb : ¬ (e.src ∈ vs ∧ e.tgt ∈ vs) := by
    rintro ⟨h1, h2⟩
    rcases hpe with rfl | rfl
    · exact hv h2
    · exact hv h1
  obtain ⟨e1, e2⟩ := crossEdge_ends (R := R) (N := N) hb
  refine ⟨_, mem_contractVertices.2 (.inr ⟨e, he, rfl, hb⟩), ?_⟩
  rw [e1, e2]
  rcases hpe with rfl | rfl
  · rw [if_neg hv]; exact .inl rfl
  · rw [if_neg hv]; exact .inr rfl

/-- The number of vertices goes down. -/
theorem contract_fewer (h : NestOk dead new R G) (hp : Picked G vs) (hN : new N) (h2 : 1 < vs.length) :
    (getVertices (contractVertices R N vs G)).length < (getVertices G).length := by
  have hc := h.contr hp hN
  have hvs : ∀ p ∈ vs, p ∈ getVertices G := by
    intro p hm
    obtain ⟨e, he, rfl⟩ := hp.out p hm
    exact (mem_getVertices he).1
  have h1 : (getVertices (contractVertices R N vs G)).length ≤ (N :: (getVertices G).filter fun p => decide (p ∉ vs)).length := by
    refine nodup_length_le_of (getVertices_nodup _) fun p hm => ?_
    by_cases ht : p = .tru
    · subst ht
      refine List.mem_cons_of_mem _ (List.mem_filter.2 ⟨?_, by simpa using hc.tru⟩)
      simp [getVertices]
    by_cases hf : p = .fls
    · subst hf
      refine List.mem_cons_of_mem _ (List.mem_filter.2 ⟨?_, by simpa using hc.fls⟩)
      simp [getVertices]
    rcases contract_vertex ((mem_getVertices_iff ht hf).1 hm) with rfl | ⟨h1, h2⟩
    · simp
    · exact List.mem_cons_of_mem _ (List.mem_filter.2 ⟨(mem_getVertices_iff ht hf).2 h1, by simpa using h2⟩)
  have h3 : vs.length + ((getVertices G).filter fun p => decide (p ∉ vs)).length ≤ (getVertices G).length := by
    have : (vs ++ (getVertices G).filter fun p => decide (p ∉ vs)).length ≤ (getVertices G).length := by
      refine nodup_length_le_of ?_ ?_
      · rw [List.nodup_append]
        refine ⟨hp.nodup, (getVertices_nodup _).filter _, ?_⟩
        rintro a ha b hb rfl
        have := (List.mem_filter.1 hb).2
        simp [ha] at this
      · intro p hm
        rcases List.mem_append.1 hm with hm | hm
        · exact hvs p hm
        · exact (List.mem_filter.1 hm).1
    simpa using this
  simp only [List.length_cons] at h1
  omega

/-! ### Facts before and after a contraction -/

/-- The fact of the contracted graph stands for the fact of the graph. -/
def Enc (R : PRepr) (N : Pred) (vs : List Pred) (f f' : Fact T) : Prop :=
  (f.1 ∉ vs ∧ f' = f) ∨ (f.1 ∈ vs ∧ ∃ σ, AtLoc R vs f.1 f.2 σ ∧ f' = encFact R N vs σ)

theorem Enc.old {f : Fact T} (h : f.1 ∉ vs) : Enc R N vs f f := .inl ⟨h, rfl⟩

theorem exists_enc {f : Fact T} (hl : f.2.length = (R.args f.1).length) : ∃ f', Enc R N vs f f' := by
  by_cases hv : f.1 ∈ vs
  · obtain ⟨σ, hσ⟩ := exists_atLoc R vs f.1 f.2 hl
    exact ⟨_, .inr ⟨hv, σ, hσ, rfl⟩⟩
  · exact ⟨f, .old hv⟩

theorem fires_old (hN : new N) (h : NestOk dead new R G) {e : LEdge T} (he : e ∈ G) {f g : Fact T} :
    e.Fires (R.contract N vs) f g ↔ e.Fires R f g := by
  have hne := h.ne_new hN he
  unfold LEdge.Fires LEdge.srcFact LEdge.tgtFact
  rw [state_old hne.1, next_old hne.2]

/-- Every step of the graph is a step of the contracted graph, whatever the encodings. -/
theorem enc_forward (h : NestOk dead new R G) (hp : Picked G vs) (hN : new N) {e : LEdge T} (he : e ∈ G) {f g f' g' : Fact T}
    (hF : e.Fires R f g) (hf : Enc R N vs f f') (hg : Enc R N vs g g') :
    ∃ e' ∈ contractVertices R N vs G, e'.Fires (R.contract N vs) f' g' := by
  have hc := h.contr hp hN
  have hs := hF.src
  have ht := hF.tgt
  have hne := h.ne_new hN he
  rcases hf with ⟨hf, rfl⟩ | ⟨hf, σ, hσ, rfl⟩ <;> rcases hg with ⟨hg, rfl⟩ | ⟨hg, τ, hτ, rfl⟩
  · rw [hs] at hf; rw [ht] at hg
    have hce : crossEdge R N vs e = e := by simp [crossEdge, hf, hg]
    refine ⟨_, mem_contractVertices.2 (.inr ⟨e, he, rfl, fun hb => hf hb.1⟩), ?_⟩
    rw [hce]; exact (fires_old hN h he).2 hF
  · rw [hs] at hf; rw [ht] at hg
    refine ⟨_, mem_contractVertices.2 (.inr ⟨e, he, rfl, fun hb => hf hb.1⟩), ?_⟩
    refine (cross_in_fires hc (h.labelFresh hp he) hf hne.1 hg).2 ⟨τ, g.2, rfl, ht ▸ hτ, ?_⟩
    rw [← fact_eta ht]; exact hF
  · rw [hs] at hf; rw [ht] at hg
    refine ⟨_, mem_contractVertices.2 (.inr ⟨e, he, rfl, fun hb => hg hb.2⟩), ?_⟩
    have hσ' := hs ▸ hσ
    refine (cross_out_fires hc (h.labelFresh hp he) hf hne.2).2 ⟨σ, rfl, hσ'.here, ?_⟩
    rw [hσ'.args, ← fact_eta hs]; exact hF
  · rw [hs] at hf; rw [ht] at hg
    refine ⟨_, mem_contractVertices.2 (.inl rfl), ?_⟩
    refine (loop_fires hc).2 ⟨e, he, hf, hg, σ, τ, f.2, g.2, rfl, rfl, hs ▸ hσ, ht ▸ hτ, ?_⟩
    rw [← fact_eta hs, ← fact_eta ht]; exact hF

theorem AtLoc.same {p : Pred} {v : List T.Val} {σ τ : Name → T.Val} (hσ : AtLoc R vs p v σ) (hp : p ∈ vs)
    (he : encFact R N vs σ = encFact R N vs τ) : AtLoc R vs p v τ :=
  hσ.congr hp (by simpa [encFact] using he)

/-- Every step of the contracted graph comes from a step of the graph. -/
theorem enc_back (h : NestOk dead new R G) (hp : Picked G vs) (hN : new N) {l : LEdge T} (hl : l ∈ contractVertices R N vs G)
    {f f' g' : Fact T} (hF : l.Fires (R.contract N vs) f' g') (hf : Enc R N vs f f') (hfN : f.1 ≠ N) :
    ∃ e ∈ G, ∃ g, e.Fires R f g ∧ Enc R N vs g g' ∧
      ((g.1 ∈ vs ∧ l.tgt = N) ∨ (g.1 ∉ vs ∧ e.id = l.id ∧ e.tgt = l.tgt)) := by
  have hc := h.contr hp hN
  rcases mem_contractVertices.1 hl with rfl | ⟨e, he, rfl, hb⟩
  · obtain ⟨e, he, hs, ht, σ, τ, v, w, rfl, rfl, h1, h2, h3⟩ := (loop_fires hc).1 hF
    rcases hf with ⟨_, rfl⟩ | ⟨hf, σ', hσ', e'⟩
    · exact absurd rfl hfN
    · obtain ⟨a, b⟩ := (hσ'.same hf e'.symm).unique h1 hs
      refine ⟨e, he, (e.tgt, w), ?_, .inr ⟨ht, τ, h2, rfl⟩, .inl ⟨ht, rfl⟩⟩
      have : f = (e.src, v) := by rw [fact_eta a, b]
      rw [this]; exact h3
  · have hne := h.ne_new hN he
    obtain ⟨e1, e2⟩ := crossEdge_ends (R := R) (N := N) hb
    by_cases hs : e.src ∈ vs
    · have ht : e.tgt ∉ vs := fun ht => hb ⟨hs, ht⟩
      obtain ⟨σ, rfl, h2, h3⟩ := (cross_out_fires hc (h.labelFresh hp he) hs hne.2).1 hF
      rcases hf with ⟨_, rfl⟩ | ⟨hf, σ', hσ', e'⟩
      · exact absurd rfl hfN
      · have hat := hσ'.same hf e'.symm
        have hpe : f.1 = e.src := by
          apply Classical.byContradiction
          intro hne
          have := hat.others e.src hs (fun h => hne h.symm)
          rw [h2] at this
          cases this
        have hv : (argNames R e.src).map σ = f.2 := by rw [← hat.args, hpe]
        rw [hv, ← fact_eta hpe] at h3
        refine ⟨e, he, g', h3, .old ?_, .inr ⟨?_, (crossEdge_id _ e).symm, ?_⟩⟩
        · rw [h3.tgt]; exact ht
        · rw [h3.tgt]; exact ht
        · rw [e2, if_neg ht]
    · by_cases ht : e.tgt ∈ vs
      · obtain ⟨τ, w, rfl, h1, h2⟩ := (cross_in_fires hc (h.labelFresh hp he) hs hne.1 ht).1 hF
        have hff : f = f' := by
          rcases hf with ⟨_, rfl⟩ | ⟨hf, σ', hσ', e'⟩
          · rfl
          · have := h2.src
            rw [e'] at this
            exact absurd this.symm hne.1
        subst hff
        exact ⟨e, he, _, h2, .inr ⟨ht, τ, h1, rfl⟩, .inl ⟨ht, by rw [e2, if_pos ht]⟩⟩
      · have hce : crossEdge R N vs e = e := by simp [crossEdge, hs, ht]
        rw [hce] at hF
        have hF := (fires_old hN h he).1 hF
        have hff : f = f' := by
          rcases hf with ⟨_, rfl⟩ | ⟨hf, σ', hσ', e'⟩
          · rfl
          · have := hF.src
            rw [e'] at this
            exact absurd this.symm hne.1
        subst hff
        refine ⟨e, he, g', hF, .old ?_, .inr ⟨?_, (crossEdge_id _ e).symm, ?_⟩⟩
        · rw [hF.tgt]; exact ht
        · rw [hF.tgt]; exact ht
        · rw [e2, if_neg ht]

theorem enc_path (h : NestOk dead new R G) (hp : Picked G vs) (hN : new N) {es : List (LEdge T)} {f g : Fact T}
    (hF : LFeasible R es f g) (hes : ∀ e ∈ es, e ∈ G) (hg : g.1 ∉ vs) : ∀ f', Enc R N vs f f' →
    ∃ es', (∀ e ∈ es', e ∈ contractVertices R N vs G) ∧ es'.length = es.length ∧ LFeasible (R.contract N vs) es' f' g := by
  induction hF with
  | nil f =>
    rintro f' (⟨_, rfl⟩ | ⟨hf, _⟩)
    · exact ⟨[], by simp, rfl, .nil _⟩
    · exact absurd hf hg
  | @cons e es f g k hF hp' ih =>
    intro f' hf
    obtain ⟨g', hg'⟩ := exists_enc (N := N) (vs := vs) (f := g) (by rw [hF.tgt]; exact fires_length hF)
    obtain ⟨e', he', hF'⟩ := enc_forward h hp hN (hes e (by simp)) hF hf hg'
    obtain ⟨es', a, b, c⟩ := ih (fun e he => hes e (by simp [he])) hg g' hg'
    exact ⟨e' :: es', by simpa [he'] using a, by simp [b], .cons hF' c⟩

theorem path_enc (h : NestOk dead new R G) (hp : Picked G vs) (hN : new N) {es : List (LEdge T)} {f' g' : Fact T}
    (hF : LFeasible (R.contract N vs) es f' g') (hes : ∀ e ∈ es, e ∈ contractVertices R N vs G) (hg : g'.1 ≠ N) :
    ∀ f, f.1 ≠ N → Enc R N vs f f' →
    ∃ es', (∀ e ∈ es', e ∈ G) ∧ es'.length = es.length ∧ LFeasible R es' f g' := by
  induction hF with
  | nil f' =>
    rintro f _ (⟨_, rfl⟩ | ⟨_, σ, _, rfl⟩)
    · exact ⟨[], by simp, rfl, .nil _⟩
    · exact absurd rfl hg
  | @cons e es f' g' k' hF hp' ih =>
    intro f hfN hf
    obtain ⟨e0, he0, g, hF0, hg0, _⟩ := enc_back h hp hN (hes e (by simp)) hF hf hfN
    have hgN : g.1 ≠ N := by rw [hF0.tgt]; exact (h.ne_new hN he0).2
    obtain ⟨es', a, b, c⟩ := ih (fun e he => hes e (by simp [he])) hg g hgN hg0
    exact ⟨e0 :: es', by simpa [he0] using a, by simp [b], .cons hF0 c⟩

/-- The contraction keeps the lengths of error paths. -/
theorem contract_paths (h : NestOk dead new R G) (hp : Picked G vs) (hN : new N) (n : Nat) :
    (∃ es : List (LEdge T), (∀ e ∈ es, e ∈ contractVertices R N vs G) ∧ es.length = n ∧
      LFeasible (R.contract N vs) es trueFact falseFact) ↔
    ∃ es : List (LEdge T), (∀ e ∈ es, e ∈ G) ∧ es.length = n ∧ LFeasible R es trueFact falseFact := by
  have hc := h.contr hp hN
  constructor
  · rintro ⟨es, hes, hn, hF⟩
    obtain ⟨es', a, b, c⟩ := path_enc h hp hN hF hes (fun e => hc.nfls e.symm) trueFact (fun e => hc.ntru e.symm) (.old hc.tru)
    exact ⟨es', a, b.trans hn, c⟩
  · rintro ⟨es, hes, hn, hF⟩
    obtain ⟨es', a, b, c⟩ := enc_path h hp hN hF hes hc.fls trueFact (.old hc.tru)
    exact ⟨es', a, b.trans hn, c⟩

/-! ### Interpretations -/

/-- An interpretation of the contracted graph as one of the graph. -/
def pull (R : PRepr) (N : Pred) (vs : List Pred) (I : Fact T → Prop) : Fact T → Prop := fun f =>
  (f.1 ∈ vs → ∀ σ, AtC R vs f.1 f.2 σ → I (encFact R N vs σ)) ∧ (f.1 ∉ vs → I f)

/-- Closed under the edges. -/
def Closed (R : PRepr) (G : LGraph T) (I : Fact T → Prop) : Prop := ∀ e ∈ G, ∀ f g, e.Fires R f g → I f → I g

theorem pull_closed (h : NestOk dead new R G) (hp : Picked G vs) (hN : new N) {I : Fact T → Prop}
    (hI : Closed (R.contract N vs) (contractVertices R N vs G) I) : Closed R G (pull R N vs I) := by
  intro e he f g hF hf
  have hl1 : f.2.length = (R.args f.1).length := by
    obtain ⟨ρ, _, e1, _⟩ := hF
    rw [e1]; simp [LEdge.srcFact, PRepr.stateVars]
  obtain ⟨f', hf', hIf⟩ : ∃ f', Enc R N vs f f' ∧ I f' := by
    by_cases hv : f.1 ∈ vs
    · obtain ⟨σ, hσ⟩ := exists_atC R vs f.1 f.2 hl1
      exact ⟨_, .inr ⟨hv, σ, hσ.atLoc, rfl⟩, hf.1 hv σ hσ⟩
    · exact ⟨f, .old hv, hf.2 hv⟩
  constructor
  · intro hv σ hσ
    obtain ⟨e', he', hF'⟩ := enc_forward h hp hN he hF hf' (.inr ⟨hv, σ, hσ.atLoc, rfl⟩)
    exact hI e' he' _ _ hF' hIf
  · intro hv
    obtain ⟨e', he', hF'⟩ := enc_forward h hp hN he hF hf' (.old hv)
    exact hI e' he' _ _ hF' hIf

end

end Golem
