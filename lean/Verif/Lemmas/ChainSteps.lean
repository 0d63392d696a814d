import Verif.Lemmas.ChainSafe
import Verif.Props.Unreachable

/-! A run of the chain summarizer. -/

namespace Golem
variable {T : Theory}

/-- No clause has the entry as its head or the exit in its body. -/
def Graph.Ends (G : Graph T) : Prop := ∀ e ∈ G, e.tgt ≠ .tru ∧ .fls ∉ e.src

theorem IsTriv.ends {G : Graph T} (hG : G.Ends) {v : Pred} (h : IsTriv G v) : v ≠ .tru ∧ v ≠ .fls := by
  obtain ⟨i, o, h⟩ := h
  refine ⟨by rw [← h.ti]; exact (hG i h.mi).1, ?_⟩
  rintro rfl
  exact (hG o h.mo).2 (by rw [h.so]; simp)

theorem CycleChain.inner {G : Graph T} {chain : List (Edge T)} {u w : Pred} (h : CycleChain G chain u w) {v : Pred}
    (hv : v ∈ innerOf chain) : IsTriv G v := by
  obtain ⟨i, o, _, h, _⟩ := h.closed v hv
  exact ⟨i, o, h⟩

/-- Every edge of a chain around a cycle starts in an inner vertex. -/
theorem CycleChain.sources {G : Graph T} {chain : List (Edge T)} {u w : Pred} (h : CycleChain G chain u w) {e : Edge T}
    (he : e ∈ chain) : ∃ v ∈ innerOf chain, e.src = [v] := by
  obtain ⟨i, hi, hie⟩ := List.getElem_of_mem he
  have hie' : chain[i]? = some e := by rw [List.getElem?_eq_getElem hi, hie]
  rcases h.path.sources hie' with ⟨_, hs⟩ | ⟨j, e', rfl, he', hs⟩
  · exact ⟨u, h.start, hs⟩
  · exact ⟨_, mem_innerOf.2 ⟨j, e', by omega, he', rfl⟩, hs⟩

/-- The steps of the summarizer. -/
inductive ChainRun (R : PRepr) : GS T → List (Summary T) → GS T → Prop where
  | nil {st : GS T} (hst : st.Ok R) (hends : st.edges.Ends) : ChainRun R st [] st
  | lin {st st1 st' : GS T} {chain : List (Edge T)} {s : Edge T} {u w : Pred} {ss : List (Summary T)} (hst : st.Ok R)
      (hends : st.edges.Ends) (hM : ChainMerged R st.edges st1.edges chain s u w) (hid : s.id = st.freeId)
      (hfree : st1.freeId = st.freeId + 1) (h : ChainRun R st1 ss st') : ChainRun R st ((chain, s) :: ss) st'
  | cyc {st st1 st' : GS T} {chain : List (Edge T)} {s : Edge T} {u w : Pred} {ss : List (Summary T)} (hst : st.Ok R)
      (hends : st.edges.Ends) (hM : CycleRemoved st.edges st1.edges chain s u w) (hid : s.id = st.freeId)
      (hfree : st1.freeId = st.freeId + 1) (h : ChainRun R st1 ss st') : ChainRun R st ((chain, s) :: ss) st'

section
variable {R : PRepr} {st st1 st' : GS T} {chain : List (Edge T)} {s : Edge T} {u w : Pred} {ss : List (Summary T)}

theorem ChainRun.first (h : ChainRun R st ss st') : st.Ok R ∧ st.edges.Ends := by
  cases h <;> exact ⟨‹_›, ‹_›⟩

theorem ChainRun.last (h : ChainRun R st ss st') : st'.Ok R ∧ st'.edges.Ends := by
  induction h with
  | nil h1 h2 => exact ⟨h1, h2⟩
  | lin _ _ _ _ _ _ ih => exact ih
  | cyc _ _ _ _ _ _ ih => exact ih

theorem ChainMerged.inner_ends (h : ChainMerged R st.edges st1.edges chain s u w) (hends : st.edges.Ends) :
    ∀ v ∈ innerOf chain, v ≠ .tru ∧ v ≠ .fls := fun v hv => (h.lin.inner v hv).ends hends

theorem CycleRemoved.inner_ends (h : CycleRemoved st.edges st1.edges chain s u w) (hends : st.edges.Ends) :
    ∀ v ∈ innerOf chain, v ≠ .tru ∧ v ≠ .fls := fun v hv => (h.cyc.inner hv).ends hends

theorem HPath.u_fls {es : List (Edge T)} {G : Graph T} (hp : HPath u es w) (hne : es ≠ []) (hm : ∀ e ∈ es, e ∈ G) (hG : G.Ends) :
    u ≠ .fls ∧ w ≠ .tru := by
  constructor
  · cases es with
    | nil => exact absurd rfl hne
    | cons e es =>
      rintro rfl
      exact (hG e (hm e (by simp))).2 (by rw [hp.cons_inv.1]; simp)
  · rw [← hp.last (List.getLast?_eq_some_getLast hne)]
    exact (hG _ (hm _ (List.getLast_mem _))).1

theorem ChainMerged.ends (h : ChainMerged R st.edges st1.edges chain s u w) (hends : st.edges.Ends) : st1.edges.Ends := by
  intro e he
  rcases (h.edges e).1 he with ⟨h1, _⟩ | rfl
  · exact hends e h1
  · obtain ⟨a, b⟩ := h.lin.path.u_fls h.lin.links.ne h.lin.mem hends
    rw [h.src, h.tgt]
    exact ⟨b, by simpa using Ne.symm a⟩

theorem CycleRemoved.ends (h : CycleRemoved st.edges st1.edges chain s u w) (hends : st.edges.Ends) : st1.edges.Ends :=
  fun e he => hends e ((h.edges e).1 he).1

/-- The loop terminates and makes a run, after which no vertex is trivial. -/
theorem summarizeLoop_spec (hR : R.WF) {E : Elim T} (hE : E.Exact) {order : Graph T → List Pred}
    (ho : ∀ G p, p ∈ order G ↔ G.Vertex p) :
    ∀ (fuel : Nat) (st : GS T), st.Ok R → st.edges.Ends → st.edges.length ≤ fuel →
      ∃ st' ss, summarizeLoop R E order fuel st = .done (st', ss) ∧ ChainRun R st ss st' ∧ ∀ v, ¬ IsTriv st'.edges v := by
  intro fuel
  induction fuel with
  | zero =>
    intro st hst hends hl
    have hnil : st.edges = [] := List.length_eq_zero_iff.1 (by omega)
    have hnone : (order st.edges).find? (fun v => (trivialEdges st.edges v).isSome) = none := by
      rw [List.find?_eq_none]
      intro v hv
      obtain ⟨e, he, _⟩ := (ho _ _).1 hv
      rw [hnil] at he; simp at he
    refine ⟨st, [], ?_, .nil hst hends, ?_⟩
    · unfold summarizeLoop; rw [hnone]
    · rintro v ⟨i, o, h⟩
      have := h.mi
      rw [hnil] at this; simp at this
  | succ fuel ih =>
    intro st hst hends hl
    unfold summarizeLoop
    split
    · rename_i hnone
      refine ⟨st, [], rfl, .nil hst hends, ?_⟩
      rintro v hv
      have hm : st.edges.Vertex v := by
        obtain ⟨i, o, h⟩ := hv
        exact ⟨i, h.mi, .inl h.ti.symm⟩
      exact List.find?_eq_none.1 hnone v ((ho _ _).2 hm) ((isTriv_iff hst.ids).2 hv)
    · rename_i v hsome
      have hv0 := List.find?_some hsome
      have hv := (isTriv_iff hst.ids).1 hv0
      obtain ⟨chain, u, w, hc, hlc⟩ := trivialChain_spec hst.ids hv
      have hshort := contract_shorter (E := E) hst hE hR hlc
      simp only [hc]
      have hstep : ∃ hok : (contractTrivialChain R E st chain).1.Ok R, (contractTrivialChain R E st chain).1.edges.Ends ∧
          ∀ ss st', ChainRun R (contractTrivialChain R E st chain).1 ss st' →
            ChainRun R st ((chain, (contractTrivialChain R E st chain).2) :: ss) st' := by
        rcases hlc with hl | hl
        · have hM := contract_lin hR hE hst hl
          have he := mergeTrivialChain_edge (R := R) (E := E) (st := st) hl.path hl.links.ne
          exact ⟨contract_lin_ok hR hE hst hl, hM.ends hends, fun ss st' h =>
            .lin hst hends hM (by rw [contractTrivialChain_edge, he]) rfl h⟩
        · have hM := contract_cyc (E := E) hst hl
          have he := mergeTrivialChain_edge (R := R) (E := E) (st := st) hl.path hl.ne
          exact ⟨contract_cyc_ok hR hst hl, hM.ends hends, fun ss st' h =>
            .cyc hst hends hM (by rw [contractTrivialChain_edge, he]) rfl h⟩
      obtain ⟨hok, hends', hrun⟩ := hstep
      obtain ⟨st', ss, h1, h2, h3⟩ := ih _ hok hends' (by omega)
      refine ⟨st', (chain, (contractTrivialChain R E st chain).2) :: ss, ?_, hrun _ _ h2, h3⟩
      rw [h1]

/-! ### What a run does to the vertices -/

/-- The inner vertices of all summarized chains. -/
def chainInner (ss : List (Summary T)) : List Pred := ss.flatMap fun s => innerOf s.1

theorem chainInner_cons {s : Summary T} : chainInner (s :: ss) = innerOf s.1 ++ chainInner ss := by simp [chainInner]

theorem ChainMerged.vertex (h : ChainMerged R st.edges st1.edges chain s u w) {p : Pred} :
    st1.edges.Vertex p ↔ st.edges.Vertex p ∧ p ∉ innerOf chain := by
  have hl := h.lin
  obtain ⟨_, hu, hw⟩ := hl.ends
  have hs : s ∈ st1.edges := (h.edges s).2 (.inr rfl)
  constructor
  · rintro ⟨e, he, hp⟩
    rcases (h.edges e).1 he with ⟨h1, h2⟩ | rfl
    · refine ⟨⟨e, h1, hp⟩, fun hin => h2 ?_⟩
      rcases hp with rfl | hp
      · exact hl.in_chain h1 hin
      · exact hl.out_chain h1 hin hp
    · rw [h.tgt, h.src, List.mem_singleton] at hp
      rcases hp with rfl | rfl
      · exact ⟨hl.links.vertex _ (by rw [hl.targets]; simp), hw⟩
      · exact ⟨hl.links.vertex _ (by simp), hu⟩
  · rintro ⟨⟨e, he, hp⟩, hin⟩
    by_cases hc : e ∈ chain
    · refine ⟨s, hs, ?_⟩
      rw [h.tgt, h.src, List.mem_singleton]
      rcases hp with rfl | hp
      · exact .inl ((hl.tgts hc).resolve_right hin)
      · obtain ⟨v, hv, hv'⟩ := hl.sources hc
        rw [hv, List.mem_singleton] at hp
        subst hp
        exact .inr (hv'.resolve_right hin)
    · exact ⟨e, (h.edges e).2 (.inl ⟨he, hc⟩), hp⟩

theorem CycleRemoved.vertex (h : CycleRemoved st.edges st1.edges chain s u w) {p : Pred} (hp : st1.edges.Vertex p) :
    st.edges.Vertex p ∧ p ∉ innerOf chain := by
  obtain ⟨e, he, hp⟩ := hp
  obtain ⟨h1, h2, h3⟩ := (h.edges e).1 he
  refine ⟨⟨e, h1, hp⟩, ?_⟩
  rcases hp with rfl | hp
  · exact h2
  · exact h3 p hp

theorem ChainRun.vertex (h : ChainRun R st ss st') {p : Pred} (hp : st'.edges.Vertex p) :
    st.edges.Vertex p ∧ p ∉ chainInner ss := by
  induction h with
  | nil => exact ⟨hp, by simp [chainInner]⟩
  | lin _ _ hM _ _ _ ih =>
    obtain ⟨h1, h2⟩ := ih hp
    obtain ⟨h3, h4⟩ := hM.vertex.1 h1
    exact ⟨h3, by rw [chainInner_cons, List.mem_append]; exact not_or.2 ⟨h4, h2⟩⟩
  | cyc _ _ hM _ _ _ ih =>
    obtain ⟨h1, h2⟩ := ih hp
    obtain ⟨h3, h4⟩ := hM.vertex h1
    exact ⟨h3, by rw [chainInner_cons, List.mem_append]; exact not_or.2 ⟨h4, h2⟩⟩

theorem ChainRun.inner (h : ChainRun R st ss st') {p : Pred} (hp : p ∈ chainInner ss) :
    st.edges.Vertex p ∧ p ≠ .tru ∧ p ≠ .fls := by
  induction h with
  | nil => simp [chainInner] at hp
  | lin _ hends hM _ _ _ ih =>
    rw [chainInner_cons, List.mem_append] at hp
    rcases hp with hp | hp
    · obtain ⟨i, o, hT⟩ := hM.lin.inner p hp
      exact ⟨⟨i, hT.mi, .inl hT.ti.symm⟩, hM.inner_ends hends p hp⟩
    · obtain ⟨h1, h2⟩ := ih hp
      exact ⟨(hM.vertex.1 h1).1, h2⟩
  | cyc _ hends hM _ _ _ ih =>
    rw [chainInner_cons, List.mem_append] at hp
    rcases hp with hp | hp
    · obtain ⟨i, o, hT⟩ := hM.cyc.inner hp
      exact ⟨⟨i, hT.mi, .inl hT.ti.symm⟩, hM.inner_ends hends p hp⟩
    · obtain ⟨h1, h2⟩ := ih hp
      exact ⟨(hM.vertex h1).1, h2⟩

theorem ChainRun.derivable (h : ChainRun R st ss st') {f : Fact T} (hf : f.1 ∉ chainInner ss) :
    Derivable (graphRules R st.edges) f ↔ Derivable (graphRules R st'.edges) f := by
  induction h with
  | nil => exact Iff.rfl
  | lin _ hends hM _ _ _ ih =>
    rw [chainInner_cons, List.mem_append, not_or] at hf
    exact (merged_derivable hM (fun h => (hM.inner_ends hends _ h).1 rfl) hf.1).trans (ih hf.2)
  | cyc _ hends hM _ _ _ ih =>
    rw [chainInner_cons, List.mem_append, not_or] at hf
    exact (cycle_derivable hM (fun h => (hM.inner_ends hends _ h).1 rfl) f).trans (ih hf.2)

/-! ### The chains consist of edges of the input -/

theorem ChainRun.chains (h : ChainRun R st ss st') : ∀ t ∈ ss, ∀ e ∈ t.1, e ∈ st.edges ∧
    ∃ z, IsTriv st.edges z ∧ (e.tgt = z ∨ z ∈ e.src) := by
  induction h with
  | nil => simp
  | lin _ hends hM _ _ _ ih =>
    intro t ht e he
    rcases List.mem_cons.1 ht with rfl | ht
    · refine ⟨hM.lin.mem e he, ?_⟩
      rcases hM.lin.touches he with h | ⟨v, hv, hs⟩
      · exact ⟨_, hM.lin.inner _ h, .inl rfl⟩
      · exact ⟨v, hM.lin.inner _ hv, .inr (by rw [hs]; simp)⟩
    · obtain ⟨h1, z, hz, hze⟩ := ih t ht e he
      obtain ⟨h2, h3, h4⟩ := merged_triv hM hz
      rcases (hM.edges e).1 h1 with ⟨h5, _⟩ | rfl
      · exact ⟨h5, z, h2, hze⟩
      · exfalso
        rw [hM.tgt, hM.src, List.mem_singleton] at hze
        rcases hze with h | h
        · exact h4 h.symm
        · exact h3 h
  | cyc _ hends hM _ _ _ ih =>
    intro t ht e he
    rcases List.mem_cons.1 ht with rfl | ht
    · refine ⟨hM.cyc.mem e he, ?_⟩
      obtain ⟨v, hv, hs⟩ := hM.cyc.sources he
      exact ⟨v, hM.cyc.inner hv, .inr (by rw [hs]; simp)⟩
    · obtain ⟨h1, z, hz, hze⟩ := ih t ht e he
      exact ⟨((hM.edges e).1 h1).1, z, cycle_triv hM hz, hze⟩

theorem ChainRun.ids (h : ChainRun R st ss st') :
    (∀ t ∈ ss, st.freeId ≤ t.2.id) ∧ (ss.map fun t => t.2.id).Nodup ∧ st.freeId ≤ st'.freeId := by
  induction h with
  | nil => simp
  | lin _ _ _ hid hfree _ ih =>
    obtain ⟨h1, h2, h3⟩ := ih
    refine ⟨?_, ?_, by omega⟩
    · intro t ht
      rcases List.mem_cons.1 ht with rfl | ht
      · exact Nat.le_of_eq hid.symm
      · have := h1 t ht; omega
    · rw [List.map_cons, List.nodup_cons]
      refine ⟨fun hm => ?_, h2⟩
      obtain ⟨t, ht, he⟩ := List.mem_map.1 hm
      have := h1 t ht
      simp only at he
      omega
  | cyc _ _ _ hid hfree _ ih =>
    obtain ⟨h1, h2, h3⟩ := ih
    refine ⟨?_, ?_, by omega⟩
    · intro t ht
      rcases List.mem_cons.1 ht with rfl | ht
      · exact Nat.le_of_eq hid.symm
      · have := h1 t ht; omega
    · rw [List.map_cons, List.nodup_cons]
      refine ⟨fun hm => ?_, h2⟩
      obtain ⟨t, ht, he⟩ := List.mem_map.1 hm
      have := h1 t ht
      simp only at he
      omega

/-- A summary of a chain that occurs in the result. -/
structure SumOk (R : PRepr) (B : Graph T) (t : Summary T) : Prop where
  ends : ∃ u w, t.2.src = [u] ∧ t.2.tgt = w ∧ HPath u t.1 w
  len : 2 ≤ t.1.length
  mem : ∀ e ∈ t.1, e ∈ B
  fires : ∀ f g, t.2.Fires R [f] g ↔ ChainFires R t.1 f g

theorem ChainRun.edges (h : ChainRun R st ss st') : ∀ e ∈ st'.edges, e ∈ st.edges ∨ ∃ t ∈ ss, e = t.2 ∧
    (∃ u w, t.2.src = [u] ∧ t.2.tgt = w ∧ HPath u t.1 w) ∧ 2 ≤ t.1.length ∧
    ∀ f g, t.2.Fires R [f] g ↔ ChainFires R t.1 f g := by
  induction h with
  | nil => exact fun e he => .inl he
  | lin _ _ hM _ _ _ ih =>
    intro e he
    rcases ih e he with h | ⟨t, ht, h⟩
    · rcases (hM.edges e).1 h with ⟨h1, _⟩ | rfl
      · exact .inl h1
      · exact .inr ⟨_, List.mem_cons_self .., rfl, ⟨_, _, hM.src, hM.tgt, hM.lin.path⟩, hM.lin.len, hM.fires⟩
    · exact .inr ⟨t, List.mem_cons_of_mem _ ht, h⟩
  | cyc _ _ hM _ _ _ ih =>
    intro e he
    rcases ih e he with h | ⟨t, ht, h⟩
    · exact .inl ((hM.edges e).1 h).1
    · exact .inr ⟨t, List.mem_cons_of_mem _ ht, h⟩

theorem ChainRun.edges_ok (h : ChainRun R st ss st') : ∀ e ∈ st'.edges, e ∈ st.edges ∨ ∃ t ∈ ss, e = t.2 ∧ SumOk R st.edges t := by
  intro e he
  rcases h.edges e he with h1 | ⟨t, ht, h1, h2, h3, h4⟩
  · exact .inl h1
  · exact .inr ⟨t, ht, h1, h2, h3, fun e he => (h.chains t ht e he).1, h4⟩

end

end Golem
