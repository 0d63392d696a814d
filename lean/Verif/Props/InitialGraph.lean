import Verif.Props.Normalizer
import Verif.Model.CheckSat
import Verif.Spec.Pipeline
import Verif.Lemmas.Contract
import Verif.Lemmas.ChainSteps

/-! The graph of the input clauses satisfies the invariant under which the transformations and engines are verified. -/

namespace Golem
variable {T : Theory}

/-- The shape of parsed clauses: the head is a predicate or `false`, the body atoms are predicates
(`src/ChcInterpreter.cc:225-330`). -/
structure Clause.Shape (c : Clause T) : Prop where
  head : c.head.1 ≠ .tru
  body : ∀ a ∈ c.body, a.1 ≠ .tru ∧ a.1 ≠ .fls

theorem AllNormalized.preds {R : PRepr} {st : NState} {cs cs' : List (Clause T)} (h : AllNormalized R st cs cs') :
    ∀ c' ∈ cs', ∃ c ∈ cs, c'.head.1 = c.head.1 ∧ c'.body.map Prod.fst = c.body.map Prod.fst := by
  induction h with
  | nil => simp
  | cons st st' c c' cs cs' hc _ _ ih =>
    intro d hd
    rcases List.mem_cons.1 hd with rfl | hd
    · exact ⟨c, by simp, hc.headPred, hc.bodyPreds⟩
    · obtain ⟨c0, h0, h1⟩ := ih d hd
      exact ⟨c0, by simp [h0], h1⟩

theorem buildFrom_length (i : Nat) (cs : List (Clause T)) : (buildFrom i cs).length = cs.length := by
  induction cs generalizing i with
  | nil => rfl
  | cons c cs ih => simp [buildFrom, ih]

theorem mem_buildGraph {cs : List (Clause T)} {e : Edge T} (h : e ∈ buildGraph cs) :
    ∃ (i : Nat) (c : Clause T), cs[i]? = some c ∧ e = clauseEdge i c := by
  obtain ⟨i, hi⟩ := List.getElem?_of_mem h
  rw [buildGraph, buildFrom_get] at hi
  cases hc : cs[i]? with
  | none => simp [hc] at hi
  | some c => simp [hc] at hi; exact ⟨i, c, hc, hi.symm⟩

/-- C04, the invariant: for every arity-consistent list of input clauses, the graph handed to the preprocessing satisfies
the invariant assumed by the theorems about transformations and engines, and generated names are fresh. -/
theorem C04_initial_graph (ar : Pred → Nat) (cs : List (Clause T)) (har : ArityConsistent ar cs) (hu : ∀ c ∈ cs, c.User)
    (hs : ∀ c ∈ cs, c.Shape) :
    (normalize cs).1.repr.WF ∧ (normalize cs).1.repr.FreshNames ∧ (initialGraph cs).Inv (normalize cs).1.repr := by
  have hspec := normalizeFrom_spec (NState.init_inv har.1 har.2.1) cs hu har.2.2
  have hpr := (hspec.2.2 _ (NState.Ext.refl _)).preds
  obtain ⟨hR, hvars, hsep⟩ := C03_normal_form ar cs har hu
  have hnames : ∀ p, ∀ n ∈ (normalize cs).1.repr.args p, ∃ k, n = .pr k := by
    intro p n hn
    simp only [NState.repr] at hn
    cases hl : List.lookup p (normalize cs).1.reps with
    | none => simp [hl] at hn
    | some ns =>
      simp only [hl, Option.getD_some] at hn
      obtain ⟨k, _, e⟩ := hspec.1.names p ns hl n hn
      exact ⟨k, e⟩
  have haux : ∀ n, (∀ k, n ≠ .pr k) → (normalize cs).1.repr.AuxName n := by
    intro n hn p hp
    obtain ⟨k, e⟩ := hnames p n hp
    exact hn k e
  generalize hcs' : (normalize cs).2 = cs' at *
  have hpr' : ∀ c' ∈ cs', ∃ c ∈ cs, c'.head.1 = c.head.1 ∧ c'.body.map Prod.fst = c.body.map Prod.fst := by
    intro c' hc'
    refine hpr c' ?_
    have : (normalizeFrom NState.init cs).2 = cs' := hcs'
    rw [this]; exact hc'
  have hown : ∀ c ∈ cs', ∀ i, ∀ x ∈ predicateVars (normalize cs).1.repr c,
      x ∈ (normalize cs).1.repr.own (clauseEdge i c).src (clauseEdge i c).tgt := by
    intro c _ i x hx
    simp only [predicateVars, List.mem_append] at hx
    simp only [PRepr.own, List.mem_append, clauseEdge]
    rcases hx with hx | hx
    · exact Or.inr hx
    · left
      by_cases hb : c.body.map Prod.fst = []
      · rw [hb] at hx; simp [instances, instancesAux, PRepr.keys] at hx
      · rw [if_neg (by simpa using hb)]; exact hx
  have hlab : ∀ e ∈ buildGraph cs', ∀ x ∈ e.fla.vars,
      x ∈ (normalize cs).1.repr.own e.src e.tgt ∨ ∃ k, x = .ver (.aux k) 0 := by
    intro e he x hx
    obtain ⟨i, c, hc, rfl⟩ := mem_buildGraph he
    have hm := List.mem_of_getElem? hc
    rcases (hvars c hm).2 x hx with h | h
    · exact Or.inl (hown c hm i x h)
    · exact Or.inr h
  have hAuxAux : ∀ k, (buildGraph cs').Aux (normalize cs).1.repr (.ver (.aux k) 0) := fun k =>
    Or.inl ⟨_, rfl, haux _ (by simp)⟩
  refine ⟨hR, fun k => ⟨haux _ (by simp), haux _ (by simp), haux _ (by simp)⟩, ⟨⟨?_, ?_, ?_, ?_, ?_, ?_, ?_, ?_⟩, ?_⟩⟩
  all_goals simp only [initialGraph, hcs']
  · show ((buildGraph cs').map Edge.id).Nodup
    have : (buildGraph cs').map Edge.id = List.range cs'.length := by
      apply List.ext_getElem?
      intro i
      simp only [List.getElem?_map, buildGraph, buildFrom_get]
      by_cases hi : i < cs'.length
      · simp [hi, clauseEdge]
      · simp [hi]
    rw [this]; exact List.nodup_range
  · intro e he
    obtain ⟨i, c, hc, rfl⟩ := mem_buildGraph he
    simp only [clauseEdge, buildGraph, buildFrom_length]
    exact (List.getElem?_eq_some_iff.1 hc).1
  · intro e he
    obtain ⟨i, c, hc, rfl⟩ := mem_buildGraph he
    simp only [clauseEdge]
    split
    · simp
    · rename_i h; simpa using h
  · intro e he h1
    obtain ⟨i, c, hc, rfl⟩ := mem_buildGraph he
    simp only [clauseEdge] at h1 ⊢
    split at h1
    · simp at h1
    · rename_i hb
      rw [if_neg hb]
      intro hm
      obtain ⟨c0, h0, -, hb0⟩ := hpr' c (List.mem_of_getElem? hc)
      rw [hb0] at hm
      obtain ⟨a, ha, e⟩ := List.mem_map.1 hm
      exact ((hs c0 h0).body a ha).1 e
  · intro e he x hx
    rcases hlab e he x hx with h | ⟨k, rfl⟩
    · exact Or.inl h
    · exact Or.inr (hAuxAux k)
  · intro e he e' he' hne x hx ha hx'
    rcases hlab e he x hx with h | ⟨k, rfl⟩
    · exact absurd ha (own_not_aux hR (fun s hs => vertex_src he hs) h)
    · obtain ⟨i, c, hc, rfl⟩ := mem_buildGraph he
      obtain ⟨j, d, hd, rfl⟩ := mem_buildGraph he'
      by_cases hij : i = j
      · subst hij; rw [hc] at hd; cases hd; exact hne rfl
      · exact hsep i j c d hc hd hij _ _ hx hx'
  · intro e he k hx
    rcases hlab e he _ hx with h | ⟨k', e'⟩
    · exact absurd h own_not_ver
    · cases e'
  · intro e he k hx
    rcases hlab e he _ hx with h | ⟨k', e'⟩
    · exact absurd h own_not_ver
    · cases e'
  · intro e he
    obtain ⟨i, c, hc, rfl⟩ := mem_buildGraph he
    obtain ⟨c0, h0, hh0, hb0⟩ := hpr' c (List.mem_of_getElem? hc)
    refine ⟨by simp only [clauseEdge]; rw [hh0]; exact (hs c0 h0).head, ?_⟩
    simp only [clauseEdge]
    split
    · simp
    · intro hm
      rw [hb0] at hm
      obtain ⟨a, ha, e⟩ := List.mem_map.1 hm
      exact ((hs c0 h0).body a ha).2 e

/-- The labels of the graph of the input clauses have no variables with user-style names and version zero, and such names are
no argument names. -/
theorem initialGraph_names (ar : Pred → Nat) (cs : List (Clause T)) (har : ArityConsistent ar cs) (hu : ∀ c ∈ cs, c.User) :
    (∀ s, (normalize cs).1.repr.AuxName (.user s)) ∧
    ∀ e ∈ (initialGraph cs).edges, ∀ s, .ver (.user s) 0 ∉ e.fla.vars := by
  have hspec := normalizeFrom_spec (NState.init_inv har.1 har.2.1) cs hu har.2.2
  obtain ⟨hR, hvars, hsep⟩ := C03_normal_form ar cs har hu
  constructor
  · intro s p hn
    simp only [NState.repr] at hn
    cases hl : List.lookup p (normalize cs).1.reps with
    | none => simp [hl] at hn
    | some ns =>
      simp only [hl, Option.getD_some] at hn
      obtain ⟨k, _, e⟩ := hspec.1.names p ns hl _ hn
      cases e
  · intro e he s hx
    obtain ⟨i, c, hc, rfl⟩ := mem_buildGraph he
    rcases (hvars c (List.mem_of_getElem? hc)).2 _ hx with h | ⟨k, h⟩
    · simp only [predicateVars, List.mem_append] at h
      rcases h with h | h
      · obtain ⟨n, -, h2⟩ := List.mem_map.1 h; cases h2
      · simp only [PRepr.keys, List.mem_flatMap] at h
        obtain ⟨q, -, h⟩ := h
        obtain ⟨n, -, h2⟩ := List.mem_map.1 h; cases h2
    · cases h

end Golem
