import Verif.Model.ErrorPath
import Verif.Lemmas.LinearGraph
import Verif.Lemmas.TransitionSystem
import Verif.Props.LinearGraph
import Verif.Props.Validator

/-! C26 (trivial systems) and C27 (error paths become derivations). -/

namespace Golem
variable {T : Theory}

/-! ### C26 -/

theorem trivial_edge {G : LGraph T} (h : isTrivial G = true) {e : LEdge T} (he : e ∈ G) : e.src = .tru ∧ e.tgt = .fls := by
  simpa using (List.all_eq_true.1 h) e he

theorem trivial_fires {R : PRepr} (hR : R.WF) {e : LEdge T} (hs : e.src = .tru) (ht : e.tgt = .fls) (ρ : Valuation T)
    (h : e.fla.holds ρ) : e.Fires R trueFact falseFact :=
  ⟨ρ, h, by simp [LEdge.srcFact, hs, PRepr.stateVars, hR.tru, trueFact],
    by simp [LEdge.tgtFact, ht, PRepr.nextVars, hR.fls, falseFact]⟩

theorem solveTrivial_cases (S : Smt T) (G : LGraph T) :
    (solveTrivial S G = ⟨.safe, .validity trivialDefinitions⟩ ∧ ∀ e ∈ G, e.fla = .ff ∨ S.check [e.fla] = .unsat) ∨
    (∃ e ∈ G, S.check [e.fla] = .sat ∧
      solveTrivial S G = ⟨.unsafeAns, .invalidity [⟨[], trueFact, none⟩, ⟨[0], falseFact, some e.id⟩]⟩) ∨
    (solveTrivial S G = ⟨.unknown, .none⟩ ∧ ∃ e ∈ G, S.check [e.fla] = .unknown ∨ S.check [e.fla] = .error) := by
  induction G with
  | nil => left; exact ⟨rfl, by simp⟩
  | cons e G ih =>
    unfold solveTrivial
    split
    · rename_i h
      rcases ih with ⟨h1, h2⟩ | ⟨e', he', h1, h2⟩ | ⟨h1, e', he', h2⟩
      · left; exact ⟨h1, by simpa [h] using h2⟩
      · right; left; exact ⟨e', by simp [he'], h1, h2⟩
      · right; right; exact ⟨h1, e', by simp [he'], h2⟩
    · split
      · rename_i h
        rcases ih with ⟨h1, h2⟩ | ⟨e', he', h1, h2⟩ | ⟨h1, e', he', h2⟩
        · left; exact ⟨h1, by simpa [h] using h2⟩
        · right; left; exact ⟨e', by simp [he'], h1, h2⟩
        · right; right; exact ⟨h1, e', by simp [he'], h2⟩
      · rename_i h
        right; left; exact ⟨e, by simp, h, rfl⟩
      · rename_i h1 h2
        right; right
        refine ⟨rfl, e, by simp, ?_⟩
        cases hc : S.check [e.fla] <;> simp_all

theorem trivial_unsafe {R : PRepr} (hR : R.WF) {G : LGraph T} (ht : isTrivial G = true) :
    G.Unsafe R ↔ ∃ e ∈ G, ∃ ρ : Valuation T, e.fla.holds ρ := by
  constructor
  · rintro ⟨es, h1, h2⟩
    cases h2 with
    | @cons e es f g h hf hp =>
      obtain ⟨ρ, h, _⟩ := hf
      exact ⟨e, h1 e (by simp), ρ, h⟩
  · rintro ⟨e, he, ρ, h⟩
    obtain ⟨hs, hg⟩ := trivial_edge ht he
    exact ⟨[e], by simpa using he, .cons (trivial_fires hR hs hg ρ h) (.nil _)⟩

/-- C26. On a graph whose edges all go from entry to exit, UNSAFE comes with a correct derivation, SAFE with a correct
interpretation. -/
theorem C26_solveTrivial_sound {S : Smt T} (hS : S.Sound) {R : PRepr} (hR : R.WF) {G : LGraph T}
    (ht : isTrivial G = true) :
    (∀ w, solveTrivial S G = ⟨.unsafeAns, w⟩ → ∃ ds, w = .invalidity ds ∧ LUnsafeWitness R G ds) ∧
    (∀ w, solveTrivial S G = ⟨.safe, w⟩ → ∃ D, w = .validity D ∧ LSafeWitness R G D) := by
  rcases solveTrivial_cases S G with ⟨h1, h2⟩ | ⟨e, he, h1, h2⟩ | ⟨h1, _⟩
  · refine ⟨(by intro w h; rw [h1] at h; cases h), ?_⟩
    intro w h; rw [h1] at h; cases h
    refine ⟨_, rfl, ?_, rfl, rfl, ?_, ?_, ?_⟩
    · intro p d hd x hx
      simp only [trivialDefinitions, Defs.get, List.lookup] at hd
      split at hd
      · cases hd; simp [Fla.vars] at hx
      · split at hd
        · cases hd; simp [Fla.vars] at hx
        · simp at hd
    · intro e he f g ⟨ρ, h, _⟩
      rcases h2 e he with h2 | h2
      · rw [h2] at h; exact h.elim
      · exact absurd ⟨ρ, by simpa [AllHold] using h⟩ (hS.unsat _ h2)
    · rintro p ⟨e, he, hp⟩
      obtain ⟨hs, hg⟩ := trivial_edge ht he
      rcases hp with hp | hp
      · rw [hp, hg]; rfl
      · rw [hp, hs]; rfl
    · intro p hp
      cases p with
      | tru => simp
      | fls => simp
      | p n => simp [trivialDefinitions, Defs.get_cons, Defs.get_nil] at hp
  · refine ⟨?_, (by intro w h; rw [h2] at h; cases h)⟩
    intro w h; rw [h2] at h; cases h
    obtain ⟨hs, hg⟩ := trivial_edge ht he
    refine ⟨_, rfl, ⟨_, rfl, rfl, rfl⟩, ⟨_, rfl, rfl⟩, ?_⟩
    intro i d hi hd
    have hi1 : i = 1 := by
      have := List.getElem?_lt hd
      simp at this; omega
    subst hi1
    simp only [List.getElem?_cons_succ, List.getElem?_cons_zero, Option.some.injEq] at hd
    subst hd
    refine ⟨e, he, rfl, 0, _, rfl, by omega, rfl, ?_⟩
    exact trivial_fires hR hs hg _ (hS.sat _ h1 _ (by simp))
  · exact ⟨(by intro w h; rw [h1] at h; cases h), (by intro w h; rw [h1] at h; cases h)⟩

/-- C26. The answer is UNSAFE only if some label is satisfiable and SAFE only if none is; with a backend that decides the
labels there is always an answer, so "only if" is "if and only if". -/
theorem C26_solveTrivial_decides {S : Smt T} (hS : S.Sound) (hc : S.Complete) {R : PRepr} (hR : R.WF) {G : LGraph T}
    (ht : isTrivial G = true) :
    ((solveTrivial S G).answer = .unsafeAns ↔ ∃ e ∈ G, ∃ ρ : Valuation T, e.fla.holds ρ) ∧
    ((solveTrivial S G).answer = .safe ↔ ∀ e ∈ G, ∀ ρ : Valuation T, ¬ e.fla.holds ρ) ∧
    ((solveTrivial S G).answer = .unsafeAns ↔ G.Unsafe R) := by
  rw [trivial_unsafe hR ht]
  rcases solveTrivial_cases S G with ⟨h1, h2⟩ | ⟨e, he, h1, h2⟩ | ⟨h1, e, he, h2⟩
  · have hn : ∀ e ∈ G, ∀ ρ : Valuation T, ¬ e.fla.holds ρ := by
      intro e he ρ h
      rcases h2 e he with h2 | h2
      · rw [h2] at h; exact h.elim
      · exact hS.unsat _ h2 ⟨ρ, by simpa [AllHold] using h⟩
    rw [h1]
    simp only [reduceCtorEq, false_iff, true_iff]
    exact ⟨fun ⟨e, he, ρ, h⟩ => hn e he ρ h, hn, fun ⟨e, he, ρ, h⟩ => hn e he ρ h⟩
  · have hs : ∃ e ∈ G, ∃ ρ : Valuation T, e.fla.holds ρ := ⟨e, he, _, hS.sat _ h1 _ (by simp)⟩
    rw [h2]
    simp only [reduceCtorEq, false_iff, true_iff]
    refine ⟨hs, ?_, hs⟩
    intro h
    obtain ⟨e, he, ρ, hh⟩ := hs
    exact h e he ρ hh
  · exfalso
    rcases hc [e.fla] with h | h <;> rcases h2 with h2 | h2 <;> rw [h] at h2 <;> cases h2

/-! ### C27 -/

/-- The edges form a chain from `u` to `v`. -/
inductive Chained : Pred → List (LEdge T) → Pred → Prop where
  | nil (u : Pred) : Chained u [] u
  | cons {e : LEdge T} {es : List (LEdge T)} {v : Pred} (h : Chained e.tgt es v) : Chained e.src (e :: es) v

theorem chained_nil {u v : Pred} : Chained (T := T) u [] v ↔ u = v := by
  constructor
  · intro h; cases h; rfl
  · rintro rfl; exact .nil _

theorem chained_cons {u v : Pred} {e : LEdge T} {es : List (LEdge T)} :
    Chained u (e :: es) v ↔ u = e.src ∧ Chained e.tgt es v := by
  constructor
  · intro h
    generalize hl : e :: es = l at h
    cases h with
    | nil => cases hl
    | cons h => cases hl; exact ⟨rfl, h⟩
  · rintro ⟨rfl, h⟩; exact .cons h

theorem LFeasible.chained {R : PRepr} {es : List (LEdge T)} {f g : Fact T} (h : LFeasible R es f g) :
    Chained f.1 es g.1 := by
  induction h with
  | nil _ => exact .nil _
  | cons hf _ ih => rw [hf.tgt] at ih; rw [hf.src]; exact .cons ih

theorem LGraph.find_mem {G : LGraph T} {id : Nat} {e : LEdge T} (h : G.find id = some e) : e ∈ G ∧ e.id = id := by
  unfold LGraph.find at h
  exact ⟨List.mem_of_find?_eq_some h, by simpa using List.find?_some h⟩

theorem LGraph.mapM_find {G : LGraph T} {ids : List Nat} {es : List (LEdge T)} (h : ids.mapM G.find = some es) :
    (∀ e ∈ es, e ∈ G) ∧ es.map LEdge.id = ids := by
  induction ids generalizing es with
  | nil => simp at h; subst h; simp
  | cons i ids ih =>
    simp only [List.mapM_cons, Option.bind_eq_bind, Option.bind_eq_some_iff, Option.pure_def, Option.some.injEq] at h
    obtain ⟨e, he, es', hes, rfl⟩ := h
    obtain ⟨h1, h2⟩ := ih hes
    obtain ⟨h3, h4⟩ := LGraph.find_mem he
    refine ⟨by simpa [h3] using h1, by simp [h4, h2]⟩

theorem chained_vertices {u v : Pred} {es : List (LEdge T)} (h : Chained u es v) (hne : es ≠ []) :
    ∀ (i : Nat) (e : LEdge T), es[i]? = some e →
      (pathVertices es)[i]? = some e.src ∧ (pathVertices es)[i + 1]? = some e.tgt := by
  induction h with
  | nil => exact absurd rfl hne
  | @cons e es v h ih =>
    intro i e' he'
    cases es with
    | nil =>
      cases i with
      | zero => simp at he'; subst he'; simp [pathVertices]
      | succ i => simp at he'
    | cons e2 es =>
      have hv : pathVertices (e :: e2 :: es) = e.src :: pathVertices (e2 :: es) := by
        simp [pathVertices, List.getLast?_cons_cons]
      rw [hv]
      cases i with
      | zero =>
        simp only [List.getElem?_cons_zero, Option.some.injEq] at he'
        subst he'
        refine ⟨rfl, ?_⟩
        have : e2.src = e.tgt := (chained_cons.1 h).1.symm
        simp [pathVertices, this]
      | succ i =>
        have := ih (by simp) i e' (by simpa using he')
        simpa using this

theorem pathQuery_hold {es : List (LEdge T)} {ρ : Valuation T} :
    AllHold ρ (pathQuery es) ↔ ∀ (i : Nat) (e : LEdge T), es[i]? = some e → (sendFla e.fla i).holds ρ := by
  simp only [AllHold, pathQuery, List.mem_map, forall_exists_index, and_imp, Prod.forall]
  constructor
  · intro h i e he
    exact h _ e i (List.mk_mem_zipIdx_iff_getElem?.2 he) rfl
  · rintro h f e i hm rfl
    exact h i e (List.mk_mem_zipIdx_iff_getElem?.1 hm)

theorem pathFact_step {R : PRepr} {e : LEdge T} {ρ : Valuation T} {i : Nat} (h : (sendFla e.fla i).holds ρ) :
    e.Fires R (pathFact R ρ e.src i) (pathFact R ρ e.tgt (i + 1)) := by
  refine ⟨_, sendFla_holds.1 h, rfl, ?_⟩
  simp only [pathFact, LEdge.tgtFact, Prod.mk.injEq, true_and, PRepr.stateVars, PRepr.nextVars, List.map_map]
  apply List.map_congr_left
  intro n _
  simp only [Function.comp, shift]
  congr 2
  omega

/-- The query of the path is satisfiable exactly if the path is feasible: soundness. -/
theorem pathQuery_feasible {R : PRepr} {ρ : Valuation T} :
    ∀ {es : List (LEdge T)} {u v : Pred} (k : Nat), Chained u es v →
      (∀ (i : Nat) (e : LEdge T), es[i]? = some e → (sendFla e.fla ((k + i : Nat) : Int)).holds ρ) →
      LFeasible R es (pathFact R ρ u k) (pathFact R ρ v (k + es.length)) := by
  intro es u v k hc
  induction hc generalizing k with
  | nil => intro _; exact .nil _
  | @cons e es v h ih =>
    intro hh
    refine .cons (pathFact_step (by simpa using hh 0 e (by simp))) ?_
    have := ih (k + 1) (fun i e' he' => by
      have := hh (i + 1) e' (by simpa using he')
      rw [show k + 1 + i = k + (i + 1) by omega]; exact this)
    rw [show k + 1 + es.length = k + (e :: es).length by simp; omega] at this
    exact this

theorem pathFact_tru {R : PRepr} (hR : R.WF) (ρ : Valuation T) (i : Nat) : pathFact R ρ .tru i = trueFact := by
  simp [pathFact, PRepr.stateVars, hR.tru, trueFact]

theorem pathFact_fls {R : PRepr} (hR : R.WF) (ρ : Valuation T) (i : Nat) : pathFact R ρ .fls i = falseFact := by
  simp [pathFact, PRepr.stateVars, hR.fls, falseFact]

/-- The derivation built from a chained path in a model of its query. -/
theorem pathDerivation_witness {R : PRepr} (hR : R.WF) {G : LGraph T} {es : List (LEdge T)} (hne : es ≠ [])
    (hG : ∀ e ∈ es, e ∈ G) (hc : Chained .tru es .fls) {ρ : Valuation T} (hm : AllHold ρ (pathQuery es)) :
    LUnsafeWitness R G (pathDerivation R ρ es) := by
  rw [pathQuery_hold] at hm
  have hv := chained_vertices hc hne
  have hget : ∀ (i : Nat) (e : LEdge T), es[i]? = some e →
      (pathDerivation R ρ es)[i + 1]? = some ⟨[i], pathFact R ρ e.tgt (i + 1), some e.id⟩ := by
    intro i e he
    simp only [pathDerivation, List.getElem?_cons_succ, List.getElem?_map, List.getElem?_zipIdx, he, Option.map_some,
      Nat.zero_add, (hv i e he).2, Option.getD_some]
  have hfact : ∀ (i : Nat) (e : LEdge T), es[i]? = some e →
      ∃ p, (pathDerivation R ρ es)[i]? = some p ∧ p.fact = pathFact R ρ e.src i := by
    intro i e he
    cases i with
    | zero =>
      refine ⟨_, rfl, ?_⟩
      have : e.src = .tru := by
        cases es with
        | nil => simp at he
        | cons e0 es => simp at he; rw [← he]; exact (chained_cons.1 hc).1.symm
      rw [this, pathFact_tru hR]
    | succ i =>
      have hlt : i < es.length := by have := List.getElem?_lt he; omega
      refine ⟨_, hget i es[i] (List.getElem?_eq_getElem hlt), ?_⟩
      have h1 := (hv i es[i] (List.getElem?_eq_getElem hlt)).2
      have h2 := (hv (i + 1) e he).1
      rw [h1] at h2
      rw [← Option.some.inj h2]
  have hlen : (pathDerivation R ρ es).length = es.length + 1 := by simp [pathDerivation]
  have hpos : 0 < es.length := List.length_pos_iff.2 hne
  refine ⟨⟨_, rfl, rfl, rfl⟩, ?_, ?_⟩
  · have hl : es[es.length - 1]? = some es[es.length - 1] := List.getElem?_eq_getElem (by omega)
    have := hget _ _ hl
    rw [show es.length - 1 + 1 = (pathDerivation R ρ es).length - 1 by omega, ← List.getLast?_eq_getElem?] at this
    refine ⟨_, this, ?_⟩
    have hlast : es[es.length - 1].tgt = .fls := by
      have key : ∀ {u : Pred} {es : List (LEdge T)} {v : Pred}, Chained u es v → ∀ e, es.getLast? = some e → e.tgt = v := by
        intro u es v h
        induction h with
        | nil => simp
        | @cons e es v h ih =>
          intro e' he'
          cases es with
          | nil => simp at he'; subst he'; exact chained_nil.1 h
          | cons e2 es => rw [List.getLast?_cons_cons] at he'; exact ih e' he'
      exact key hc _ (by rw [List.getLast?_eq_getElem?]; exact hl)
    show pathFact _ _ _ _ = _
    rw [hlast, pathFact_fls hR]
  · intro i d hi hd
    obtain ⟨i, rfl⟩ : ∃ k, i = k + 1 := ⟨i - 1, by omega⟩
    have hlt : i < es.length := by have := List.getElem?_lt hd; omega
    have he : es[i]? = some es[i] := List.getElem?_eq_getElem hlt
    rw [hget i _ he] at hd
    cases hd
    obtain ⟨p, hp, hpf⟩ := hfact i _ he
    refine ⟨es[i], hG _ (List.getElem_mem hlt), rfl, i, p, rfl, by omega, hp, ?_⟩
    rw [hpf]
    exact pathFact_step (hm i _ he)

/-- C27. The derivation built from an error path that leads from entry to exit is correct: it starts with `true`, ends
with `false`, and every step is an instance of the edge it names; moreover it uses the edges of the path in order. -/
theorem C27_fromErrorPath_sound {S : Smt T} (hS : S.Sound) {R : PRepr} (hR : R.WF) {G : LGraph T} {ids : List Nat}
    {es : List (LEdge T)} (hes : ids.mapM G.find = some es) (hne : ids ≠ []) (hc : Chained .tru es .fls)
    {ds : List (DStep T)} (h : fromErrorPath S R G ids = .done ds) :
    LUnsafeWitness R G ds ∧ ds.tail.map DStep.clauseId = ids.map some ∧ LFeasible R es trueFact falseFact := by
  unfold fromErrorPath at h
  rw [hes] at h
  simp only [List.isEmpty_iff, hne, if_false] at h
  split at h
  · rename_i hsat
    cases h
    have hm := hS.sat _ hsat
    obtain ⟨hG, hids⟩ := LGraph.mapM_find hes
    have hne' : es ≠ [] := by rintro rfl; exact hne (by simpa using hids.symm)
    refine ⟨pathDerivation_witness hR hne' hG hc hm, ?_, ?_⟩
    · simp only [pathDerivation, List.tail_cons, List.map_map, ← hids]
      have : ∀ (k : Nat) (l : List (LEdge T)), (l.zipIdx k).map (fun x => some x.1.id) = l.map fun x => some x.id := by
        intro k l
        induction l generalizing k with
        | nil => rfl
        | cons a l ih => simp [List.zipIdx_cons, ih]
      exact this 0 es
    · have := pathQuery_feasible (R := R) 0 hc (fun i e he => by
        simpa using (pathQuery_hold.1 hm) i e he)
      rw [pathFact_tru hR, pathFact_fls hR] at this
      exact this
  · cases h

/-- One valuation for a feasible path: the variables of version `j` get their values from the `j`-th edge's valuation, those
after the last edge from the target of that edge. -/
def pathGlue (ρs : Nat → Valuation T) (n : Nat) : Valuation T := fun x => match x with
  | .ver m k => if k < n then ρs k.toNat (.ver m 0) else ρs (n - 1) (.ver m 1)
  | .src m k => ρs k.toNat (.src m 0)
  | x => ρs 0 x

theorem LFeasible.valuations {R : PRepr} {es : List (LEdge T)} {f g : Fact T} (h : LFeasible R es f g) :
    ∃ ρs : Nat → Valuation T, (∀ (i : Nat) (e : LEdge T), es[i]? = some e → e.fla.holds (ρs i)) ∧
      (∀ e, es[0]? = some e → f = e.srcFact R (ρs 0)) ∧
      (∀ (i : Nat) (e e' : LEdge T), es[i]? = some e → es[i + 1]? = some e' →
        e.tgtFact R (ρs i) = e'.srcFact R (ρs (i + 1))) ∧
      (∀ e, es.getLast? = some e → g = e.tgtFact R (ρs (es.length - 1))) := by
  induction h with
  | nil _ => exact ⟨fun _ _ => T.vT, by simp, by simp, by simp, by simp⟩
  | @cons e es f g h hf hp ih =>
    obtain ⟨ρ, h1, h2, h3⟩ := hf
    obtain ⟨ρs, a, b, c, d⟩ := ih
    refine ⟨fun i => if i = 0 then ρ else ρs (i - 1), ?_, ?_, ?_, ?_⟩
    · intro i e' he'
      cases i with
      | zero => simp at he'; subst he'; simpa using h1
      | succ i => simpa using a i e' (by simpa using he')
    · intro e' he'; simp at he'; subst he'; simpa using h2
    · intro i e1 e2 h4 h5
      cases i with
      | zero =>
        simp at h4; subst h4
        simp only [if_true]
        rw [← h3]
        simpa using b e2 (by simpa using h5)
      | succ i =>
        simpa using c i e1 e2 (by simpa using h4) (by simpa using h5)
    · intro e' he'
      cases es with
      | nil =>
        simp at he'; subst he'
        cases hp
        simpa using h3
      | cons e2 es =>
        rw [List.getLast?_cons_cons] at he'
        have := d e' he'
        simpa using this

/-- A feasible path has a model of its query in which the end points have the given facts. -/
theorem feasible_model {R : PRepr} {es : List (LEdge T)} {f g : Fact T} (hl : ∀ e ∈ es, e.LabelOk R) (hne : es ≠ [])
    (h : LFeasible R es f g) : ∃ ρ : Valuation T, AllHold ρ (pathQuery es) ∧ f = pathFact R ρ f.1 0 ∧
      g = pathFact R ρ g.1 es.length := by
  obtain ⟨ρs, a, b, c, d⟩ := h.valuations
  have hpos : 0 < es.length := List.length_pos_iff.2 hne
  refine ⟨pathGlue ρs es.length, ?_, ?_, ?_⟩
  rotate_left
  · have he : es[0]? = some es[0] := List.getElem?_eq_getElem hpos
    have h1 := b _ he
    have h2 : f.1 = es[0].src := by rw [h1]; rfl
    unfold pathFact
    refine Prod.ext rfl ?_
    rw [h2]
    conv => lhs; rw [h1]
    simp only [LEdge.srcFact, PRepr.stateVars, List.map_map]
    apply List.map_congr_left
    intro n _
    simp [shift, pathGlue, hpos]
  · obtain ⟨e, he⟩ : ∃ e, es.getLast? = some e := ⟨_, List.getLast?_eq_some_getLast hne⟩
    have h1 := d e he
    have h2 : g.1 = e.tgt := by rw [h1]; rfl
    unfold pathFact
    refine Prod.ext rfl ?_
    rw [h2]
    conv => lhs; rw [h1]
    simp only [LEdge.tgtFact, PRepr.stateVars, PRepr.nextVars, List.map_map]
    apply List.map_congr_left
    intro n _
    simp [shift, pathGlue]
  rw [pathQuery_hold]
  intro i e he
  have hlt := List.getElem?_lt he
  rw [sendFla_holds]
  refine (Fla.holds_congr fun x hx => ?_).1 (a i e he)
  rcases hl e (List.mem_of_getElem? he) x hx with hm | hm | ⟨n, rfl, _⟩ | ⟨n, rfl, _⟩
  · obtain ⟨n, _, rfl⟩ := List.mem_map.1 hm
    simp [shift, pathGlue, hlt]
  · obtain ⟨n, hn, rfl⟩ := List.mem_map.1 hm
    by_cases hlast : i + 1 < es.length
    · have h1 : (1 : Int) + i < es.length := by omega
      have h2 := c i e es[i + 1] he (List.getElem?_eq_getElem hlast)
      simp only [LEdge.tgtFact, LEdge.srcFact, Prod.mk.injEq] at h2
      obtain ⟨h3, h4⟩ := h2
      rw [← h3] at h4
      simp only [PRepr.stateVars, PRepr.nextVars, List.map_map] at h4
      have := List.map_inj_left.1 h4 n hn
      simp only [Function.comp] at this
      rw [this]
      have e2 : ((1 : Int) + i).toNat = i + 1 := by omega
      simp [shift, pathGlue, h1, e2]
    · have h1 : ¬ (1 : Int) + i < es.length := by omega
      have h2 : es.length - 1 = i := by omega
      simp [shift, pathGlue, h1, h2]
  · simp [shift, pathGlue, hlt]
  · simp [shift, pathGlue]

/-- The query of a feasible path is satisfiable. -/
theorem feasible_pathQuery {R : PRepr} {es : List (LEdge T)} {f g : Fact T} (hl : ∀ e ∈ es, e.LabelOk R)
    (h : LFeasible R es f g) : SatList (pathQuery es) := by
  by_cases hne : es = []
  · subst hne; exact ⟨fun _ => T.vT, by simp [AllHold, pathQuery]⟩
  · obtain ⟨ρ, h, _⟩ := feasible_model hl hne h
    exact ⟨ρ, h⟩

/-- C27. An infeasible path is rejected (the exception), and with a deciding backend a feasible one is accepted. -/
theorem C27_fromErrorPath_exact {S : Smt T} (hS : S.Sound) (hcomp : S.Complete) {R : PRepr} (hR : R.WF) {G : LGraph T}
    (hl : ∀ e ∈ G, e.LabelOk R) {ids : List Nat} {es : List (LEdge T)} (hes : ids.mapM G.find = some es) (hne : ids ≠ [])
    (hc : Chained .tru es .fls) :
    (LFeasible R es trueFact falseFact ∧ ∃ ds, fromErrorPath S R G ids = .done ds) ∨
    (¬ LFeasible R es trueFact falseFact ∧ fromErrorPath S R G ids = .thrown) := by
  by_cases hf : LFeasible R es trueFact falseFact
  · left
    refine ⟨hf, ?_⟩
    have hsat := feasible_pathQuery (fun e he => hl e ((LGraph.mapM_find hes).1 e he)) hf
    have : S.check (pathQuery es) = .sat := by
      rcases hcomp (pathQuery es) with h | h
      · exact h
      · exact absurd hsat (hS.unsat _ h)
    exact ⟨_, by simp [fromErrorPath, hes, hne, this]; rfl⟩
  · right
    refine ⟨hf, ?_⟩
    cases h : fromErrorPath S R G ids with
    | done ds => exact absurd (C27_fromErrorPath_sound hS hR hes hne hc h).2.2 hf
    | thrown => rfl
    | outOfFuel =>
      unfold fromErrorPath at h
      rw [hes] at h
      split at h
      · cases h
      · simp only at h; split at h <;> cases h

/-! ### Examples: the hypotheses can be met -/

namespace LinearEx
open ValidatorEx (P R R_wf a)

def z (k : Int) : Var := .ver (.pr 0) k

/-- true → p0(x): ¬x;  p0(x) → p0(y): ¬x ∧ y;  p0(x) → false: x. -/
def G : LGraph P :=
  [⟨.tru, .p 0, .not (a (z 1)), 0⟩, ⟨.p 0, .p 0, .and (.not (a (z 0))) (a (z 1)), 1⟩, ⟨.p 0, .fls, a (z 0), 2⟩]

theorem G_label : ∀ e ∈ G, e.LabelOk R := by
  intro e he x hx
  simp only [G, List.mem_cons, List.not_mem_nil, or_false] at he
  rcases he with rfl | rfl | rfl <;>
    simp [a, z, Fla.vars, Tm.vars, PRepr.stateVars, PRepr.nextVars, R] at hx ⊢ <;>
    first | (rcases hx with hx | hx <;> simp [hx]) | simp [hx]

/-- C27: a path of three edges, accepted, with its derivation. -/
example : propSmt.Sound ∧ propSmt.Complete ∧ R.WF ∧ (∀ e ∈ G, e.LabelOk R) ∧ [0, 1, 2].mapM G.find = some G ∧
    Chained .tru G .fls ∧ fromErrorPath propSmt R G [0, 1, 2] =
      .done [⟨[], trueFact, none⟩, ⟨[0], (.p 0, [false]), some 0⟩, ⟨[1], (.p 0, [true]), some 1⟩,
        ⟨[2], falseFact, some 2⟩] :=
  ⟨propSmt_sound, propSmt_complete, R_wf, G_label, by decide +kernel, by simp [G, chained_cons, chained_nil], by decide +kernel⟩

/-- C27: an infeasible path is rejected. -/
example : fromErrorPath propSmt R G [0, 2] = .thrown := by decide +kernel

/-- C26: a trivial system with one infeasible and one feasible clause. -/
def triv : LGraph P := [⟨.tru, .fls, .and (a (z 0)) (.not (a (z 0))), 0⟩, ⟨.tru, .fls, .not (a (z 0)), 1⟩]

example : isTrivial triv = true ∧ (solveTrivial propSmt triv).answer = .unsafeAns ∧
    (solveTrivial propSmt (triv.take 1)).answer = .safe := by decide +kernel

/-- C44: a hypergraph and its linear form. -/
example : isNormalGraph ValidatorEx.safeG = true ∧ toNormalGraph R ValidatorEx.safeG =
    [⟨.tru, .p 0, a (z 1), 0⟩, ⟨.p 0, .p 0, .and (a (z 0)) (a (z 1)), 1⟩, ⟨.p 0, .fls, .not (a (z 0)), 2⟩] := by
  decide +kernel

end LinearEx

end Golem
