import Verif.Model.Engines.LinearBmc
import Verif.Props.EnginesTS

/-!
C23: bounded model checking of arbitrary linear graphs.
-/

namespace Golem
variable {T : Theory}

theorem Pred.symNo_inj {p q : Pred} (h : p.symNo = q.symNo) : p = q := by
  cases p <;> cases q <;> simp [Pred.symNo] at h ⊢ <;> omega

theorem reachedVar_inj {p q : Pred} {j k : Nat} (h : reachedVar p j = reachedVar q k) : p = q ∧ j = k := by
  simp only [reachedVar, Var.base.injEq, Name.bmc.injEq] at h
  exact ⟨Pred.symNo_inj h.1, h.2⟩

theorem mem_insertPred {p q : Nat} {l : List Nat} : q ∈ insertPred p l ↔ q = p ∨ q ∈ l := by
  induction l with
  | nil => simp [insertPred]
  | cons a l ih =>
    unfold insertPred
    split
    · simp
    · split
      · rename_i h; subst h; simp
      · simp only [List.mem_cons, ih]
        constructor
        · rintro (h | h | h) <;> simp [h]
        · rintro (h | h | h) <;> simp [h]

theorem mem_getVertices {G : LGraph T} {e : LEdge T} (he : e ∈ G) : e.src ∈ getVertices G ∧ e.tgt ∈ getVertices G := by
  have key : ∀ (l : List Nat) (acc : List Nat) (n : Nat), n ∈ l ∨ n ∈ acc → n ∈ l.foldl (fun l p => insertPred p l) acc := by
    intro l
    induction l with
    | nil => intro acc n h; simpa using h
    | cons a l ih =>
      intro acc n h
      apply ih
      rcases h with h | h
      · rcases List.mem_cons.1 h with h | h
        · exact Or.inr (mem_insertPred.2 (Or.inl h))
        · exact Or.inl h
      · exact Or.inr (mem_insertPred.2 (Or.inr h))
  have main : ∀ p, p = e.src ∨ p = e.tgt → p ∈ getVertices G := by
    intro p hp
    cases p with
    | tru => simp [getVertices]
    | fls => simp [getVertices]
    | p n =>
      simp only [getVertices, List.mem_cons, reduceCtorEq, false_or, List.mem_map]
      refine ⟨n, key _ _ n (Or.inl ?_), rfl⟩
      simp only [List.mem_filterMap, List.mem_flatMap]
      refine ⟨.p n, ⟨e, he, ?_⟩, rfl⟩
      rcases hp with h | h <;> simp [h]
  exact ⟨main _ (Or.inl rfl), main _ (Or.inr rfl)⟩

/-! ### The state of the loop at level `k` -/

def frontierAt (G : LGraph T) : Nat → List Pred
  | 0 => [.tru]
  | k + 1 => nextFrontier G (frontierAt G k) k

def stackAt (G : LGraph T) : Nat → List (Fla T)
  | 0 => [reached .tru 0]
  | k + 1 => stackAt G k ++ levelAsserts G (frontierAt G k) k

def knownAt (G : LGraph T) : Nat → List Var
  | 0 => [reachedVar .tru 0]
  | k + 1 => knownAt G k ++ (frontierAt G (k + 1)).map fun n => reachedVar n (k + 1)

theorem mem_nextFrontier {G : LGraph T} {fr : List Pred} {k : Nat} {p : Pred} :
    p ∈ nextFrontier G fr k ↔ ∃ e ∈ G, e.tgt = p ∧ e.src ∈ fr := by
  simp only [nextFrontier, List.mem_filter, Bool.not_eq_true', List.isEmpty_eq_false_iff, predTransitions, ne_eq,
    List.map_eq_nil_iff]
  constructor
  · rintro ⟨_, h⟩
    obtain ⟨e, he⟩ := List.exists_mem_of_ne_nil _ h
    simp only [LGraph.inc, List.mem_filter, decide_eq_true_eq] at he
    exact ⟨e, he.1.1, he.1.2, he.2⟩
  · rintro ⟨e, he, rfl, hs⟩
    refine ⟨(mem_getVertices he).2, fun hn => ?_⟩
    have : e ∈ ((G.inc e.tgt).filter fun e => decide (e.src ∈ fr)) := by
      simp only [LGraph.inc, List.mem_filter, decide_eq_true_eq]
      exact ⟨⟨he, trivial⟩, hs⟩
    rw [hn] at this
    cases this

theorem mem_knownAt {G : LGraph T} {k : Nat} {x : Var} :
    x ∈ knownAt G k ↔ ∃ j, j ≤ k ∧ ∃ p ∈ frontierAt G j, x = reachedVar p j := by
  induction k with
  | zero =>
    simp only [knownAt, List.mem_singleton, Nat.le_zero_eq]
    constructor
    · rintro rfl; exact ⟨0, rfl, .tru, by simp [frontierAt], rfl⟩
    · rintro ⟨j, rfl, p, hp, rfl⟩; simp [frontierAt] at hp; rw [hp]
  | succ k ih =>
    simp only [knownAt, List.mem_append, ih, List.mem_map]
    constructor
    · rintro (⟨j, hj, p, hp, rfl⟩ | ⟨p, hp, rfl⟩)
      · exact ⟨j, by omega, p, hp, rfl⟩
      · exact ⟨k + 1, Nat.le_refl _, p, hp, rfl⟩
    · rintro ⟨j, hj, p, hp, rfl⟩
      by_cases h : j = k + 1
      · subst h; exact Or.inr ⟨p, hp, rfl⟩
      · exact Or.inl ⟨j, by omega, p, hp, rfl⟩

theorem mem_stackAt {G : LGraph T} {k : Nat} {f : Fla T} :
    f ∈ stackAt G k ↔ f = reached .tru 0 ∨ ∃ j, j < k ∧ ∃ p ∈ frontierAt G (j + 1),
      f = Fla.imp (reached p (j + 1)) (Fla.disj (predTransitions G (frontierAt G j) p j)) := by
  induction k with
  | zero => simp [stackAt]
  | succ k ih =>
    simp only [stackAt, List.mem_append, ih, levelAsserts, List.mem_map]
    constructor
    · rintro ((h | ⟨j, hj, p, hp, rfl⟩) | ⟨p, hp, rfl⟩)
      · exact Or.inl h
      · exact Or.inr ⟨j, by omega, p, hp, rfl⟩
      · exact Or.inr ⟨k, by omega, p, hp, rfl⟩
    · rintro (h | ⟨j, hj, p, hp, rfl⟩)
      · exact Or.inl (Or.inl h)
      · by_cases h : j = k
        · subst h; exact Or.inr ⟨p, hp, rfl⟩
        · exact Or.inl (Or.inr ⟨j, by omega, p, hp, rfl⟩)

/-- The query made at level `k`. -/
def levelQuery (G : LGraph T) (k : Nat) : List (Fla T) := stackAt G (k + 1) ++ [reached .fls (k + 1)]

/-! ### Soundness -/

theorem holds_predTransition {G : LGraph T} {fr : List Pred} {p : Pred} {k : Nat} {ρ : Valuation T} :
    (Fla.disj (predTransitions G fr p k)).holds ρ ↔ ∃ e ∈ G, e.tgt = p ∧ e.src ∈ fr ∧ (sendFla e.fla k).holds ρ ∧
      (reached (T := T) e.src k).holds ρ := by
  simp only [Fla.holds_disj, predTransitions, List.mem_map, List.mem_filter, LGraph.inc, decide_eq_true_eq]
  constructor
  · rintro ⟨_, ⟨e, ⟨⟨he, ht⟩, hs⟩, rfl⟩, h⟩
    exact ⟨e, he, ht, hs, h.1, h.2⟩
  · rintro ⟨e, he, ht, hs, h1, h2⟩
    exact ⟨_, ⟨e, ⟨⟨he, ht⟩, hs⟩, rfl⟩, h1, h2⟩

/-- Walking back from a reached node finds an edge for every level, and the edges form a path whose labels hold. -/
theorem walkBack_spec {G : LGraph T} {ρ : Valuation T} {k : Nat} (hs : AllHold ρ (stackAt G k)) :
    ∀ (r : Nat) (p : Pred), r ≤ k → p ∈ frontierAt G r → (reached (T := T) p r).holds ρ →
      (walkBack G ρ (knownAt G k) r p).length = r ∧ (∀ e ∈ walkBack G ρ (knownAt G k) r p, e ∈ G) ∧
      Chained .tru (walkBack G ρ (knownAt G k) r p).reverse p ∧
      ∀ (i : Nat) (e : LEdge T), (walkBack G ρ (knownAt G k) r p).reverse[i]? = some e → (sendFla e.fla i).holds ρ := by
  intro r
  induction r with
  | zero =>
    intro p _ hp _
    simp only [frontierAt, List.mem_singleton] at hp
    subst hp
    simp [walkBack, chained_nil]
  | succ r ih =>
    intro p hr hp hreach
    have h1 := hs _ (mem_stackAt.2 (Or.inr ⟨r, by omega, p, hp, rfl⟩))
    rw [Fla.holds_imp] at h1
    obtain ⟨e0, he0, ht0, hs0, hl0, hr0⟩ := holds_predTransition.1 (h1 hreach)
    unfold walkBack
    split
    · rename_i e he
      have hm := List.mem_of_find?_eq_some he
      have hq := List.find?_some he
      simp only [decide_eq_true_eq] at hq
      simp only [LGraph.inc, List.mem_filter, decide_eq_true_eq] at hm
      obtain ⟨hk, hre, hle⟩ := hq
      obtain ⟨j, _, q, hqf, hv⟩ := mem_knownAt.1 hk
      obtain ⟨e1, e2⟩ := reachedVar_inj hv
      subst e2
      obtain ⟨a, b, c, d⟩ := ih e.src (by omega) (e1 ▸ hqf) hre
      refine ⟨by simp [a], ?_, ?_, ?_⟩
      · intro e' he'
        rcases List.mem_cons.1 he' with rfl | h
        · exact hm.1
        · exact b _ h
      · rw [List.reverse_cons]
        have key : ∀ {u v : Pred} {l : List (LEdge T)}, Chained u l v → e.src = v → Chained u (l ++ [e]) e.tgt := by
          intro u v l
          induction l generalizing u with
          | nil =>
            intro h1 h2
            rw [chained_nil] at h1
            rw [List.nil_append, chained_cons, chained_nil]
            exact ⟨by rw [h1, h2], rfl⟩
          | cons x l ih =>
            intro h1 h2
            rw [chained_cons] at h1
            rw [List.cons_append, chained_cons]
            exact ⟨h1.1, ih h1.2 h2⟩
        have := key c rfl
        rw [hm.2] at this
        exact this
      · intro i e' hi
        rw [List.reverse_cons] at hi
        by_cases hlt : i < r
        · rw [List.getElem?_append_left (by simp [a, hlt])] at hi
          exact d i e' hi
        · have hlen := List.getElem?_lt hi
          simp [a] at hlen
          have : i = r := by omega
          subst this
          rw [List.getElem?_append_right (by simp [a])] at hi
          simp [a] at hi
          subst hi
          exact hle
    · rename_i hn
      exfalso
      rw [List.find?_eq_none] at hn
      refine hn e0 (by simp [LGraph.inc, he0, ht0]) ?_
      simp only [decide_eq_true_eq]
      exact ⟨mem_knownAt.2 ⟨r, by omega, _, hs0, rfl⟩, hr0, hl0⟩

theorem mapM_ids {G : LGraph T} (hid : (G.map LEdge.id).Nodup) {es : List (LEdge T)} (h : ∀ e ∈ es, e ∈ G) :
    (es.map LEdge.id).mapM G.find = some es := by
  induction es with
  | nil => rfl
  | cons e es ih =>
    rw [List.map_cons, List.mapM_cons, LGraph.find_of_mem hid (h e (by simp)), ih fun e he => h e (by simp [he])]
    rfl

/-- A model of a level's query is an error path. -/
theorem levelQuery_path {R : PRepr} (hR : R.WF) {G : LGraph T} {ρ : Valuation T} {k : Nat}
    (hfls : Pred.fls ∈ frontierAt G (k + 1)) (h : AllHold ρ (levelQuery G k)) :
    ∃ es : List (LEdge T), (walkBack G ρ (knownAt G (k + 1)) (k + 1) .fls).reverse = es ∧ es.length = k + 1 ∧
      (∀ e ∈ es, e ∈ G) ∧ Chained .tru es .fls ∧ LFeasible R es trueFact falseFact := by
  have hs : AllHold ρ (stackAt G (k + 1)) := fun f hf => h f (List.mem_append_left _ hf)
  have hr : (reached (T := T) .fls (k + 1)).holds ρ := h _ (by simp [levelQuery])
  obtain ⟨a, b, c, d⟩ := walkBack_spec hs (k + 1) .fls (Nat.le_refl _) hfls hr
  refine ⟨_, rfl, by simp [a], fun e he => b e (List.mem_reverse.1 he), c, ?_⟩
  have := pathQuery_feasible (R := R) 0 c (fun i e he => by simpa using d i e he)
  rw [pathFact_tru hR, pathFact_fls hR] at this
  exact this

theorem linearBmcLoop_step {S : Smt T} {R : PRepr} {w : Bool} {G : LGraph T} (fuel k : Nat) :
    linearBmcLoop S R w G (fuel + 1) k (frontierAt G k) (stackAt G k) (knownAt G k) =
      if Pred.fls ∈ frontierAt G (k + 1) ∧ S.check (levelQuery G k) = .sat then
        if w then
          match linearBmcWitness S R G (S.model (levelQuery G k)) (k + 1) (knownAt G (k + 1)) with
          | .done ds => .done ⟨.unsafeAns, .invalidity ds⟩
          | .thrown => .thrown
          | .outOfFuel => .outOfFuel
        else .done ⟨.unsafeAns, .none⟩
      else linearBmcLoop S R w G fuel (k + 1) (frontierAt G (k + 1)) (stackAt G (k + 1)) (knownAt G (k + 1)) := rfl

theorem linearBmcLoop_done {S : Smt T} {R : PRepr} {w : Bool} {G : LGraph T} :
    ∀ (fuel k : Nat) {r : VerificationResult T},
      linearBmcLoop S R w G fuel k (frontierAt G k) (stackAt G k) (knownAt G k) = .done r →
      ∃ n, k ≤ n ∧ n < k + fuel ∧ Pred.fls ∈ frontierAt G (n + 1) ∧ S.check (levelQuery G n) = .sat ∧
        (∀ m, k ≤ m → m < n → ¬ (Pred.fls ∈ frontierAt G (m + 1) ∧ S.check (levelQuery G m) = .sat)) ∧
        r.answer = .unsafeAns ∧ (w = false → r.witness = .none) ∧
        (w = true → ∃ ds, r.witness = .invalidity ds ∧
          linearBmcWitness S R G (S.model (levelQuery G n)) (n + 1) (knownAt G (n + 1)) = .done ds) := by
  intro fuel
  induction fuel with
  | zero => intro k r h; cases h
  | succ fuel ih =>
    intro k r h
    rw [linearBmcLoop_step] at h
    split at h
    · rename_i hc
      refine ⟨k, Nat.le_refl _, by omega, hc.1, hc.2, fun m h1 h2 => by omega, ?_⟩
      split at h
      · rename_i hw
        split at h <;> cases h
        rename_i ds hds
        exact ⟨rfl, fun h => (by rw [hw] at h; cases h), fun _ => ⟨ds, rfl, hds⟩⟩
      · rename_i hw
        cases h
        exact ⟨rfl, fun _ => rfl, fun h => absurd h hw⟩
    · rename_i hc
      obtain ⟨n, h1, h2, h3, h4, h5, h6⟩ := ih (k + 1) h
      refine ⟨n, by omega, by omega, h3, h4, fun m hm1 hm2 => ?_, h6⟩
      by_cases hk : m = k
      · subst hk; exact hc
      · exact h5 m (by omega) hm2

/-- **C23** Bounded model checking of an arbitrary linear graph answers only UNSAFE, and only if false is derivable. The
witness, if asked for, is never the empty one: it is an UNSAFE witness that uses the edges of a feasible path of the graph
from entry to exit, in order. -/
theorem C23_sound {S : Smt T} (hS : S.Sound) {R : PRepr} (hR : R.WF) {G : LGraph T} (hid : (G.map LEdge.id).Nodup)
    (w : Bool) (fuel : Nat) {res : VerificationResult T} (h : linearBmc S R w G fuel = .done res) :
    res.answer = .unsafeAns ∧ G.Unsafe R ∧ GraphResultOk R G res ∧ (w = false → res.witness = .none) ∧
    (w = true → ∃ ds es, res.witness = .invalidity ds ∧ LUnsafeWitness R G ds ∧ (∀ e ∈ es, e ∈ G) ∧ es ≠ [] ∧
      LFeasible R es trueFact falseFact ∧ ds.tail.map DStep.clauseId = es.map fun e => some e.id) := by
  obtain ⟨n, _, _, hf, hsat, _, ha, hw0, hw1⟩ := linearBmcLoop_done (G := G) fuel 0 h
  have hm := hS.sat _ hsat
  obtain ⟨es, hes, hlen, hG, hc, hfe⟩ := levelQuery_path hR hf hm
  have hU : G.Unsafe R := ⟨es, hG, hfe⟩
  have hne : es ≠ [] := by rintro rfl; simp at hlen
  have key : w = true → ∃ ds, res.witness = .invalidity ds ∧ LUnsafeWitness R G ds ∧
      ds.tail.map DStep.clauseId = es.map fun e => some e.id := by
    intro hw
    obtain ⟨ds, hds, hcw⟩ := hw1 hw
    have hr : (reached (T := T) .fls (n + 1)).holds (S.model (levelQuery G n)) := hm _ (by simp [levelQuery])
    have hl : (walkBack G (S.model (levelQuery G n)) (knownAt G (n + 1)) (n + 1) .fls).length = n + 1 := by
      rw [← List.length_reverse, hes]; exact hlen
    simp only [linearBmcWitness, hr, not_true_eq_false, if_false, hl, ne_eq, hes] at hcw
    have hw := C27_fromErrorPath_sound hS hR (mapM_ids hid hG) (by simpa using hne) hc hcw
    refine ⟨ds, hds, hw.1, ?_⟩
    rw [hw.2.1, List.map_map]; rfl
  refine ⟨ha, hU, ⟨fun _ => hU, fun e => (by rw [ha] at e; cases e), fun D e => ?_, fun ds e => ?_⟩, hw0, fun hw => ?_⟩
  · cases w with
    | false => rw [hw0 rfl] at e; cases e
    | true => obtain ⟨ds, hds, _⟩ := hw1 rfl; rw [hds] at e; cases e
  · cases w with
    | false => rw [hw0 rfl] at e; cases e
    | true =>
      obtain ⟨ds', hds, hwit, _⟩ := key rfl
      rw [hds] at e; cases e
      exact ⟨ha, hwit⟩
  · obtain ⟨ds, hds, hwit, hid'⟩ := key hw
    exact ⟨ds, es, hds, hwit, hG, hne, hfe, hid'⟩

/-! ### Completeness -/

theorem frontier_path {R : PRepr} {G : LGraph T} {es : List (LEdge T)} (hG : ∀ e ∈ es, e ∈ G) (hc : Chained .tru es .fls) :
    (∀ (i : Nat) (e : LEdge T), es[i]? = some e → e.src ∈ frontierAt G i) ∧ .fls ∈ frontierAt G es.length := by
  have key : ∀ (es : List (LEdge T)) (k : Nat) (u v : Pred), (∀ e ∈ es, e ∈ G) → Chained u es v → u ∈ frontierAt G k →
      (∀ (i : Nat) (e : LEdge T), es[i]? = some e → e.src ∈ frontierAt G (k + i)) ∧ v ∈ frontierAt G (k + es.length) := by
    intro es
    induction es with
    | nil =>
      intro k u v _ hc hu
      rw [chained_nil] at hc
      subst hc
      exact ⟨by simp, by simpa using hu⟩
    | cons e es ih =>
      intro k u v hG hc hu
      rw [chained_cons] at hc
      have h1 : e.tgt ∈ frontierAt G (k + 1) := mem_nextFrontier.2 ⟨e, hG e (by simp), rfl, hc.1 ▸ hu⟩
      obtain ⟨a, b⟩ := ih (k + 1) e.tgt v (fun e he => hG e (by simp [he])) hc.2 h1
      refine ⟨?_, ?_⟩
      · intro i e' he'
        cases i with
        | zero => simp at he'; subst he'; simpa using hc.1 ▸ hu
        | succ i =>
          have := a i e' (by simpa using he')
          rwa [show k + (i + 1) = k + 1 + i by omega]
      · rw [List.length_cons, show k + (es.length + 1) = k + 1 + es.length by omega]
        exact b
  have := key es 0 .tru .fls hG hc (by simp [frontierAt])
  simpa using this

/-- The vertex of a path at a level. -/
def pathVertexAt (es : List (LEdge T)) (k : Nat) : Option Pred :=
  if k = es.length then some .fls else (es[k]?).map LEdge.src

/-- The valuation that follows a path. -/
def followPath (es : List (LEdge T)) (ρ : Valuation T) : Valuation T := fun x => match x with
  | .base (.bmc s j) => if (pathVertexAt es j).map Pred.symNo = some s then T.vT else T.vF
  | x => ρ x

theorem reached_follow {es : List (LEdge T)} {ρ : Valuation T} {p : Pred} {k : Nat} :
    (reached (T := T) p k).holds (followPath es ρ) ↔ pathVertexAt es k = some p := by
  simp only [reached, Fla.holds_atom, Tm.eval, reachedVar, followPath]
  constructor
  · intro h
    split at h
    · rename_i hh
      cases hv : pathVertexAt es k with
      | none => rw [hv] at hh; cases hh
      | some q =>
        rw [hv] at hh
        simp only [Option.map_some, Option.some.injEq] at hh
        rw [Pred.symNo_inj hh]
    · rw [T.truth_vF] at h; cases h
  · intro h
    rw [h]
    simp [T.truth_vT]

/-- A feasible path of length `k + 1` from entry to exit gives a model of the query of level `k`. -/
theorem path_levelQuery {R : PRepr} {G : LGraph T} (hl : ∀ e ∈ G, e.LabelOk R) {es : List (LEdge T)}
    (hG : ∀ e ∈ es, e ∈ G) (hf : LFeasible R es trueFact falseFact) {k : Nat} (hk : es.length = k + 1) :
    Pred.fls ∈ frontierAt G (k + 1) ∧ SatList (levelQuery G k) := by
  have hc : Chained .tru es .fls := hf.chained
  obtain ⟨hfr, hfl⟩ := frontier_path (R := R) hG hc
  rw [hk] at hfl
  refine ⟨hfl, ?_⟩
  have hne : es ≠ [] := by rintro rfl; simp at hk
  obtain ⟨ρ, hρ, _⟩ := feasible_model (fun e he => hl e (hG e he)) hne hf
  rw [pathQuery_hold] at hρ
  have hlab : ∀ (i : Nat) (e : LEdge T), es[i]? = some e → (sendFla e.fla i).holds (followPath es ρ) := by
    intro i e he
    refine (Fla.holds_congr fun x hx => ?_).1 (hρ i e he)
    obtain ⟨y, hy, rfl⟩ := mem_vars_sendFla.1 hx
    rcases hl e (hG e (List.mem_of_getElem? he)) y hy with hm | hm | ⟨n, rfl, _⟩ | ⟨n, rfl, _⟩
    · obtain ⟨n, _, rfl⟩ := List.mem_map.1 hm; rfl
    · obtain ⟨n, _, rfl⟩ := List.mem_map.1 hm; rfl
    · rfl
    · rfl
  refine ⟨followPath es ρ, ?_⟩
  intro f hf
  rcases List.mem_append.1 hf with hf | hf
  · rcases mem_stackAt.1 hf with rfl | ⟨j, hj, p, hp, rfl⟩
    · rw [reached_follow]
      cases es with
      | nil => simp at hk
      | cons e es =>
        rw [chained_cons] at hc
        simp [pathVertexAt, hc.1]
    · rw [Fla.holds_imp]
      intro hr
      rw [reached_follow] at hr
      rw [holds_predTransition]
      have hlt : j < es.length := by omega
      have he : es[j]? = some es[j] := List.getElem?_eq_getElem hlt
      refine ⟨es[j], hG _ (List.getElem_mem hlt), ?_, hfr j _ he, hlab j _ he, ?_⟩
      · have ht : ∀ (es : List (LEdge T)) (u v : Pred) (j : Nat) (e : LEdge T), Chained u es v → es[j]? = some e →
            (if j + 1 = es.length then some v else (es[j + 1]?).map LEdge.src) = some e.tgt := by
          intro es
          induction es with
          | nil => intro u v j e _ h; simp at h
          | cons a es ih =>
            intro u v j e hc h
            rw [chained_cons] at hc
            cases j with
            | zero =>
              simp at h; subst h
              cases es with
              | nil => simp; exact (chained_nil.1 hc.2).symm
              | cons b es =>
                have := (chained_cons.1 hc.2).1
                simp; exact this.symm
            | succ j =>
              have := ih _ _ j e hc.2 (by simpa using h)
              simpa using this
        have := ht es .tru .fls j es[j] hc he
        unfold pathVertexAt at hr
        rw [hr] at this
        simpa using this.symm
      · rw [reached_follow]
        simp only [pathVertexAt, he, Option.map_some]
        rw [if_neg (by omega)]
  · simp only [List.mem_singleton] at hf
    subst hf
    rw [reached_follow]
    simp [pathVertexAt, hk]

/-- **C23** The query of each level is exact: with the exit on the frontier it is satisfiable iff there is a feasible path
of that length. -/
theorem C23_level_exact {R : PRepr} (hR : R.WF) {G : LGraph T} (hl : ∀ e ∈ G, e.LabelOk R) (k : Nat) :
    (Pred.fls ∈ frontierAt G (k + 1) ∧ SatList (levelQuery G k)) ↔
      ∃ es : List (LEdge T), es.length = k + 1 ∧ (∀ e ∈ es, e ∈ G) ∧ LFeasible R es trueFact falseFact := by
  constructor
  · rintro ⟨hf, ρ, hρ⟩
    obtain ⟨es, _, h1, h2, _, h3⟩ := levelQuery_path hR hf hρ
    exact ⟨es, h1, h2, h3⟩
  · rintro ⟨es, h1, h2, h3⟩
    exact path_levelQuery hl h2 h3 h1

/-- **C23** With a deciding backend an error path is found whenever there is one, without exception, and the one reported is
a shortest one. -/
theorem C23_complete {S : Smt T} (hS : S.Sound) (hcomp : S.Complete) {R : PRepr} (hR : R.WF) {G : LGraph T}
    (hl : ∀ e ∈ G, e.LabelOk R) (hid : (G.map LEdge.id).Nodup) (w : Bool) (fuel : Nat) :
    (∀ es : List (LEdge T), (∀ e ∈ es, e ∈ G) → LFeasible R es trueFact falseFact → es.length ≤ fuel →
      ∃ res, linearBmc S R w G fuel = .done res ∧
        (w = true → ∃ ds, res.witness = .invalidity ds ∧ ds.length ≤ es.length + 1)) ∧
    linearBmc S R w G fuel ≠ .thrown := by
  have hcheck : ∀ k, S.check (levelQuery G k) = .sat ↔ SatList (levelQuery G k) := fun k => by
    constructor
    · intro h; exact ⟨_, hS.sat _ h⟩
    · intro h
      rcases hcomp (levelQuery G k) with h' | h'
      · exact h'
      · exact absurd h (hS.unsat _ h')
  have hfound : ∀ k, Pred.fls ∈ frontierAt G (k + 1) → S.check (levelQuery G k) = .sat →
      ∃ ds, linearBmcWitness S R G (S.model (levelQuery G k)) (k + 1) (knownAt G (k + 1)) = .done ds ∧
        ds.length = k + 2 := by
    intro k hf hsat
    have hm := hS.sat _ hsat
    obtain ⟨es, hes, hlen, hG, hc, hfe⟩ := levelQuery_path hR hf hm
    have hne : es ≠ [] := by rintro rfl; simp at hlen
    have hr : (reached (T := T) .fls (k + 1)).holds (S.model (levelQuery G k)) := hm _ (by simp [levelQuery])
    have hl' : (walkBack G (S.model (levelQuery G k)) (knownAt G (k + 1)) (k + 1) .fls).length = k + 1 := by
      rw [← List.length_reverse, hes]; exact hlen
    simp only [linearBmcWitness, hr, not_true_eq_false, if_false, hl', ne_eq, hes]
    rcases C27_fromErrorPath_exact hS hcomp hR hl (mapM_ids hid hG) (by simpa using hne) hc with ⟨_, ds, hds⟩ | ⟨hn, _⟩
    · refine ⟨ds, hds, ?_⟩
      have hw := C27_fromErrorPath_sound hS hR (mapM_ids hid hG) (by simpa using hne) hc hds
      have h1 := congrArg List.length hw.2.1
      obtain ⟨d, hd, _⟩ := hw.1.first
      cases ds with
      | nil => simp at hd
      | cons a ds => simp [hlen] at h1 ⊢; exact h1
    · exact absurd hfe hn
  have hloop : ∀ fuel k, linearBmcLoop S R w G fuel k (frontierAt G k) (stackAt G k) (knownAt G k) ≠ .thrown ∧
      ∀ es : List (LEdge T), (∀ e ∈ es, e ∈ G) → LFeasible R es trueFact falseFact → k < es.length →
        es.length ≤ k + fuel → ∃ res, linearBmcLoop S R w G fuel k (frontierAt G k) (stackAt G k) (knownAt G k) = .done res ∧
          (w = true → ∃ ds, res.witness = .invalidity ds ∧ ds.length ≤ es.length + 1) := by
    intro fuel
    induction fuel with
    | zero => intro k; exact ⟨by simp [linearBmcLoop], fun es _ _ h1 h2 => by omega⟩
    | succ fuel ih =>
      intro k
      rw [linearBmcLoop_step]
      split
      · rename_i hc
        obtain ⟨ds, hds, hlen⟩ := hfound k hc.1 hc.2
        rw [hds]
        cases w with
        | true =>
          refine ⟨by simp, fun es _ _ h1 h2 => ⟨_, rfl, fun _ => ⟨ds, rfl, by omega⟩⟩⟩
        | false => exact ⟨by simp, fun es _ _ h1 h2 => ⟨_, rfl, fun e => by cases e⟩⟩
      · rename_i hc
        refine ⟨(ih (k + 1)).1, fun es hG hf h1 h2 => ?_⟩
        by_cases hk : es.length = k + 1
        · exfalso
          obtain ⟨a, b⟩ := path_levelQuery hl hG hf hk
          exact hc ⟨a, (hcheck k).2 b⟩
        · exact (ih (k + 1)).2 es hG hf (by omega) (by omega)
  refine ⟨fun es hG hf hle => ?_, (hloop fuel 0).1⟩
  refine (hloop fuel 0).2 es hG hf ?_ (by omega)
  cases es with
  | nil => exact absurd hf (by intro h; cases h)
  | cons _ _ => simp

/-! ### Example: a graph with two nodes that is no transition system -/

namespace LinearEx
open ValidatorEx (P R R_wf a)

def y (k : Int) : Var := .ver (.pr 1) k

/-- true → p0(x): ¬x;  p0(x) → p1(y): y ↔ x;  p1(y) → p0(x): ¬y ∧ x;  p1(y) → false: y. -/
def H : LGraph P :=
  [⟨.tru, .p 0, .not (a (z 1)), 0⟩, ⟨.p 0, .p 1, .iff (a (z 0)) (a (y 1)), 1⟩,
   ⟨.p 1, .p 0, .and (.not (a (y 0))) (a (z 1)), 2⟩, ⟨.p 1, .fls, a (y 0), 3⟩]

theorem H_label : ∀ e ∈ H, e.LabelOk R := by
  intro e he x hx
  simp only [H, List.mem_cons, List.not_mem_nil, or_false] at he
  rcases he with rfl | rfl | rfl | rfl <;>
    simp [a, z, y, Fla.vars, Tm.vars, PRepr.stateVars, PRepr.nextVars, R] at hx ⊢ <;>
    first | (rcases hx with hx | hx <;> simp [hx]) | simp [hx]

/-- The path found goes twice through the loop of `p0` and `p1`. -/
theorem C23_example : propSmt.Sound ∧ propSmt.Complete ∧ R.WF ∧ (∀ e ∈ H, e.LabelOk R) ∧ (H.map LEdge.id).Nodup ∧
    isTransitionSystem H = false ∧ (∀ w, linearBmc propSmt R w H 4 = .outOfFuel) ∧
    ∃ res ds, linearBmc propSmt R true H 5 = .done res ∧ res.witness = .invalidity ds ∧
      ds.map DStep.clauseId = [none, some 0, some 1, some 2, some 1, some 3] := by
  refine ⟨propSmt_sound, propSmt_complete, R_wf, H_label, by decide +kernel, by decide +kernel, ?_, ?_⟩
  · intro w
    have : ∀ w, (match linearBmc propSmt R w H 4 with | .outOfFuel => true | _ => false) = true := by decide +kernel
    have := this w
    split at this
    · assumption
    · cases this
  · have : (match linearBmc propSmt R true H 5 with
      | .done ⟨_, .invalidity ds⟩ => ds.map DStep.clauseId == [none, some 0, some 1, some 2, some 1, some 3]
      | _ => false) = true := by decide +kernel
    split at this
    · rename_i a ds h
      exact ⟨_, ds, h, rfl, by simpa using this⟩
    · cases this

end LinearEx

end Golem
