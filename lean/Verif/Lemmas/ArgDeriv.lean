import Verif.Lemmas.ArgLabel

/-! The derivation made from a model of an interpolation tree. -/

namespace Golem
variable {T : Theory} {R : PRepr} {G : Graph T} {tree : List (PaTree T)}

theorem premFacts_grow {ds : List (DStep T)} {js : List Nat} (h : ∀ j ∈ js, j < ds.length) (x : List (DStep T)) :
    premFacts (ds ++ x) js = premFacts ds js := by
  unfold premFacts
  induction js with
  | nil => rfl
  | cons j js ih =>
    simp only [List.filterMap_cons]
    rw [ih fun k hk => h k (by simp [hk]), List.getElem?_append_left (h j (by simp))]

/-- The numbers from `k` on that satisfy a condition. -/
theorem filter_range_from {P : Nat → Bool} {len k : Nat} (hk : k < len) :
    ((List.range len).filter P).filter (fun i => decide (k ≤ i)) =
      (if P k then [k] else []) ++ ((List.range len).filter P).filter fun i => decide (k + 1 ≤ i) := by
  have hr : List.range len = List.range' 0 k ++ k :: List.range' (k + 1) (len - k - 1) := by
    rw [List.range_eq_range']
    have h1 : List.range' 0 len = List.range' 0 k ++ List.range' k (len - k) := by
      have := List.range'_append (s := 0) (m := k) (n := len - k) (step := 1)
      simp only [Nat.zero_add, Nat.one_mul] at this
      rw [this]; congr 1; omega
    rw [h1]
    congr 1
    have : len - k = (len - k - 1) + 1 := by omega
    rw [this, List.range'_succ]
    simp
  rw [hr]
  simp only [List.filter_append, List.filter_cons, List.filter_filter]
  have e1 : ∀ m, k ≤ m → (List.range' 0 k).filter (fun a => decide (m ≤ a) && P a) = [] := by
    intro m hm
    rw [List.filter_eq_nil_iff]
    intro a ha
    have := (List.mem_range'_1.1 ha).2
    simp; omega
  have e2 : (List.range' (k + 1) (len - k - 1)).filter (fun a => decide (k ≤ a) && P a) =
      (List.range' (k + 1) (len - k - 1)).filter (fun a => decide (k + 1 ≤ a) && P a) := by
    apply List.filter_congr
    intro a ha
    have := (List.mem_range'_1.1 ha).1
    have h1 : decide (k ≤ a) = true := by simp; omega
    have h2 : decide (k + 1 ≤ a) = true := by simp; omega
    rw [h1, h2]
  rw [e1 k (Nat.le_refl _), e1 (k + 1) (by omega)]
  cases hP : P k <;> simp [e2]

/-- What holds after the nodes from `k` on were visited. -/
structure DerInv (R : PRepr) (G : Graph T) (tree : List (PaTree T)) (ρ : Valuation T) (k : Nat) (c : List (DStep T) × (Nat → List Nat)) :
    Prop where
  head : c.1.head? = some ⟨[], trueFact, none⟩
  steps : ∀ (i : Nat) (d : DStep T), 0 < i → c.1[i]? = some d → StepOK R G c.1 i d
  noFalse : 0 < k → ∀ d ∈ c.1, d.fact.1 ≠ .fls
  last : k = 0 → ∃ d, c.1.getLast? = some d ∧ d.fact = falseFact
  prem : ∀ p, (∀ j ∈ c.2 p, j < c.1.length) ∧
    premFacts c.1 (c.2 p) = ((paChildren tree p).filter fun i => decide (k ≤ i)).map (treeFact R tree ρ)
  len : c.1.length ≤ tree.length - k + 1

theorem derInv_step (hG : PaGraph R G) (h : PaTreeOk G tree) {ρ : Valuation T}
    (hl : ∀ (n : Nat) (t : PaTree T), tree[n]? = some t → (paLabel R tree (paVersions tree) n t.clause).holds ρ)
    {k : Nat} {t : PaTree T} (ht : tree[k]? = some t) {c : List (DStep T) × (Nat → List Nat)} (hi : DerInv R G tree ρ (k + 1) c) :
    DerInv R G tree ρ k (paDeriveStep R tree ρ c (t, k)) := by
  have hklt := List.getElem?_lt ht
  have hpos : 0 < c.1.length := by
    cases hc : c.1 with
    | nil => have := hi.head; simp [hc] at this
    | cons => simp
  -- the premises
  have hall : (paChildren tree k).filter (fun i => decide (k + 1 ≤ i)) = paChildren tree k := by
    rw [List.filter_eq_self]
    intro a ha
    have := h.child_gt ha
    simp; omega
  obtain ⟨hp1, hp2⟩ := hi.prem k
  rw [hall] at hp2
  have hprems : (∀ j ∈ (if c.2 k = [] then [0] else c.2 k), j < c.1.length) ∧
      premFacts c.1 (if c.2 k = [] then [0] else c.2 k) = bodyFacts R tree ρ k := by
    unfold bodyFacts
    have hlen := premFacts_length hp1
    by_cases he : c.2 k = []
    · have : paChildren tree k = [] := by
        rw [he] at hp2
        simpa [premFacts] using hp2.symm
      rw [if_pos he, if_pos this]
      refine ⟨by simpa using hpos, ?_⟩
      cases hc : c.1 with
      | nil => have := hi.head; simp [hc] at this
      | cons d l =>
        have := hi.head
        simp only [hc, List.head?_cons, Option.some.injEq] at this
        simp [premFacts, this]
    · have : paChildren tree k ≠ [] := by
        intro e
        rw [hp2, e] at hlen
        simp only [List.map_nil, List.length_nil] at hlen
        exact he (List.length_eq_zero_iff.1 hlen.symm)
      rw [if_neg he, if_neg this]
      exact ⟨hp1, hp2⟩
  have hfires := label_fires hG h ht (hl k t ht)
  have hfact := paFact_eq hG.wf h (ρ := ρ) ht
  -- steps and index
  have key : ∀ (steps : List (DStep T)) (index : Nat),
      (steps = (if (c.1.findIdx? fun d => decide (d.fact = paFact R tree ρ k t)) = none then
        c.1 ++ [⟨if c.2 k = [] then [0] else c.2 k, paFact R tree ρ k t, some t.clause.id⟩] else c.1)) →
      index = (c.1.findIdx? fun d => decide (d.fact = paFact R tree ρ k t)).getD c.1.length →
      steps.head? = some ⟨[], trueFact, none⟩ ∧
      (∀ (i : Nat) (d : DStep T), 0 < i → steps[i]? = some d → StepOK R G steps i d) ∧
      (0 < k → ∀ d ∈ steps, d.fact.1 ≠ .fls) ∧ (k = 0 → ∃ d, steps.getLast? = some d ∧ d.fact = falseFact) ∧
      index < steps.length ∧ premFacts steps [index] = [treeFact R tree ρ k] ∧
      (∃ x, steps = c.1 ++ x) ∧ steps.length ≤ tree.length - k + 1 := by
    intro steps index hs hx
    cases hf : c.1.findIdx? fun d => decide (d.fact = paFact R tree ρ k t) with
    | some j =>
      rw [hf] at hs hx
      simp only [reduceCtorEq, if_false, Option.getD_some] at hs hx
      subst hs hx
      rw [List.findIdx?_eq_some_iff_getElem] at hf
      obtain ⟨hj, hd, _⟩ := hf
      simp only [decide_eq_true_eq] at hd
      have hk0 : k ≠ 0 := by
        rintro rfl
        have := hi.noFalse (by omega) _ (List.getElem_mem hj)
        rw [hd, hfact] at this
        simp only [treeFact, tgtAt_eq ht] at this
        exact this ((h.tgt_fls ht).2 rfl)
      refine ⟨hi.head, hi.steps, fun _ => hi.noFalse (by omega), fun e => absurd e hk0, hj, ?_, ⟨[], by simp⟩, ?_⟩
      · simp [premFacts, hj, hd, hfact]
      · have := hi.len; omega
    | none =>
      rw [hf] at hs hx
      simp only [if_true, Option.getD_none] at hs hx
      subst hs hx
      refine ⟨?_, ?_, ?_, ?_, by simp, ?_, ⟨_, rfl⟩, ?_⟩
      · have := hi.head
        cases hc : c.1 with
        | nil => simp [hc] at this
        | cons d l => simpa [hc] using this
      · intro i d hi0 hd
        by_cases hil : i < c.1.length
        · rw [List.getElem?_append_left hil] at hd
          obtain ⟨a1, e, a2, a3, a4⟩ := hi.steps i d hi0 hd
          refine ⟨a1, e, a2, a3, ?_⟩
          rw [premFacts_grow fun j hj => Nat.lt_trans (a1 j hj) hil]
          exact a4
        · have hile : i < (c.1 ++ [(⟨if c.2 k = [] then [0] else c.2 k, paFact R tree ρ k t, some t.clause.id⟩ : DStep T)]).length :=
            List.getElem?_lt hd
          simp only [List.length_append, List.length_singleton] at hile
          have : i = c.1.length := by omega
          subst this
          simp only [List.getElem?_concat_length, Option.some.injEq] at hd
          subst hd
          refine ⟨hprems.1, t.clause, h.clause k t ht, rfl, ?_⟩
          simp only
          rw [premFacts_grow hprems.1, hprems.2, hfact]
          exact hfires
      · intro hk0 d hd
        rcases List.mem_append.1 hd with hd | hd
        · exact hi.noFalse (by omega) d hd
        · simp only [List.mem_singleton] at hd
          subst hd
          simp only
          rw [hfact]
          simp only [treeFact, tgtAt_eq ht]
          exact fun e => by have := (h.tgt_fls ht).1 e; omega
      · rintro rfl
        refine ⟨_, List.getLast?_concat, ?_⟩
        simp only
        rw [paFact, if_pos ((h.parent_none ht).2 rfl)]
      · simp [premFacts, hfact]
      · have := hi.len
        simp only [List.length_append, List.length_singleton]
        omega
  obtain ⟨g1, g2, g3, g4, g5, g6, ⟨x, g7⟩, g8⟩ := key _ _ rfl rfl
  -- premises of the other nodes
  have old : ∀ p, (∀ j ∈ c.2 p, j < (c.1 ++ x).length) ∧ premFacts (c.1 ++ x) (c.2 p) =
      ((paChildren tree p).filter fun i => decide (k + 1 ≤ i)).map (treeFact R tree ρ) := by
    intro p
    obtain ⟨b1, b2⟩ := hi.prem p
    refine ⟨fun j hj => by have := b1 j hj; simp; omega, ?_⟩
    rw [premFacts_grow b1]; exact b2
  have split : ∀ p, (paChildren tree p).filter (fun i => decide (k ≤ i)) =
      (if t.parent = some p then [k] else []) ++ (paChildren tree p).filter fun i => decide (k + 1 ≤ i) := by
    intro p
    unfold paChildren
    rw [filter_range_from hklt]
    congr 1
    simp [ht]
  unfold paDeriveStep
  simp only
  cases hpar : t.parent with
  | none =>
    refine ⟨g1, g2, g3, g4, fun p => ?_, g8⟩
    have hs := split p
    simp only [hpar, reduceCtorEq, if_false, List.nil_append] at hs
    simp only
    rw [hs, g7]
    exact old p
  | some q =>
    refine ⟨g1, g2, g3, g4, fun p => ?_, g8⟩
    have hs := split p
    simp only [hpar, Option.some.injEq] at hs
    simp only
    rw [hs]
    have o := old p
    rw [← g7] at o
    by_cases hpq : p = q
    · subst hpq
      simp only [if_true]
      refine ⟨?_, ?_⟩
      · intro j hj
        rcases List.mem_cons.1 hj with rfl | hj
        · exact g5
        · exact o.1 j hj
      · rw [List.map_append, ← o.2]
        have : ∀ (ds : List (DStep T)) (a : Nat) (l : List Nat), premFacts ds (a :: l) = premFacts ds [a] ++ premFacts ds l := by
          intro ds a l
          simp only [premFacts]
          rw [show a :: l = [a] ++ l from rfl, List.filterMap_append]
        rw [this, g6]
        rfl
    · rw [if_neg hpq, if_neg (Ne.symm hpq), List.nil_append]
      exact o

/-- The derivation is a refutation. -/
theorem paDerivation_ok (hG : PaGraph R G) (h : PaTreeOk G tree) {ρ : Valuation T}
    (hl : ∀ (n : Nat) (t : PaTree T), tree[n]? = some t → (paLabel R tree (paVersions tree) n t.clause).holds ρ) :
    UnsafeWitness R G (paDerivation R tree ρ) ∧ (paDerivation R tree ρ).length ≤ tree.length + 1 := by
  have hall : ∀ m, m ≤ tree.length → DerInv R G tree ρ (tree.length - m)
      ((tree.zipIdx.drop (tree.length - m)).foldr (fun x c => paDeriveStep R tree ρ c x) ([⟨[], trueFact, none⟩], fun _ => [])) := by
    intro m
    induction m with
    | zero =>
      intro _
      rw [Nat.sub_zero, List.drop_of_length_le (by simp)]
      refine ⟨rfl, ?_, ?_, ?_, ?_, by simp⟩
      · intro i d hi hd
        simp only [List.foldr_nil] at hd
        cases i with
        | zero => omega
        | succ i => simp at hd
      · intro _ d hd
        simp only [List.foldr_nil, List.mem_singleton] at hd
        subst hd
        simp [trueFact]
      · intro e
        have := h.pos; omega
      · intro p
        refine ⟨by simp, ?_⟩
        simp only [List.foldr_nil, premFacts, List.filterMap_nil]
        symm
        rw [List.map_eq_nil_iff, List.filter_eq_nil_iff]
        intro a ha
        obtain ⟨t, ht, _⟩ := mem_paChildren.1 ha
        have := List.getElem?_lt ht
        simp; omega
    | succ m ih =>
      intro hm
      have h1 := ih (by omega)
      have hk : tree.length - (m + 1) + 1 = tree.length - m := by omega
      obtain ⟨t, ht⟩ : ∃ t, tree[tree.length - (m + 1)]? = some t := ⟨tree[tree.length - (m + 1)], by simp⟩
      have hd : tree.zipIdx.drop (tree.length - (m + 1)) = (t, tree.length - (m + 1)) :: tree.zipIdx.drop (tree.length - m) := by
        have hlt : tree.length - (m + 1) < tree.zipIdx.length := by simp; omega
        rw [List.drop_eq_getElem_cons hlt, hk]
        congr 1
        simp only [List.getElem_zipIdx, Nat.zero_add, Prod.mk.injEq, and_true]
        have := List.getElem?_lt ht
        rw [List.getElem?_eq_getElem this] at ht
        exact Option.some.inj ht
      rw [hd, List.foldr_cons]
      exact derInv_step hG h hl ht (by rw [hk]; exact h1)
  have := hall tree.length (Nat.le_refl _)
  rw [Nat.sub_self, List.drop_zero] at this
  have he : paDerivation R tree ρ =
      (tree.zipIdx.foldr (fun x c => paDeriveStep R tree ρ c x) ([⟨[], trueFact, none⟩], fun _ => [])).1 := by
    unfold paDerivation
    rw [List.foldl_reverse]
  rw [he]
  refine ⟨⟨⟨_, this.head, rfl, rfl⟩, this.last rfl, this.steps⟩, ?_⟩
  have := this.len
  omega

end Golem
