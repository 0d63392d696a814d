import Verif.Lemmas.ArgLabel

/-! Interpolants of interpolation trees. -/

namespace Golem
variable {T : Theory} {R : PRepr} {G : Graph T} {tree : List (PaTree T)}

/-- Tree interpolation: if the interpolants of disjoint parts and one more assertion hold, so does the interpolant of their union
(the interpolants come from one refutation). -/
def Smt.TreeItp (S : Smt T) : Prop := ∀ (fs : List (Fla T)) (ms : List (List Nat)) (n : Nat) (f : Fla T) (m : List Nat),
  S.check fs = .unsat → fs[n]? = some f → (∀ a ∈ ms, n ∉ a) → ms.Pairwise (fun a b => ∀ j ∈ a, j ∉ b) →
  (∀ j, j ∈ m ↔ j = n ∨ ∃ a ∈ ms, j ∈ a) →
  ∀ ρ : Valuation T, f.holds ρ → (∀ a ∈ ms, (S.itpMask fs a).holds ρ) → (S.itpMask fs m).holds ρ

/-- `j` is in the subtree of `n`. -/
inductive PaBelow (tree : List (PaTree T)) (n : Nat) : Nat → Prop where
  | self : PaBelow tree n n
  | down {p j : Nat} : PaBelow tree n p → j ∈ paChildren tree p → PaBelow tree n j

theorem PaBelow.up {n c j : Nat} (hc : c ∈ paChildren tree n) (h : PaBelow tree c j) : PaBelow tree n j := by
  induction h with
  | self => exact .down .self hc
  | down _ hj ih => exact .down ih hj

theorem below_iff {n j : Nat} : PaBelow tree n j ↔ j = n ∨ ∃ c ∈ paChildren tree n, PaBelow tree c j := by
  constructor
  · intro h
    induction h with
    | self => exact .inl rfl
    | @down p j _ hj ih =>
      rcases ih with rfl | ⟨c, hc, h⟩
      · exact .inr ⟨j, hj, .self⟩
      · exact .inr ⟨c, hc, .down h hj⟩
  · rintro (rfl | ⟨c, hc, h⟩)
    · exact .self
    · exact h.up hc

theorem parent_unique {p q j : Nat} (h : j ∈ paChildren tree p) (h' : j ∈ paChildren tree q) : p = q := by
  obtain ⟨t, h1, h2⟩ := mem_paChildren.1 h
  obtain ⟨t', h3, h4⟩ := mem_paChildren.1 h'
  rw [h1] at h3; cases h3
  rw [h2] at h4; cases h4; rfl

theorem PaTreeOk.below_ge (h : PaTreeOk G tree) {n j : Nat} (hb : PaBelow tree n j) : n ≤ j := by
  induction hb with
  | self => exact Nat.le_refl _
  | down _ hj ih => have := h.child_gt hj; omega

theorem PaTreeOk.below_disjoint (h : PaTreeOk G tree) {n c c' j : Nat} (hc : c ∈ paChildren tree n) (hc' : c' ∈ paChildren tree n)
    (hb : PaBelow tree c j) (hb' : PaBelow tree c' j) : c = c' := by
  induction hb with
  | self =>
    cases hb' with
    | self => rfl
    | down hp hj =>
      have := parent_unique hj hc
      subst this
      have h1 := h.below_ge hp
      have h2 := h.child_gt hc'
      omega
  | @down p j hp hj ih =>
    cases hb' with
    | self =>
      have := parent_unique hj hc'
      subst this
      have h1 := h.below_ge hp
      have h2 := h.child_gt hc
      omega
    | @down p' j hp' hj' =>
      have := parent_unique hj hj'
      subst this
      exact ih hp'

theorem PaTreeOk.below_lt (h : PaTreeOk G tree) {n j : Nat} (hn : n < tree.length) (hb : PaBelow tree n j) : j < tree.length := by
  cases hb with
  | self => exact hn
  | down _ hj =>
    obtain ⟨t, h1, _⟩ := mem_paChildren.1 hj
    exact List.getElem?_lt h1

/-- The masks after the nodes from `k` on were visited. -/
structure MaskInv (tree : List (PaTree T)) (k : Nat) (masks : List (List Nat)) : Prop where
  len : masks.length = tree.length
  mem : ∀ n, n < tree.length → ∀ j, j ∈ masks.getD n [] ↔ (k ≤ n ∧ j = n) ∨ ∃ c ∈ paChildren tree n, k ≤ c ∧ PaBelow tree c j

theorem getD_modify {α : Type} {l : List α} {i j : Nat} {f : α → α} {d : α} (hi : i < l.length) :
    (l.modify i f).getD j d = if j = i then f (l.getD i d) else l.getD j d := by
  simp only [List.getD_eq_getElem?_getD, List.getElem?_modify]
  by_cases h : j = i
  · subst h; simp [hi]
  · rw [if_neg h]
    simp [Ne.symm h]

theorem maskInv_step (h : PaTreeOk G tree) {k : Nat} {masks : List (List Nat)} (hk : k < tree.length) (hi : MaskInv tree (k + 1) masks) :
    MaskInv tree k (paMaskStep tree masks k) := by
  obtain ⟨t, ht⟩ : ∃ t, tree[k]? = some t := ⟨tree[k], by simp [hk]⟩
  have hlen := hi.len
  -- the mask of the node itself
  have hself : ∀ j, j ∈ (k :: masks.getD k []) ↔ PaBelow tree k j := by
    intro j
    rw [List.mem_cons, hi.mem k hk, below_iff]
    constructor
    · rintro (h1 | ⟨h1, _⟩ | ⟨c, h1, _, h2⟩)
      · exact .inl h1
      · omega
      · exact .inr ⟨c, h1, h2⟩
    · rintro (h1 | ⟨c, h1, h2⟩)
      · exact .inl h1
      · exact .inr (.inr ⟨c, h1, h.child_gt h1, h2⟩)
  unfold paMaskStep
  simp only [ht, Option.bind_some]
  cases hpar : t.parent with
  | none =>
    refine ⟨by simp [hlen], fun n hn j => ?_⟩
    simp only
    rw [getD_modify (by omega)]
    by_cases hnk : n = k
    · subst hnk
      rw [if_pos rfl, hself, below_iff]
      constructor
      · rintro (h1 | ⟨c, h1, h2⟩)
        · exact .inl ⟨Nat.le_refl _, h1⟩
        · exact .inr ⟨c, h1, Nat.le_of_lt (h.child_gt h1), h2⟩
      · rintro (⟨_, h1⟩ | ⟨c, h1, _, h2⟩)
        · exact .inl h1
        · exact .inr ⟨c, h1, h2⟩
    · rw [if_neg hnk, hi.mem n hn]
      constructor
      · rintro (⟨h1, h2⟩ | ⟨c, h1, h2, h3⟩)
        · exact .inl ⟨by omega, h2⟩
        · exact .inr ⟨c, h1, by omega, h3⟩
      · rintro (⟨h1, h2⟩ | ⟨c, h1, h2, h3⟩)
        · exact .inl ⟨by omega, h2⟩
        · refine .inr ⟨c, h1, ?_, h3⟩
          have : c ≠ k := by
            rintro rfl
            obtain ⟨t', h4, h5⟩ := mem_paChildren.1 h1
            rw [ht] at h4; cases h4
            rw [hpar] at h5; cases h5
          omega
  | some p =>
    have hpk : k ∈ paChildren tree p := mem_paChildren.2 ⟨t, ht, hpar⟩
    have hplt := h.child_gt hpk
    refine ⟨by simp [hlen], fun n hn j => ?_⟩
    simp only
    rw [getD_modify (by simp; omega), getD_modify (by omega), getD_modify (by omega), getD_modify (by omega)]
    rw [if_pos rfl, if_neg (by omega : p ≠ k)]
    by_cases hnp : n = p
    · subst hnp
      rw [if_pos rfl, List.mem_append, hself, hi.mem n hn]
      constructor
      · rintro ((⟨h1, _⟩ | ⟨c, h1, h2, h3⟩) | h1)
        · omega
        · exact .inr ⟨c, h1, by omega, h3⟩
        · exact .inr ⟨k, hpk, Nat.le_refl _, h1⟩
      · rintro (⟨h1, _⟩ | ⟨c, h1, h2, h3⟩)
        · omega
        · by_cases hck : c = k
          · subst hck; exact .inr h3
          · exact .inl (.inr ⟨c, h1, by omega, h3⟩)
    · rw [if_neg hnp]
      by_cases hnk : n = k
      · subst hnk
        rw [if_pos rfl, hself, below_iff]
        constructor
        · rintro (h1 | ⟨c, h1, h2⟩)
          · exact .inl ⟨Nat.le_refl _, h1⟩
          · exact .inr ⟨c, h1, Nat.le_of_lt (h.child_gt h1), h2⟩
        · rintro (⟨_, h1⟩ | ⟨c, h1, _, h2⟩)
          · exact .inl h1
          · exact .inr ⟨c, h1, h2⟩
      · rw [if_neg hnk, hi.mem n hn]
        constructor
        · rintro (⟨h1, h2⟩ | ⟨c, h1, h2, h3⟩)
          · exact .inl ⟨by omega, h2⟩
          · exact .inr ⟨c, h1, by omega, h3⟩
        · rintro (⟨h1, h2⟩ | ⟨c, h1, h2, h3⟩)
          · exact .inl ⟨by omega, h2⟩
          · refine .inr ⟨c, h1, ?_, h3⟩
            have : c ≠ k := by
              rintro rfl
              exact hnp (parent_unique h1 hpk)
            omega

/-- The mask of a node: the nodes below it. -/
theorem paMasks_mem (h : PaTreeOk G tree) {n j : Nat} (hn : n < tree.length) : j ∈ (paMasks tree).getD n [] ↔ PaBelow tree n j := by
  have hall : ∀ m, m ≤ tree.length → MaskInv tree (tree.length - m)
      (((List.range tree.length).drop (tree.length - m)).foldr (fun x c => paMaskStep tree c x) (tree.map fun _ => [])) := by
    intro m
    induction m with
    | zero =>
      intro _
      rw [Nat.sub_zero, List.drop_of_length_le (by simp)]
      refine ⟨by simp, fun n hn j => ?_⟩
      have : ((tree.map fun _ => ([] : List Nat)).getD n []) = [] := by simp [hn]
      simp only [List.foldr_nil, this, List.not_mem_nil, false_iff, not_or, not_and, not_exists]
      refine ⟨fun h1 => by omega, fun c hc h1 => ?_⟩
      obtain ⟨t, ht, _⟩ := mem_paChildren.1 hc
      have := List.getElem?_lt ht
      omega
    | succ m ih =>
      intro hm
      have h1 := ih (by omega)
      have hk : tree.length - (m + 1) + 1 = tree.length - m := by omega
      have hd : (List.range tree.length).drop (tree.length - (m + 1)) =
          (tree.length - (m + 1)) :: (List.range tree.length).drop (tree.length - m) := by
        have hlt : tree.length - (m + 1) < (List.range tree.length).length := by simp; omega
        rw [List.drop_eq_getElem_cons hlt, hk]
        simp
      rw [hd, List.foldr_cons]
      exact maskInv_step h (by omega) (by rw [hk]; exact h1)
  have hm := hall tree.length (Nat.le_refl _)
  rw [Nat.sub_self, List.drop_zero] at hm
  unfold paMasks
  rw [List.foldl_reverse, hm.mem n hn, below_iff]
  constructor
  · rintro (⟨_, h1⟩ | ⟨c, h1, _, h2⟩)
    · exact .inl h1
    · exact .inr ⟨c, h1, h2⟩
  · rintro (h1 | ⟨c, h1, h2⟩)
    · exact .inl ⟨Nat.zero_le _, h1⟩
    · exact .inr ⟨c, h1, Nat.zero_le _, h2⟩

/-! ### Labels by number -/

theorem paLabels_get {n : Nat} {t : PaTree T} (ht : tree[n]? = some t) :
    (paLabels R tree)[n]? = some (paLabel R tree (paVersions tree) n t.clause) := by
  unfold paLabels
  rw [List.getElem?_map, List.getElem?_zipIdx, ht]
  simp

theorem paLabels_get' {n : Nat} {f : Fla T} (hf : (paLabels R tree)[n]? = some f) :
    ∃ t, tree[n]? = some t ∧ f = paLabel R tree (paVersions tree) n t.clause := by
  unfold paLabels at hf
  rw [List.getElem?_map, Option.map_eq_some_iff] at hf
  obtain ⟨⟨t, i⟩, h1, h2⟩ := hf
  rw [List.getElem?_zipIdx, Option.map_eq_some_iff] at h1
  obtain ⟨t', h3, h4⟩ := h1
  simp only [Prod.mk.injEq, Nat.zero_add] at h4
  obtain ⟨rfl, rfl⟩ := h4
  exact ⟨t', h3, h2.symm⟩

theorem mem_maskPart {fs : List (Fla T)} {mask : List Nat} {b : Bool} {f : Fla T} :
    f ∈ maskPart fs mask b ↔ ∃ i : Nat, fs[i]? = some f ∧ (decide (i ∈ mask) = b) := by
  unfold maskPart
  simp only [List.mem_map, List.mem_filter, Prod.exists, beq_iff_eq]
  constructor
  · rintro ⟨g, i, ⟨h1, h2⟩, rfl⟩
    exact ⟨i, List.mem_zipIdx_iff_getElem?.1 h1, h2⟩
  · rintro ⟨i, h1, h2⟩
    exact ⟨f, i, ⟨List.mem_zipIdx_iff_getElem?.2 h1, h2⟩, rfl⟩

theorem mem_maskParts {fs : List (Fla T)} {mask : List Nat} (f : Fla T) :
    f ∈ fs ↔ f ∈ maskPart fs mask true ∨ f ∈ maskPart fs mask false := by
  rw [mem_maskPart, mem_maskPart, List.mem_iff_getElem?]
  constructor
  · rintro ⟨i, hi⟩
    by_cases h : i ∈ mask
    · exact .inl ⟨i, hi, by simp [h]⟩
    · exact .inr ⟨i, hi, by simp [h]⟩
  · rintro (⟨i, hi, _⟩ | ⟨i, hi, _⟩) <;> exact ⟨i, hi⟩

/-- The interpolant of a node. -/
def PaEnv.itpAt (E : PaEnv T) (tree : List (PaTree T)) (n : Nat) : Fla T :=
  E.I.itpMask (paLabels E.R tree) ((paMasks tree).getD n [])

variable {E : PaEnv T}

/-- The interpolant of a node only mentions its instance. -/
theorem itpAt_vars (hI : E.I.Sound) (hG : PaGraph E.R G) (h : PaTreeOk G tree) (hu : E.I.check (paLabels E.R tree) = .unsat) {n : Nat}
    (hn : 0 < n) (hlt : n < tree.length) {x : Var} (hx : x ∈ (E.itpAt tree n).vars) : OfInst E.R tree n x := by
  obtain ⟨h1, h2⟩ := (hI.itp _ _ _ hu mem_maskParts).shared x hx
  rw [Fla.mem_vars_conj] at h1 h2
  obtain ⟨f, hf, hxf⟩ := h1
  obtain ⟨g, hg, hxg⟩ := h2
  rw [mem_maskPart] at hf hg
  obtain ⟨i, hi, hi'⟩ := hf
  obtain ⟨j, hj, hj'⟩ := hg
  simp only [decide_eq_true_eq, decide_eq_false_iff_not, paMasks_mem h hlt] at hi' hj'
  obtain ⟨ti, hti, rfl⟩ := paLabels_get' hi
  obtain ⟨tj, htj, rfl⟩ := paLabels_get' hj
  -- an instance variable occurs in the label of its node and in that of the parent
  have key : ∀ {c : Nat}, 0 < c → c < tree.length → OfInst E.R tree c x → (i = c ∨ c ∈ paChildren tree i) → (j = c ∨ c ∈ paChildren tree j) →
      OfInst E.R tree n x := by
    intro c hc hcl hof hic hjc
    rcases hic with rfl | hic
    · rcases hjc with rfl | hjc
      · exact absurd hi' hj'
      · cases hi' with
        | self => exact hof
        | down hp hcp =>
          have := parent_unique hcp hjc
          subst this
          exact absurd hp hj'
    · rcases hjc with rfl | hjc
      · exact absurd (.down hi' hic) hj'
      · have := parent_unique hic hjc
        subst this
        exact absurd hi' hj'
  have cl : ∀ {k : Nat} {t : PaTree T}, tree[k]? = some t → x ∈ (paLabel E.R tree (paVersions tree) k t.clause).vars →
      (∃ c, 0 < c ∧ c < tree.length ∧ OfInst E.R tree c x ∧ (k = c ∨ c ∈ paChildren tree k)) ∨ ∃ a, x = .ver (.paux a) k := by
    intro k t ht hx
    rcases label_vars hG h ht hx with ⟨h1, h2⟩ | ⟨c, h1, h2⟩ | h1
    · exact .inl ⟨k, by omega, List.getElem?_lt ht, h2, .inl rfl⟩
    · obtain ⟨t', h3, _⟩ := mem_paChildren.1 h1
      exact .inl ⟨c, by have := h.child_gt h1; omega, List.getElem?_lt h3, h2, .inr h1⟩
    · exact .inr h1
  rcases cl hti hxf with ⟨c, c1, c2, c3, c4⟩ | ⟨a, ha⟩
  · rcases cl htj hxg with ⟨d, d1, d2, d3, d4⟩ | ⟨b, hb⟩
    · have := ofInst_inj hG h c1 d1 c2 d2 c3 d3
      subst this
      exact key c1 c2 c3 c4 d4
    · subst hb; exact (ofInst_aux hG c3).elim
  · rcases cl htj hxg with ⟨d, d1, d2, d3, d4⟩ | ⟨b, hb⟩
    · subst ha; exact (ofInst_aux hG d3).elim
    · rw [ha, Var.ver.injEq] at hb
      have : i = j := by exact_mod_cast hb.2
      subst this
      exact absurd hi' hj'

/-- The interpolant of the root cannot hold. -/
theorem itpAt_root (hI : E.I.Sound) (h : PaTreeOk G tree) (hu : E.I.check (paLabels E.R tree) = .unsat) (ρ : Valuation T) :
    ¬ (E.itpAt tree 0).holds ρ := by
  intro hh
  refine (hI.itp _ _ _ hu mem_maskParts).refuteB ρ hh ?_
  intro f hf
  rw [mem_maskPart] at hf
  obtain ⟨i, hi, hi'⟩ := hf
  simp only [decide_eq_false_iff_not, paMasks_mem h h.pos] at hi'
  exfalso
  apply hi'
  obtain ⟨t, ht, -⟩ := paLabels_get' hi
  clear hi hi'
  induction i using Nat.strongRecOn generalizing t with
  | ind i ih =>
    rcases Nat.eq_zero_or_pos i with rfl | hpos
    · exact .self
    · obtain ⟨_, p, h1, h2⟩ := h.node i t hpos ht
      have hlt := List.getElem?_lt ht
      obtain ⟨t', ht'⟩ : ∃ t', tree[p]? = some t' := ⟨tree[p]'(by omega), by simp⟩
      exact .down (ih p h2 t' ht') (mem_paChildren.2 ⟨t, ht, h1⟩)

/-- The interpolants of the children and the label give the interpolant of the node. -/
theorem itpAt_step (ht : E.I.TreeItp) (h : PaTreeOk G tree) (hu : E.I.check (paLabels E.R tree) = .unsat) {n : Nat} {t : PaTree T}
    (hn : tree[n]? = some t) {ρ : Valuation T} (hl : (paLabel E.R tree (paVersions tree) n t.clause).holds ρ)
    (hc : ∀ c ∈ paChildren tree n, (E.itpAt tree c).holds ρ) : (E.itpAt tree n).holds ρ := by
  have hlt := List.getElem?_lt hn
  have hclt : ∀ c ∈ paChildren tree n, c < tree.length := by
    intro c hc
    obtain ⟨t', h1, _⟩ := mem_paChildren.1 hc
    exact List.getElem?_lt h1
  refine ht (paLabels E.R tree) ((paChildren tree n).map fun c => (paMasks tree).getD c []) n _ _ hu (paLabels_get hn) ?_ ?_ ?_ ρ hl ?_
  · intro a ha
    obtain ⟨c, hc1, rfl⟩ := List.mem_map.1 ha
    rw [paMasks_mem h (hclt c hc1)]
    intro hb
    have := h.below_ge hb
    have := h.child_gt hc1
    omega
  · rw [List.pairwise_map]
    refine List.Pairwise.imp_of_mem ?_ (paChildren_nodup tree n)
    intro a b ha hb hab j hj hj'
    rw [paMasks_mem h (hclt a ha)] at hj
    rw [paMasks_mem h (hclt b hb)] at hj'
    exact hab (h.below_disjoint ha hb hj hj')
  · intro j
    rw [paMasks_mem h hlt, below_iff]
    constructor
    · rintro (h1 | ⟨c, h1, h2⟩)
      · exact .inl h1
      · exact .inr ⟨_, List.mem_map.2 ⟨c, h1, rfl⟩, (paMasks_mem h (hclt c h1)).2 h2⟩
    · rintro (h1 | ⟨a, ha, h2⟩)
      · exact .inl h1
      · obtain ⟨c, h1, rfl⟩ := List.mem_map.1 ha
        exact .inr ⟨c, h1, (paMasks_mem h (hclt c h1)).1 h2⟩
  · intro a ha
    obtain ⟨c, h1, rfl⟩ := List.mem_map.1 ha
    exact hc c h1

/-- A valuation can be transported along an injective renaming. -/
theorem exists_transport {r : Var → Var} {L : List Var} (hinj : ∀ x ∈ L, ∀ y ∈ L, r x = r y → x = y) (ρ : Valuation T) :
    ∃ σ : Valuation T, ∀ x ∈ L, σ (r x) = ρ x := by
  classical
  refine ⟨fun y => if h : ∃ x ∈ L, r x = y then ρ h.choose else ρ y, fun x hx => ?_⟩
  have h : ∃ x' ∈ L, r x' = r x := ⟨x, hx, rfl⟩
  simp only [dif_pos h]
  rw [hinj _ h.choose_spec.1 _ hx h.choose_spec.2]

/-- The predicate a node contributes. -/
def PaEnv.predAt (E : PaEnv T) (tree : List (PaTree T)) (n : Nat) : Fla T := (E.itpAt tree n).rename verToBase

theorem predAt_vars (hI : E.I.Sound) (hG : PaGraph E.R G) (h : PaTreeOk G tree) (hu : E.I.check (paLabels E.R tree) = .unsat) {n : Nat}
    (hn : 0 < n) (hlt : n < tree.length) {x : Var} (hx : x ∈ (E.predAt tree n).vars) : x ∈ E.R.baseVars (tgtAt tree n) := by
  unfold PaEnv.predAt at hx
  rw [Fla.mem_vars_rename] at hx
  obtain ⟨y, hy, rfl⟩ := hx
  obtain ⟨a, ha, rfl⟩ := itpAt_vars hI hG h hu hn hlt hy
  exact E.R.mem_baseVars.2 ⟨a, ha, rfl⟩

/-- The renaming that makes a label is injective on what matters. -/
theorem paRen_inj (hG : PaGraph R G) (h : PaTreeOk G tree) {n : Nat} {t : PaTree T} (ht : tree[n]? = some t) {x y : Var}
    (hx : x ∈ R.own t.clause.src t.clause.tgt ++ t.clause.fla.vars) (hy : y ∈ R.own t.clause.src t.clause.tgt ++ t.clause.fla.vars)
    (e : paRen R tree (paVersions tree) n t.clause x = paRen R tree (paVersions tree) n t.clause y) : x = y := by
  have hm := h.clause n t ht
  -- what a variable is renamed to
  have cl : ∀ {x : Var}, x ∈ R.own t.clause.src t.clause.tgt ++ t.clause.fla.vars →
      (∃ a ∈ R.args (tgtAt tree n), 0 < n ∧ x = .tgt a ∧ paRen R tree (paVersions tree) n t.clause x = .ver a (paVersion (paVersions tree) n)) ∨
      (∃ (a : Name) (j c : Nat) (p : Pred) (i : Nat), (paChildren tree n)[j]? = some c ∧ (instances t.clause.src)[j]? = some (p, i) ∧ a ∈ R.args p ∧ tgtAt tree c = p ∧
        x = .src a i ∧ paRen R tree (paVersions tree) n t.clause x = .ver a (paVersion (paVersions tree) c)) ∨
      ∃ k, x = .base (.paux k) ∧ paRen R tree (paVersions tree) n t.clause x = .ver (.paux k) n := by
    intro x hx
    have hx' : x ∈ R.own t.clause.src t.clause.tgt ∨ ∃ k, x = .base (.paux k) ∧ x ∈ t.clause.fla.vars := by
      rcases List.mem_append.1 hx with h1 | h1
      · exact .inl h1
      · rcases hG.label _ hm x h1 with h2 | ⟨k, h2⟩
        · exact .inl h2
        · exact .inr ⟨k, h2, h1⟩
    rcases hx' with ho | ⟨k, rfl, hk⟩
    · rcases mem_own.1 ho with ⟨⟨p, i⟩, hq, hs⟩ | hs
      · obtain ⟨a, ha, rfl⟩ := R.mem_srcVars.1 hs
        simp only at ha
        obtain ⟨j, hj⟩ := List.getElem?_of_mem hq
        right; left
        rcases h.kids n t ht with ⟨h1, _⟩ | ⟨_, h2⟩
        · rw [h1] at hq
          simp [instances, instancesAux] at hq
          rw [hq.1, hG.wf.tru] at ha; simp at ha
        · have hlen : (paChildren tree n).length = (instances t.clause.src).length := by
            rw [instances_length, ← h2, List.length_map]
          have hj' := List.getElem?_lt hj
          obtain ⟨c, hc⟩ : ∃ c, (paChildren tree n)[j]? = some c := ⟨(paChildren tree n)[j], by simp [hlen, hj']⟩
          have hp : tgtAt tree c = p := by
            have e1 : ((paChildren tree n).map (tgtAt tree))[j]? = some (tgtAt tree c) := by rw [List.getElem?_map, hc]; rfl
            have e2 : ((instances t.clause.src).map Prod.fst)[j]? = some p := by rw [List.getElem?_map, hj]; rfl
            rw [instances_fst, ← h2, e1] at e2
            exact Option.some.inj e2
          exact ⟨a, j, c, p, i, hc, hj, ha, hp, rfl, ren_src hG.wf hc hj ha⟩
      · obtain ⟨a, ha, rfl⟩ := R.mem_tgtVars.1 hs
        left
        refine ⟨a, by rw [tgtAt_eq ht]; exact ha, ?_, rfl, ren_tgt hG.wf ha⟩
        rcases Nat.eq_zero_or_pos n with rfl | hpos
        · rw [(h.tgt_fls ht).2 rfl, hG.wf.fls] at ha; simp at ha
        · exact hpos
    · exact .inr (.inr ⟨k, rfl, ren_aux hG.wf hk⟩)
  have kidpos : ∀ {j c : Nat}, (paChildren tree n)[j]? = some c → n < c ∧ c < tree.length := by
    intro j c hc
    have h1 := List.mem_of_getElem? hc
    obtain ⟨t', h2, _⟩ := mem_paChildren.1 h1
    exact ⟨h.child_gt h1, List.getElem?_lt h2⟩
  have hnlt := List.getElem?_lt ht
  rcases cl hx with ⟨a, ha, hn0, rfl, e1⟩ | ⟨a, j, c, p, i, hc, hi, ha, hp, rfl, e1⟩ | ⟨k, rfl, e1⟩ <;>
  rcases cl hy with ⟨b, hb, hn0', rfl, e2⟩ | ⟨b, j', c', p', i', hc', hi', hb, hp', rfl, e2⟩ | ⟨k', rfl, e2⟩ <;>
  rw [e1, e2, Var.ver.injEq] at e <;> obtain ⟨e3, e4⟩ := e
  · rw [e3]
  · subst e3
    obtain ⟨k1, k2⟩ := kidpos hc'
    have := ofInst_inj hG h hn0 (by omega) hnlt k2 ⟨a, ha, rfl⟩ ⟨a, by rw [hp']; exact hb, by rw [e4]⟩
    omega
  · exact absurd ha (by rw [e3]; exact hG.fresh k' _)
  · subst e3
    obtain ⟨k1, k2⟩ := kidpos hc
    have := ofInst_inj hG h (by omega) hn0' k2 hnlt ⟨a, by rw [hp]; exact ha, rfl⟩ ⟨a, hb, by rw [e4]⟩
    omega
  · subst e3
    obtain ⟨k1, k2⟩ := kidpos hc
    obtain ⟨k3, k4⟩ := kidpos hc'
    have := ofInst_inj hG h (by omega) (by omega) k2 k4 ⟨a, by rw [hp]; exact ha, rfl⟩ ⟨a, by rw [hp']; exact hb, by rw [e4]⟩
    subst this
    have hjj : j = j' := by
      have hjl := List.getElem?_lt hc
      have hjl' := List.getElem?_lt hc'
      rw [List.getElem?_eq_getElem hjl] at hc
      rw [List.getElem?_eq_getElem hjl'] at hc'
      exact (List.getElem_inj (paChildren_nodup tree n)).1 ((Option.some.inj hc).trans (Option.some.inj hc').symm)
    subst hjj
    rw [hi] at hi'
    cases hi'
    rfl
  · exact absurd ha (by rw [e3]; exact hG.fresh k' _)
  · exact absurd hb (by rw [← e3]; exact hG.fresh k _)
  · exact absurd hb (by rw [← e3]; exact hG.fresh k _)
  · rw [e3]

/-- The predicates of the children, as predicates of the sources, and the clause give the predicate of the node. -/
theorem predAt_step (hI : E.I.Sound) (hT : E.I.TreeItp) (hG : PaGraph E.R G) (h : PaTreeOk G tree)
    (hu : E.I.check (paLabels E.R tree) = .unsat) {n : Nat} {t : PaTree T} (hn : tree[n]? = some t) {ρ : Valuation T}
    (hl : t.clause.fla.holds ρ)
    (hc : ∀ (j c : Nat) (q : Pred × Nat), (paChildren tree n)[j]? = some c → (instances t.clause.src)[j]? = some q →
      ((E.predAt tree c).rename (toSrc q.2)).holds ρ) :
    0 < n ∧ ((E.predAt tree n).rename toTgt).holds ρ := by
  obtain ⟨σ, hσ⟩ := exists_transport (fun x hx y hy => paRen_inj hG h hn hx hy) ρ
  have hlab : (paLabel E.R tree (paVersions tree) n t.clause).holds σ := by
    rw [paLabel_eq, Fla.holds_rename]
    refine (Fla.holds_congr fun x hx => ?_).2 hl
    exact hσ x (List.mem_append_right _ hx)
  have hkids : ∀ c ∈ paChildren tree n, (E.itpAt tree c).holds σ := by
    intro c hcm
    obtain ⟨j, hj⟩ := List.getElem?_of_mem hcm
    have htru : .tru ∉ t.clause.src := by
      rcases h.kids n t hn with ⟨_, h2⟩ | ⟨h1, _⟩
      · rw [h2] at hcm; simp at hcm
      · exact h1
    obtain ⟨hlen, hmap⟩ := h.kid hn htru
    have hjl := List.getElem?_lt hj
    obtain ⟨⟨p, i⟩, hi⟩ : ∃ q, (instances t.clause.src)[j]? = some q := ⟨(instances t.clause.src)[j]'(by rw [instances_length]; omega), by simp⟩
    have hp : tgtAt tree c = p := by
      have e1 : ((paChildren tree n).map (tgtAt tree))[j]? = some (tgtAt tree c) := by rw [List.getElem?_map, hj]; rfl
      have e2 : ((instances t.clause.src).map Prod.fst)[j]? = some p := by rw [List.getElem?_map, hi]; rfl
      rw [instances_fst, ← hmap, e1] at e2
      exact Option.some.inj e2
    have := hc j c _ hj hi
    simp only [PaEnv.predAt, Fla.holds_rename] at this
    refine (Fla.holds_congr fun x hx => ?_).2 this
    obtain ⟨t', h3, _⟩ := mem_paChildren.1 hcm
    have hgt := h.child_gt hcm
    obtain ⟨a, ha, rfl⟩ := itpAt_vars hI hG h hu (by omega) (List.getElem?_lt h3) hx
    rw [hp] at ha
    show σ _ = ρ (.src a i)
    rw [← ren_src hG.wf hj hi ha]
    refine hσ _ (List.mem_append_left _ (mem_own.2 (.inl ⟨(p, i), List.mem_of_getElem? hi, E.R.mem_srcVars.2 ⟨a, ha, rfl⟩⟩)))
  have hitp := itpAt_step hT h hu hn hlab hkids
  have hpos : 0 < n := by
    rcases Nat.eq_zero_or_pos n with rfl | h0
    · exact absurd hitp (itpAt_root hI h hu σ)
    · exact h0
  refine ⟨hpos, ?_⟩
  simp only [PaEnv.predAt, Fla.holds_rename]
  refine (Fla.holds_congr fun x hx => ?_).1 hitp
  obtain ⟨a, ha, rfl⟩ := itpAt_vars hI hG h hu hpos (List.getElem?_lt hn) hx
  rw [tgtAt_eq hn] at ha
  show σ _ = ρ (.tgt a)
  rw [← ren_tgt hG.wf ha]
  exact hσ _ (List.mem_append_left _ (mem_own.2 (.inr (E.R.mem_tgtVars.2 ⟨a, ha, rfl⟩))))

end Golem
