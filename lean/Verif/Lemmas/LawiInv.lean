import Verif.Lemmas.LawiItp

/-!
The invariant of LAWI without forced covering: the tree is well labelled, and the coverings are implications.
-/

namespace Golem
variable {T : Theory}

/-- The hypotheses on the components and the graph. -/
structure LwEnv.Ok (E : LwEnv T) : Prop where
  sound : E.S.Sound
  itp : E.I.Sound
  wf : E.R.WF
  simpl : SimplifierOk E.simp
  arrange : ∀ l e, e ∈ E.arrange l ↔ e ∈ l
  label : ∀ e ∈ E.G, e.LabelOk E.R
  ids : (E.G.map LEdge.id).Nodup

/-- What has been done with a vertex: it is still to be checked, or expanded, or refuted. -/
def LwDone (E : LwEnv T) (s : LwState T) (v : Nat) : Prop :=
  v ∈ s.leaves ∨ (s.loc v ≠ .fls ∧ ∀ e ∈ E.G, e.src = s.loc v → ∃ w, s.parent w = some (v, e)) ∨
    (s.loc v = .fls ∧ ∀ ρ : Valuation T, ¬ (s.label v).holds ρ)

structure LwInv (E : LwEnv T) (s : LwState T) : Prop where
  tree : LwTree E.G s
  top : ∀ ρ : Valuation T, (s.label 0).holds ρ
  step : ∀ v u e, s.parent v = some (u, e) → ∀ ρ : Valuation T, (s.label u).holds ρ → e.fla.holds ρ →
    (s.label v).holds (fun x => ρ (shift 1 x))
  vars : ∀ v, ∀ x ∈ (s.label v).vars, x ∈ E.R.stateVars (s.loc v)
  cov : ∀ c ∈ s.cover, c.1 < s.nodes.length ∧ c.2 < s.nodes.length ∧ s.loc c.1 = s.loc c.2 ∧
    (∀ ρ : Valuation T, (s.label c.1).holds ρ → (s.label c.2).holds ρ) ∧ s.isCovered c.2 = false
  done : ∀ v, v < s.nodes.length → LwDone E s v
  leaf : ∀ v ∈ s.leaves, v < s.nodes.length

theorem Smt.Correct.unsat_and {S : Smt T} (hS : S.Correct) {a c : Fla T} (h : S.check [.and a (.not c)] = .unsat) (ρ : Valuation T)
    (ha : a.holds ρ) : c.holds ρ := by
  apply Classical.byContradiction
  intro hc
  exact hS.unsat _ h ⟨ρ, by simpa [AllHold, Fla.holds] using ⟨ha, hc⟩⟩

theorem lwImplies_sound {S : Smt T} (hS : S.Correct) {a c : Fla T} (h : lwImplies S a c = true) (ρ : Valuation T) (ha : a.holds ρ) :
    c.holds ρ := by
  unfold lwImplies at h
  split at h
  · rename_i h'
    rcases h' with rfl | rfl | rfl
    · exact ha
    · exact ha.elim
    · exact trivial
  · split at h
    · cases h
    · exact hS.unsat_and (by simpa using h) ρ ha

theorem lwImpliesHints_sound {S : Smt T} (hS : S.Correct) {a c : Fla T} {ms : List (Valuation T)} (h : (lwImpliesHints S a c ms).1 = true)
    (ρ : Valuation T) (ha : a.holds ρ) : c.holds ρ := by
  unfold lwImpliesHints at h
  split at h
  · rename_i h'
    rcases h' with rfl | rfl | rfl
    · exact ha
    · exact ha.elim
    · exact trivial
  · split at h
    · cases h
    · split at h
      · cases h
      · split at h
        · rename_i hu; exact hS.unsat_and hu ρ ha
        · cases h
        · cases h

/-! ### Covering -/

/-- What `close` does: nothing, or one covering. -/
theorem closeLoop_cases {S : Smt T} (hS : S.Correct) (v : Nat) : ∀ (l : List Nat) (s : LwState T) (ms : List (Valuation T)),
    lwCloseLoop S v l s ms = s ∨ ∃ b ∈ l, s.isCovered b = false ∧ s.loc v = s.loc b ∧ s.isAncestor v b = false ∧
      (∀ ρ : Valuation T, (s.label v).holds ρ → (s.label b).holds ρ) ∧ lwCloseLoop S v l s ms = s.updateCover v b := by
  intro l
  induction l with
  | nil => intro s ms; exact .inl rfl
  | cons b l ih =>
    intro s ms
    have hrest : ∀ ms', lwCloseLoop S v l s ms' = s ∨ ∃ b' ∈ b :: l, s.isCovered b' = false ∧ s.loc v = s.loc b' ∧
        s.isAncestor v b' = false ∧ (∀ ρ : Valuation T, (s.label v).holds ρ → (s.label b').holds ρ) ∧
        lwCloseLoop S v l s ms' = s.updateCover v b' := by
      intro ms'
      rcases ih s ms' with h | ⟨b', h1, h2⟩
      · exact .inl h
      · exact .inr ⟨b', List.mem_cons_of_mem _ h1, h2⟩
    rw [lwCloseLoop]
    by_cases hb : s.isCovered b = true
    · rw [if_pos hb]; exact hrest ms
    · rw [if_neg hb]
      unfold LwState.coverHints
      by_cases hv : s.isCovered v = true
      · rw [if_pos hv]; exact .inl rfl
      · rw [if_neg hv]
        by_cases hc : s.loc v ≠ s.loc b ∨ s.isAncestor v b = true
        · rw [if_pos hc]; simp only [Bool.false_eq_true, if_false]; exact hrest ms
        · rw [if_neg hc]
          simp only
          have hc' : s.loc v = s.loc b ∧ s.isAncestor v b = false := by grind
          by_cases hi : (lwImpliesHints S (s.label v) (s.label b) ms).1 = true
          · rw [if_pos hi]
            simp only [if_true]
            exact .inr ⟨b, by simp, by simpa using hb, hc'.1, hc'.2, lwImpliesHints_sound hS hi, rfl⟩
          · rw [if_neg hi]
            simp only [Bool.false_eq_true, if_false]
            exact hrest _

theorem mem_earlier {s : LwState T} {v w : Nat} (h : w ∈ s.earlier v) : w < v ∧ 0 < w ∧ s.loc w = s.loc v := by
  unfold LwState.earlier at h
  simpa only [List.mem_filter, List.mem_reverse, List.mem_range, decide_eq_true_eq] using h

theorem close_same {S : Smt T} (hS : S.Correct) (s : LwState T) (v : Nat) :
    LwSame s (s.close S v) ∧ (s.close S v).label = s.label ∧ (s.close S v).leaves = s.leaves := by
  unfold LwState.close
  rcases closeLoop_cases hS v (s.earlier v) s [] with h | ⟨b, _, _, _, _, _, h⟩
  · rw [h]; exact ⟨.rfl' s, rfl, rfl⟩
  · rw [h]; exact ⟨cover_same s _, rfl, rfl⟩

theorem LwInv.updateCover {E : LwEnv T} {s : LwState T} (h : LwInv E s) {v b : Nat} (hv : v < s.nodes.length) (hb : b < s.nodes.length)
    (h1 : s.isCovered b = false) (h2 : s.loc v = s.loc b) (h3 : s.isAncestor v b = false)
    (h4 : ∀ ρ : Valuation T, (s.label v).holds ρ → (s.label b).holds ρ) : LwInv E (s.updateCover v b) where
  tree := (cover_same s _).tree h.tree
  top := h.top
  step := h.step
  vars := h.vars
  done := h.done
  leaf := h.leaf
  cov := by
    have hs : LwSame s (s.updateCover v b) := cover_same s _
    have hnc : ∀ x, x < s.nodes.length → s.isCovered x = false → ¬ LwAnc s v x → (s.updateCover v b).isCovered x = false := by
      intro x hx hc ha
      rw [Bool.eq_false_iff, Ne, isCovered_iff (hs.tree h.tree)]
      rintro ⟨a, b', hab, hm⟩
      rw [hs.anc] at hab
      rcases List.mem_append.1 hm with hm | hm
      · rw [Bool.eq_false_iff, Ne, isCovered_iff h.tree] at hc
        exact hc ⟨a, b', hab, (List.mem_filter.1 hm).1⟩
      · simp only [List.mem_singleton, Prod.mk.injEq] at hm
        exact ha (hm.1 ▸ hab)
    intro c hc
    rcases List.mem_append.1 hc with hc | hc
    · obtain ⟨hm, hd⟩ := List.mem_filter.1 hc
      obtain ⟨c1, c2, c3, c4, c5⟩ := h.cov c hm
      refine ⟨c1, c2, c3, c4, hnc _ c2 c5 ?_⟩
      intro ha
      simp only [decide_eq_true_eq] at hd
      exact hd (mem_descendants h.tree ha c2)
    · rw [List.mem_singleton] at hc
      subst hc
      refine ⟨hv, hb, h2, h4, hnc _ hb h1 ?_⟩
      rwa [Bool.eq_false_iff, Ne, isAncestor_iff h.tree] at h3

theorem LwInv.close {E : LwEnv T} (hE : E.Ok) {s : LwState T} (h : LwInv E s) {v : Nat} (hv : v < s.nodes.length) :
    LwInv E (s.close E.S v) := by
  unfold LwState.close
  rcases closeLoop_cases hE.sound.correct v (s.earlier v) s [] with h' | ⟨b, h0, h1, h2, h3, h4, h'⟩
  · rw [h']; exact h
  · rw [h']
    exact h.updateCover hv (by have := (mem_earlier h0).1; omega) h1 h2 h3 h4

theorem LwInv.closeAll {E : LwEnv T} (hE : E.Ok) : ∀ {l : List Nat} {s : LwState T}, LwInv E s → (∀ v ∈ l, v < s.nodes.length) →
    LwInv E (l.foldl (fun s w => s.close E.S w) s) ∧ LwSame s (l.foldl (fun s w => s.close E.S w) s) := by
  intro l
  induction l with
  | nil => intro s h _; exact ⟨h, .rfl' s⟩
  | cons v l ih =>
    intro s h hl
    have hs := (close_same hE.sound.correct s v).1
    obtain ⟨k1, k2⟩ := ih (h.close hE (hl v (by simp))) (fun w hw => by rw [hs.len]; exact hl w (by simp [hw]))
    exact ⟨k1, hs.trans k2⟩

/-! ### Strengthening -/

/-- What `strengthenLabelsAlongPath` does. -/
structure LwStr (ps : List (Nat × Fla T)) (c r : LwState T × List Nat) : Prop where
  same : LwSame c.1 r.1
  leaves : r.1.leaves = c.1.leaves
  cover : ∀ x ∈ r.1.cover, x ∈ c.1.cover
  label : ∀ v, ∀ ρ : Valuation T, (r.1.label v).holds ρ ↔ (c.1.label v).holds ρ ∧ ∀ f, (v, f) ∈ ps → f.holds ρ
  vars : ∀ v, ∀ x ∈ (r.1.label v).vars, x ∈ (c.1.label v).vars ∨ ∃ f, (v, f) ∈ ps ∧ x ∈ f.vars
  imp : (∀ x ∈ c.1.cover, ∀ ρ : Valuation T, (c.1.label x.1).holds ρ → (c.1.label x.2).holds ρ) →
    ∀ x ∈ r.1.cover, ∀ ρ : Valuation T, (r.1.label x.1).holds ρ → (r.1.label x.2).holds ρ
  who : ∀ v ∈ r.2, v ∈ c.2 ∨ v ∈ ps.map Prod.fst

theorem lwStrengthenStep_spec {S : Smt T} (hS : S.Correct) (c : LwState T × List Nat) (p : Nat × Fla T) (hp : p.1 < c.1.nodes.length) :
    LwStr [p] c (lwStrengthenStep S c p) := by
  obtain ⟨v, f⟩ := p
  unfold lwStrengthenStep
  by_cases h : lwImplies S (c.1.label v) f = true
  · rw [if_pos h]
    refine ⟨.rfl' _, rfl, fun _ h => h, ?_, fun _ _ h => .inl h, fun h => h, fun _ h => .inl h⟩
    intro w ρ
    constructor
    · intro hh
      refine ⟨hh, ?_⟩
      intro g hg
      simp only [List.mem_singleton, Prod.mk.injEq] at hg
      obtain ⟨rfl, rfl⟩ := hg
      exact lwImplies_sound hS h ρ hh
    · exact And.left
  · rw [if_neg h]
    have hs := setLabel_same c.1 v (.and f (c.1.label v))
    have hlab : ∀ w, ((c.1.setLabel v (.and f (c.1.label v))).strengthened v).label w =
      if w = v then .and f (c.1.label v) else c.1.label w := setLabel_label c.1 hp _
    refine ⟨hs.trans (cover_same _ _), rfl, fun x hx => (List.mem_filter.1 hx).1, ?_, ?_, ?_, ?_⟩
    · intro w ρ
      simp only [hlab]
      by_cases hw : w = v
      · subst hw; simp [and_comm]
      · simp [hw]
    · intro w x hx
      simp only [hlab] at hx
      split at hx
      · rename_i hw; subst hw
        simp only [Fla.vars, List.mem_append] at hx
        rcases hx with hx | hx
        · exact .inr ⟨f, by simp, hx⟩
        · exact .inl hx
      · exact .inl hx
    · intro hi x hx ρ hh
      obtain ⟨hm, hn⟩ := List.mem_filter.1 hx
      simp only [hlab] at hh ⊢
      rw [if_neg (by simpa using hn)]
      refine hi x hm ρ ?_
      split at hh
      · rename_i h'; rw [h']; exact hh.2
      · exact hh
    · intro w hw
      rcases List.mem_append.1 hw with hw | hw
      · exact .inl hw
      · exact .inr (by simpa using hw)

theorem lwStrengthen_fold {S : Smt T} (hS : S.Correct) : ∀ (ps : List (Nat × Fla T)) (c : LwState T × List Nat),
    (∀ p ∈ ps, p.1 < c.1.nodes.length) → LwStr ps c (ps.foldl (lwStrengthenStep S) c) := by
  intro ps
  induction ps with
  | nil => intro c _; exact ⟨.rfl' _, rfl, fun _ h => h, by simp, fun _ _ h => .inl h, fun h => h, fun _ h => .inl h⟩
  | cons p ps ih =>
    intro c hc
    have h1 := lwStrengthenStep_spec hS c p (hc p (by simp))
    have h2 := ih (lwStrengthenStep S c p) (fun q hq => by rw [h1.same.len]; exact hc q (by simp [hq]))
    rw [List.foldl_cons]
    refine ⟨h1.same.trans h2.same, h2.leaves.trans h1.leaves, fun x hx => h1.cover x (h2.cover x hx), ?_, ?_, fun hi => h2.imp (h1.imp hi), ?_⟩
    · intro v ρ
      rw [h2.label, h1.label]
      constructor
      · rintro ⟨⟨a, b⟩, d⟩
        refine ⟨a, fun f hf => ?_⟩
        rcases List.mem_cons.1 hf with hf | hf
        · exact b f (by simp [hf])
        · exact d f hf
      · rintro ⟨a, b⟩
        exact ⟨⟨a, fun f hf => b f (by rw [List.mem_singleton] at hf; simp [hf])⟩, fun f hf => b f (by simp [hf])⟩
    · intro v x hx
      rcases h2.vars v x hx with h | ⟨f, hf, hx⟩
      · rcases h1.vars v x h with h | ⟨f, hf, hx⟩
        · exact .inl h
        · exact .inr ⟨f, by rw [List.mem_singleton] at hf; simp [hf], hx⟩
      · exact .inr ⟨f, by simp [hf], hx⟩
    · intro v hv
      rcases h2.who v hv with h | h
      · rcases h1.who v h with h | h
        · exact .inl h
        · exact .inr (by simp only [List.map_cons, List.map_nil, List.mem_singleton] at h; simp [h])
      · exact .inr (by simp only [List.map_cons, List.mem_cons]; exact .inr h)

theorem LwInv.refined {E : LwEnv T} {s : LwState T} (h : LwInv E s) {v : Nat} (hv : v < s.nodes.length)
    (hloc : s.loc v = .fls) {N : List (Fla T)} (hN : LwItps E.R ((s.path v 0).map fun p => p.2.1) N)
    {r : LwState T × List Nat} (hr : LwStr (((s.path v 0).map fun p => p.2.2).zip N) (s, []) r) :
    LwInv E (r.1.removeLeaf v) ∧ ∀ w ∈ r.2, w < (r.1.removeLeaf v).nodes.length := by
  have hp := path_ok h.tree hv
  generalize s.path v 0 = l at hp hN hr
  have hlen : N.length = l.length := by rw [hN.len, List.length_map]
  -- the pairs
  have hmem : ∀ w f, (w, f) ∈ (l.map fun p => p.2.2).zip N ↔ ∃ (i : Nat) (p : Nat × LEdge T × Nat), l[i]? = some p ∧ p.2.2 = w ∧ N[i]? = some f := by
    intro w f
    rw [List.mem_iff_getElem?]
    constructor
    · rintro ⟨i, hi⟩
      rw [List.getElem?_zip_eq_some] at hi
      simp only [List.getElem?_map, Option.map_eq_some_iff] at hi
      obtain ⟨⟨p, h1, h2⟩, h3⟩ := hi
      exact ⟨i, p, h1, h2, h3⟩
    · rintro ⟨i, p, h1, h2, h3⟩
      refine ⟨i, ?_⟩
      rw [List.getElem?_zip_eq_some]
      simp only [List.getElem?_map, Option.map_eq_some_iff]
      exact ⟨⟨p, h1, h2⟩, h3⟩
  have hedge : ∀ (i : Nat) (p : Nat × LEdge T × Nat), l[i]? = some p → (l.map fun p => p.2.1)[i]? = some p.2.1 := by
    intro i p hi; simp [hi]
  have hs : LwSame s (r.1.removeLeaf v) := hr.same.trans (leaves_same _ _)
  have ht := hs.tree h.tree
  have hlab : ∀ w, ∀ ρ : Valuation T, ((r.1.removeLeaf v).label w).holds ρ → (s.label w).holds ρ := fun w ρ hh => ((hr.label w ρ).1 hh).1
  have hnc : ∀ x, s.isCovered x = false → (r.1.removeLeaf v).isCovered x = false := by
    intro x hx
    rw [Bool.eq_false_iff, Ne, isCovered_iff ht]
    rintro ⟨a, b, hab, hm⟩
    rw [Bool.eq_false_iff, Ne, isCovered_iff h.tree] at hx
    exact hx ⟨a, b, hs.anc.1 hab, hr.cover _ hm⟩
  have hpar : ∀ (i : Nat) (p : Nat × LEdge T × Nat), l[i]? = some p → s.parent p.2.2 = some (p.1, p.2.1) :=
    fun i p hi => hp.edges p (List.mem_of_getElem? hi)
  have hget : ∀ (i : Nat), i < l.length → ∃ f, N[i]? = some f := fun i hi => ⟨N[i]'(by omega), List.getElem?_eq_getElem (by omega)⟩
  refine ⟨⟨ht, ?_, ?_, ?_, ?_, ?_, ?_⟩, ?_⟩
  · intro ρ
    refine (hr.label 0 ρ).2 ⟨h.top ρ, ?_⟩
    intro f hf
    obtain ⟨i, p, h1, h2, h3⟩ := (hmem 0 f).1 hf
    have := hpar i p h1
    rw [h2, h.tree.root.2] at this
    cases this
  · intro w u e hw ρ hu he
    rw [hs.parent] at hw
    refine (hr.label w _).2 ⟨h.step w u e hw ρ (hlab u ρ hu) he, ?_⟩
    intro f hf
    obtain ⟨i, p, h1, h2, h3⟩ := (hmem w f).1 hf
    have hpp := hpar i p h1
    rw [h2, hw] at hpp
    simp only [Option.some.injEq, Prod.mk.injEq] at hpp
    obtain ⟨rfl, rfl⟩ := hpp
    rcases hp.link h1 with ⟨rfl, _⟩ | ⟨q, hi, h4, h5⟩
    · exact hN.first _ f (hedge 0 p h1) h3 ρ he
    · obtain ⟨j, rfl⟩ : ∃ j, i = j + 1 := ⟨i - 1, by omega⟩
      simp only [Nat.add_sub_cancel] at h4
      obtain ⟨g, hg⟩ := hget j (List.getElem?_lt h4)
      exact hN.step j _ g f (hedge _ p h1) hg h3 ρ (((hr.label p.1 ρ).1 hu).2 g ((hmem _ _).2 ⟨j, q, h4, h5, hg⟩)) he
  · intro w x hx
    rw [hs.loc]
    rcases hr.vars w x hx with hx | ⟨f, hf, hx⟩
    · exact h.vars w x hx
    · obtain ⟨i, p, h1, h2, h3⟩ := (hmem w f).1 hf
      have := hN.vars i _ f (hedge i p h1) h3 x hx
      rw [(h.tree.par _ _ _ (hpar i p h1)).2.2.2.2, h2] at this
      exact this
  · intro c hc
    obtain ⟨c1, c2, c3, c4, c5⟩ := h.cov c (hr.cover c hc)
    rw [hs.len, hs.loc]
    exact ⟨c1, c2, c3, hr.imp (fun x hx => (h.cov x hx).2.2.2.1) c hc, hnc _ c5⟩
  · intro w hw
    rw [hs.len] at hw
    unfold LwDone
    rw [hs.loc, hs.parent]
    by_cases hwv : w = v
    · subst hwv
      refine .inr (.inr ⟨hloc, ?_⟩)
      intro ρ hh
      rcases hp.last with ⟨_, h0⟩ | ⟨p, h1, h2, h3⟩
      · rw [← h0, h.tree.root.1] at hloc; cases hloc
      · obtain ⟨f, hf⟩ := hget _ (List.getElem?_lt h1)
        exact hN.last f (by rw [List.length_map]; exact hf) ρ (((hr.label w ρ).1 hh).2 f ((hmem _ _).2 ⟨_, p, h1, h2, hf⟩))
    · rcases h.done w hw with hd | hd | ⟨h1, h2⟩
      · refine .inl (List.mem_filter.2 ⟨by rw [hr.leaves]; exact hd, by simpa using hwv⟩)
      · exact .inr (.inl hd)
      · exact .inr (.inr ⟨h1, fun ρ hh => h2 ρ (hlab w ρ hh)⟩)
  · intro w hw
    rw [hs.len]
    have := (List.mem_filter.1 hw).1
    rw [hr.leaves] at this
    exact h.leaf w this
  · intro w hw
    rw [hs.len]
    rcases hr.who w hw with hw | hw
    · cases hw
    · obtain ⟨⟨w', f⟩, hm, rfl⟩ := List.mem_map.1 hw
      obtain ⟨i, p, h1, h2, _⟩ := (hmem w' f).1 hm
      rw [← h2]
      exact (h.tree.par _ _ _ (hpar i p h1)).2.1

end Golem
