import Verif.Lemmas.LawiInv
import Verif.Props.LinearBmc

/-!
Runs of LAWI: every step keeps the tree, and without forced covering the invariant.
-/

namespace Golem
variable {T : Theory}

/-! ### Expanding a vertex -/

section
variable {E : LwEnv T} {s : LwState T} {v : Nat}

/-- The edges along which a vertex is expanded. -/
def lwEdges (E : LwEnv T) (s : LwState T) (v : Nat) : List (LEdge T) := E.arrange (E.G.out (s.loc v))

theorem mem_lwEdges (ha : ∀ l e, e ∈ E.arrange l ↔ e ∈ l) {e : LEdge T} : e ∈ lwEdges E s v ↔ e ∈ E.G ∧ e.src = s.loc v := by
  unfold lwEdges
  rw [ha, LGraph.out, List.mem_filter, decide_eq_true_eq]

theorem expand_len : (E.expand s v).1.nodes.length = s.nodes.length + (lwEdges E s v).length := by
  simp [LwEnv.expand, LwState.removeLeaf, lwEdges]

theorem expand_old {w : Nat} (hw : w < s.nodes.length) : (E.expand s v).1.nodes[w]? = s.nodes[w]? := by
  simp [LwEnv.expand, LwState.removeLeaf, List.getElem?_append_left hw]

theorem expand_new {i : Nat} {e : LEdge T} (hi : (lwEdges E s v)[i]? = some e) :
    (E.expand s v).1.nodes[s.nodes.length + i]? = some ⟨e.tgt, some (v, e), .tt⟩ := by
  simp only [LwEnv.expand, LwState.removeLeaf]
  rw [List.getElem?_append_right (by omega)]
  simp only [Nat.add_sub_cancel_left, List.getElem?_map]
  unfold lwEdges at hi
  rw [hi]; rfl

theorem expand_cases {w : Nat} (hw : w < (E.expand s v).1.nodes.length) : w < s.nodes.length ∨
    ∃ (i : Nat) (e : LEdge T), w = s.nodes.length + i ∧ (lwEdges E s v)[i]? = some e := by
  rw [expand_len] at hw
  by_cases h : w < s.nodes.length
  · exact .inl h
  · exact .inr ⟨w - s.nodes.length, _, by omega, List.getElem?_eq_getElem (by omega)⟩

theorem expand_loc {w : Nat} (hw : w < s.nodes.length) : (E.expand s v).1.loc w = s.loc w := by simp [LwState.loc, expand_old hw]
theorem expand_label {w : Nat} (hw : w < s.nodes.length) : (E.expand s v).1.label w = s.label w := by simp [LwState.label, expand_old hw]
theorem expand_parent {w : Nat} (hw : w < s.nodes.length) : (E.expand s v).1.parent w = s.parent w := by simp [LwState.parent, expand_old hw]

theorem LwState.parent_lt_len {w : Nat} {p : Nat × LEdge T} (h : s.parent w = some p) : w < s.nodes.length := by
  apply Classical.byContradiction
  intro hn
  simp [LwState.parent, List.getElem?_eq_none (by omega : s.nodes.length ≤ w)] at h

theorem expand_tree (ha : ∀ l e, e ∈ E.arrange l ↔ e ∈ l) (h : LwTree E.G s) (hv : v < s.nodes.length) : LwTree E.G (E.expand s v).1 where
  pos := by rw [expand_len]; have := h.pos; omega
  root := by rw [expand_loc h.pos, expand_parent h.pos]; exact h.root
  above w hw hl := by
    rcases expand_cases hl with hw' | ⟨i, e, rfl, hi⟩
    · rw [expand_parent hw']; exact h.above w hw hw'
    · exact ⟨v, e, by simp [LwState.parent, expand_new hi]⟩
  par w u e hp := by
    rcases expand_cases (LwState.parent_lt_len hp) with hw | ⟨i, e', rfl, hi⟩
    · rw [expand_parent hw] at hp
      obtain ⟨h1, h2, h3, h4, h5⟩ := h.par w u e hp
      rw [expand_loc hw, expand_loc (by omega), expand_len]
      exact ⟨h1, by omega, h3, h4, h5⟩
    · simp only [LwState.parent, expand_new hi, Option.bind_some, Option.some.injEq, Prod.mk.injEq] at hp
      obtain ⟨rfl, rfl⟩ := hp
      obtain ⟨h1, h2⟩ := (mem_lwEdges ha).1 (List.mem_of_getElem? hi)
      have := List.getElem?_lt hi
      refine ⟨by omega, by rw [expand_len]; omega, h1, by rw [expand_loc hv]; exact h2, ?_⟩
      simp [LwState.loc, expand_new hi]

theorem expand_children : ∀ w ∈ (E.expand s v).2, w < (E.expand s v).1.nodes.length := by
  intro w hw
  rw [expand_len]
  simp only [LwEnv.expand, List.mem_map, List.mem_range] at hw
  obtain ⟨i, hi, rfl⟩ := hw
  unfold lwEdges
  omega

theorem expand_leaf (hl : ∀ v ∈ s.leaves, v < s.nodes.length) : ∀ w ∈ (E.expand s v).1.leaves, w < (E.expand s v).1.nodes.length := by
  intro w hw
  have := (List.mem_filter.1 hw).1
  rcases List.mem_append.1 this with hw | hw
  · have := hl w hw
    rw [expand_len]; omega
  · exact expand_children w hw

theorem expand_anc {a d : Nat} (hd : d < s.nodes.length) (h : LwTree E.G s) (ha : LwAnc (E.expand s v).1 a d) : LwAnc s a d := by
  induction ha with
  | refl => exact .refl _
  | step hp _ ih =>
    rw [expand_parent hd] at hp
    exact .step hp (ih (by have := h.parent_lt hp; omega))

theorem expand_inv (hE : E.Ok) (h : LwInv E s) (hv : v < s.nodes.length) (hloc : s.loc v ≠ .fls) : LwInv E (E.expand s v).1 := by
  have ht := expand_tree hE.arrange h.tree hv
  have hnew : ∀ {w : Nat}, ¬ w < s.nodes.length → (E.expand s v).1.label w = .tt := by
    intro w hw
    by_cases hl : w < (E.expand s v).1.nodes.length
    · rcases expand_cases hl with hw' | ⟨i, e, rfl, hi⟩
      · exact absurd hw' hw
      · simp [LwState.label, expand_new hi]
    · simp [LwState.label, List.getElem?_eq_none (by omega : (E.expand s v).1.nodes.length ≤ w)]
  refine ⟨ht, ?_, ?_, ?_, ?_, ?_, expand_leaf h.leaf⟩
  · intro ρ; rw [expand_label h.tree.pos]; exact h.top ρ
  · intro w u e hp ρ hu he
    by_cases hw : w < s.nodes.length
    · rw [expand_parent hw] at hp
      have := h.tree.parent_lt hp
      rw [expand_label (by omega)] at hu
      rw [expand_label hw]
      exact h.step w u e hp ρ hu he
    · rw [hnew hw]; exact trivial
  · intro w x hx
    by_cases hw : w < s.nodes.length
    · rw [expand_label hw] at hx
      rw [expand_loc hw]
      exact h.vars w x hx
    · rw [hnew hw] at hx; simp [Fla.vars] at hx
  · intro c hc
    obtain ⟨c1, c2, c3, c4, c5⟩ := h.cov c hc
    rw [expand_len, expand_loc c1, expand_loc c2, expand_label c1, expand_label c2]
    refine ⟨by omega, by omega, c3, c4, ?_⟩
    rw [Bool.eq_false_iff, Ne, isCovered_iff ht]
    rintro ⟨a, b, hab, hm⟩
    rw [Bool.eq_false_iff, Ne, isCovered_iff h.tree] at c5
    exact c5 ⟨a, b, expand_anc c2 h.tree hab, hm⟩
  · intro w hw
    unfold LwDone
    rcases expand_cases hw with hw' | ⟨i, e, rfl, hi⟩
    · rw [expand_loc hw', expand_label hw']
      by_cases hwv : w = v
      · subst hwv
        refine .inr (.inl ⟨hloc, ?_⟩)
        intro e he hs
        obtain ⟨i, hi, hie⟩ := List.getElem_of_mem ((mem_lwEdges (s := s) (v := w) hE.arrange).2 ⟨he, hs⟩)
        have hi' : (lwEdges E s w)[i]? = some e := by rw [List.getElem?_eq_getElem hi, hie]
        exact ⟨s.nodes.length + i, by simp [LwState.parent, expand_new hi']⟩
      · rcases h.done w hw' with hd | ⟨h1, h2⟩ | hd
        · exact .inl (List.mem_filter.2 ⟨List.mem_append_left _ hd, by simpa using hwv⟩)
        · refine .inr (.inl ⟨h1, fun e he hs => ?_⟩)
          obtain ⟨x, hx⟩ := h2 e he hs
          exact ⟨x, by rw [expand_parent (LwState.parent_lt_len hx)]; exact hx⟩
        · exact .inr (.inr hd)
    · refine .inl (List.mem_filter.2 ⟨List.mem_append_right _ ?_, by simp; omega⟩)
      have := List.getElem?_lt hi
      exact List.mem_map.2 ⟨i, List.mem_range.2 (by unfold lwEdges at this; exact this), rfl⟩

end

/-! ### The tree is kept under all settings -/

theorem strengthenStep_same (S : Smt T) (c : LwState T × List Nat) (p : Nat × Fla T) :
    LwSame c.1 (lwStrengthenStep S c p).1 ∧ (lwStrengthenStep S c p).1.leaves = c.1.leaves := by
  unfold lwStrengthenStep
  split
  · exact ⟨.rfl' _, rfl⟩
  · exact ⟨(setLabel_same _ _ _).trans (cover_same _ _), rfl⟩

theorem strengthen_same (S : Smt T) : ∀ (ps : List (Nat × Fla T)) (c : LwState T × List Nat),
    LwSame c.1 (ps.foldl (lwStrengthenStep S) c).1 ∧ (ps.foldl (lwStrengthenStep S) c).1.leaves = c.1.leaves := by
  intro ps
  induction ps with
  | nil => intro c; exact ⟨.rfl' _, rfl⟩
  | cons p ps ih =>
    intro c
    obtain ⟨h1, h2⟩ := strengthenStep_same S c p
    obtain ⟨h3, h4⟩ := ih (lwStrengthenStep S c p)
    exact ⟨h1.trans h3, h4.trans h2⟩

theorem force_same (E : LwEnv T) (s : LwState T) (v : Nat) : LwSame s (E.force s v) ∧ (E.force s v).leaves = s.leaves := by
  unfold LwEnv.force
  cases hf : ((s.earlier v).take 1).findSome? fun c => E.forceOne s v c with
  | none => exact ⟨.rfl' _, rfl⟩
  | some s' =>
    obtain ⟨c, _, hc⟩ := List.exists_of_findSome?_eq_some hf
    unfold LwEnv.forceOne at hc
    split at hc
    · cases hc
    · simp only at hc
      split at hc
      · cases hc
        obtain ⟨h1, h2⟩ := strengthen_same E.S _ (s, [])
        exact ⟨h1.trans (setLabel_same _ _ _), h2⟩
      · cases hc

theorem closeLoop_same {S : Smt T} (v : Nat) : ∀ (l : List Nat) (s : LwState T) (ms : List (Valuation T)),
    LwSame s (lwCloseLoop S v l s ms) ∧ (lwCloseLoop S v l s ms).leaves = s.leaves := by
  intro l
  induction l with
  | nil => intro s ms; exact ⟨.rfl' _, rfl⟩
  | cons b l ih =>
    intro s ms
    have hc : LwSame s (s.coverHints S v b ms).1 ∧ (s.coverHints S v b ms).1.leaves = s.leaves := by
      unfold LwState.coverHints
      split
      · exact ⟨.rfl' _, rfl⟩
      · split
        · exact ⟨.rfl' _, rfl⟩
        · simp only
          split
          · exact ⟨cover_same _ _, rfl⟩
          · exact ⟨.rfl' _, rfl⟩
    rw [lwCloseLoop]
    split
    · exact ih s ms
    · simp only
      split
      · exact hc
      · obtain ⟨h1, h2⟩ := ih (s.coverHints S v b ms).1 (s.coverHints S v b ms).2.2
        exact ⟨hc.1.trans h1, h2.trans hc.2⟩

theorem fold_same {α : Type} {g : LwState T → α → LwState T} (hg : ∀ s a, LwSame s (g s a) ∧ (g s a).leaves = s.leaves) :
    ∀ (l : List α) (s : LwState T), LwSame s (l.foldl g s) ∧ (l.foldl g s).leaves = s.leaves := by
  intro l
  induction l with
  | nil => intro s; exact ⟨.rfl' _, rfl⟩
  | cons a l ih =>
    intro s
    obtain ⟨h1, h2⟩ := ih (g s a)
    exact ⟨(hg s a).1.trans h1, h2.trans (hg s a).2⟩

theorem closes_same (S : Smt T) (l : List Nat) (s : LwState T) :
    LwSame s (l.foldl (fun s w => s.close S w) s) ∧ (l.foldl (fun s w => s.close S w) s).leaves = s.leaves :=
  fold_same (fun s w => closeLoop_same w _ s []) l s

/-- The part of the invariant that holds under all settings. -/
structure LwBase (E : LwEnv T) (s : LwState T) : Prop where
  tree : LwTree E.G s
  leaf : ∀ v ∈ s.leaves, v < s.nodes.length

theorem LwBase.same {E : LwEnv T} {s s' : LwState T} (h : LwBase E s) (hs : LwSame s s') (hl : ∀ v ∈ s'.leaves, v ∈ s.leaves) :
    LwBase E s' :=
  ⟨hs.tree h.tree, fun v hv => by rw [hs.len]; exact h.leaf v (hl v hv)⟩

/-- A real error path: edges of the graph from the entry to the exit, all of whose labels hold together. -/
structure LwErrorPath (E : LwEnv T) (es : List (LEdge T)) : Prop where
  mem : ∀ e ∈ es, e ∈ E.G
  chained : Chained .tru es .fls
  sat : E.I.check (pathQuery es) = .sat

/-- What one step, or a sequence of steps, gives. -/
structure LwStepOk (E : LwEnv T) (P : LwState T → Prop) (s : LwState T) (r : Outcome (List (LEdge T) ⊕ (LwState T × List Nat))) : Prop where
  path : ∀ es, r = .done (.inl es) → LwErrorPath E es
  next : ∀ s' ch, r = .done (.inr (s', ch)) → P s' ∧ s.nodes.length ≤ s'.nodes.length ∧ ∀ w ∈ ch, w < s'.nodes.length
  total : E.I.Complete → r ≠ .thrown
  noFuel : r ≠ .outOfFuel

theorem visit_base {E : LwEnv T} (ha : ∀ l e, e ∈ E.arrange l ↔ e ∈ l) {s : LwState T} (h : LwBase E s) {v : Nat}
    (hv : v < s.nodes.length) : LwStepOk E (LwBase E) s (E.visit s v) := by
  obtain ⟨c1, c2⟩ := closeLoop_same (S := E.S) v (s.earlier v) s []
  have hb : LwBase E (s.close E.S v) := h.same c1 (by rw [show (s.close E.S v).leaves = _ from c2]; exact fun _ h => h)
  have hv' : v < (s.close E.S v).nodes.length := by rw [show (s.close E.S v).nodes.length = _ from c1.len]; exact hv
  have hlen : s.nodes.length = (s.close E.S v).nodes.length := c1.len.symm
  unfold LwEnv.visit
  simp only
  generalize s.close E.S v = s1 at hb hv' hlen
  split
  · refine ⟨by simp, ?_, by simp, by simp⟩
    intro s' ch hr
    simp only [Outcome.done.injEq, Sum.inr.injEq, Prod.mk.injEq] at hr
    obtain ⟨rfl, rfl⟩ := hr
    exact ⟨hb, by omega, by simp⟩
  · split
    · rename_i _ hloc
      have hp := path_ok hb.tree hv'
      have hch := hp.chained hb.tree
      rw [hb.tree.root.1, hloc] at hch
      unfold LwEnv.refine
      simp only
      cases hc : E.I.check (pathQuery ((s1.path v 0).map fun p => p.2.1)) with
      | sat =>
        refine ⟨?_, by simp, by simp, by simp⟩
        intro es hes
        simp only [Outcome.done.injEq, Sum.inl.injEq] at hes
        subst hes
        exact ⟨hp.mem hb.tree, hch, hc⟩
      | unsat =>
        simp only
        refine ⟨by simp, ?_, by simp, by simp⟩
        intro s' ch hr
        simp only [Outcome.done.injEq, Sum.inr.injEq, Prod.mk.injEq] at hr
        obtain ⟨rfl, rfl⟩ := hr
        obtain ⟨k1, k2⟩ := strengthen_same E.S (((s1.path v 0).map fun p => p.2.2).zip
          (lwNormalize (lwPathItps E.I (pathQuery ((s1.path v 0).map fun p => p.2.1)) (s1.path v 0).length))) (s1, [])
        obtain ⟨k3, k4⟩ := closes_same E.S (s1.strengthenPath E.S (s1.path v 0)
          (lwNormalize (lwPathItps E.I (pathQuery ((s1.path v 0).map fun p => p.2.1)) (s1.path v 0).length))).2
          ((s1.strengthenPath E.S (s1.path v 0)
          (lwNormalize (lwPathItps E.I (pathQuery ((s1.path v 0).map fun p => p.2.1)) (s1.path v 0).length))).1.removeLeaf v)
        have hs := (k1.trans (leaves_same _ _)).trans k3
        refine ⟨hb.same hs ?_, by rw [hs.len]; exact Nat.le_of_eq hlen, by simp⟩
        intro w hw
        rw [k4] at hw
        have := (List.mem_filter.1 hw).1
        exact k2 ▸ this
      | _ =>
        refine ⟨by simp, by simp, ?_, by simp⟩
        intro hI
        rcases hI (pathQuery ((s1.path v 0).map fun p => p.2.1)) with h | h <;> rw [hc] at h <;> cases h
    · refine ⟨by simp, ?_, by simp, by simp⟩
      intro s' ch hr
      simp only [Outcome.done.injEq, Sum.inr.injEq, Prod.mk.injEq] at hr
      obtain ⟨rfl, rfl⟩ := hr
      have he : LwBase E (E.expand s1 v).1 := ⟨expand_tree ha hb.tree hv', expand_leaf hb.leaf⟩
      have hel : s.nodes.length ≤ (E.expand s1 v).1.nodes.length := by rw [expand_len]; omega
      split
      · obtain ⟨f1, f2⟩ := fold_same (force_same E) (E.expand s1 v).2 (E.expand s1 v).1
        exact ⟨he.same f1 (by rw [f2]; exact fun _ h => h), by rw [f1.len]; exact hel, fun w hw => by rw [f1.len]; exact expand_children w hw⟩
      · exact ⟨he, hel, expand_children⟩

theorem LwInv.base {E : LwEnv T} {s : LwState T} (h : LwInv E s) : LwBase E s := ⟨h.tree, h.leaf⟩

theorem visit_inv {E : LwEnv T} (hE : E.Ok) (hf : E.forced = false) {s : LwState T} (h : LwInv E s) {v : Nat}
    (hv : v < s.nodes.length) : LwStepOk E (LwInv E) s (E.visit s v) := by
  have hbase := visit_base hE.arrange h.base hv
  refine ⟨hbase.path, ?_, hbase.total, hbase.noFuel⟩
  intro s' ch hr
  refine ⟨?_, (hbase.next s' ch hr).2⟩
  have hc := h.close hE hv
  have hv' : v < (s.close E.S v).nodes.length := by
    rw [show (s.close E.S v).nodes.length = _ from (close_same hE.sound.correct s v).1.len]; exact hv
  unfold LwEnv.visit at hr
  simp only at hr
  generalize s.close E.S v = s1 at hc hv' hr
  split at hr
  · simp only [Outcome.done.injEq, Sum.inr.injEq, Prod.mk.injEq] at hr
    obtain ⟨rfl, rfl⟩ := hr
    exact hc
  · split at hr
    · rename_i _ hloc
      unfold LwEnv.refine at hr
      simp only at hr
      have hp := path_ok hc.tree hv'
      cases hq : E.I.check (pathQuery ((s1.path v 0).map fun p => p.2.1)) with
      | sat => rw [hq] at hr; simp at hr
      | unsat =>
        rw [hq] at hr
        simp only [Outcome.done.injEq, Sum.inr.injEq, Prod.mk.injEq] at hr
        obtain ⟨rfl, rfl⟩ := hr
        have hne : (s1.path v 0).map (fun p => p.2.1) ≠ [] := by
          intro hnil
          rw [List.map_eq_nil_iff] at hnil
          rcases hp.last with ⟨_, h0⟩ | ⟨_, _, _, h3⟩
          · rw [← h0, hc.tree.root.1] at hloc; cases hloc
          · exact h3 hnil
        have hN := lwItps_ok hE.itp (R := E.R) (fun e he => hE.label e (hp.mem hc.tree e he)) hne hq
        rw [List.length_map] at hN
        have hstr := lwStrengthen_fold hE.sound.correct (((s1.path v 0).map fun p => p.2.2).zip
          (lwNormalize (lwPathItps E.I (pathQuery ((s1.path v 0).map fun p => p.2.1)) (s1.path v 0).length))) (s1, []) (by
            intro p hpm
            have := (List.of_mem_zip (a := p.1) (b := p.2) hpm).1
            obtain ⟨q, hq', hqe⟩ := List.mem_map.1 this
            rw [← hqe]
            exact (hc.tree.par _ _ _ (hp.edges q hq')).2.1)
        obtain ⟨i1, i2⟩ := hc.refined hv' hloc hN hstr
        exact (i1.closeAll hE i2).1
      | _ => rw [hq] at hr; cases hr
    · rename_i _ hloc
      rw [hf] at hr
      simp only [Bool.false_eq_true, if_false, Outcome.done.injEq, Sum.inr.injEq, Prod.mk.injEq] at hr
      obtain ⟨rfl, rfl⟩ := hr
      exact expand_inv hE hc hv' hloc

/-- A run from a stack of vertices. -/
theorem dfs_spec {E : LwEnv T} {P : LwState T → Prop} (hP : ∀ s v, P s → v < s.nodes.length → LwStepOk E P s (E.visit s v)) :
    ∀ (fuel : Nat) (stack : List Nat) (s : LwState T), P s → (∀ v ∈ stack, v < s.nodes.length) →
      (∀ es, E.dfs fuel stack s = .done (.inl es) → LwErrorPath E es) ∧
      (∀ s', E.dfs fuel stack s = .done (.inr s') → P s') ∧ (E.I.Complete → E.dfs fuel stack s ≠ .thrown) := by
  intro fuel
  induction fuel with
  | zero =>
    intro stack s h _
    cases stack with
    | nil =>
      simp only [LwEnv.dfs, Outcome.done.injEq, Sum.inr.injEq, ne_eq]
      exact ⟨by simp, by rintro s' rfl; exact h, by simp⟩
    | cons v stack => simp [LwEnv.dfs]
  | succ fuel ih =>
    intro stack s h hst
    cases stack with
    | nil =>
      simp only [LwEnv.dfs, Outcome.done.injEq, Sum.inr.injEq, ne_eq]
      exact ⟨by simp, by rintro s' rfl; exact h, by simp⟩
    | cons v stack =>
      have hok := hP s v h (hst v (by simp))
      rw [LwEnv.dfs]
      cases hvis : E.visit s v with
      | thrown => simp only [ne_eq, not_true]; exact ⟨by simp, by simp, fun hc => absurd hvis (hok.total hc)⟩
      | outOfFuel => exact absurd hvis hok.noFuel
      | done r =>
        cases r with
        | inl es =>
          simp only
          exact ⟨by rintro es' he; cases he; exact hok.path es hvis, by simp, by simp⟩
        | inr p =>
          obtain ⟨s', ch⟩ := p
          simp only
          obtain ⟨k1, k2, k3⟩ := hok.next s' ch hvis
          refine ih (ch ++ stack) s' k1 ?_
          intro w hw
          rcases List.mem_append.1 hw with hw | hw
          · exact k3 w hw
          · have := hst w (by simp [hw]); omega

end Golem
