import Verif.Model.Engines.Lawi
import Verif.Lemmas.TransitionSystem
import Verif.Lemmas.Smt
import Verif.Props.ErrorPath
import Verif.Lemmas.TPANetLoop

/-!
The abstract reachability tree of LAWI: ancestors, descendants, paths.
-/

namespace Golem
variable {T : Theory}

/-- The tree: the root is the entry; every other vertex hangs below an earlier one, along an edge of the graph. -/
structure LwTree (G : LGraph T) (s : LwState T) : Prop where
  pos : 0 < s.nodes.length
  root : s.loc 0 = .tru ∧ s.parent 0 = none
  above : ∀ v, 0 < v → v < s.nodes.length → ∃ u e, s.parent v = some (u, e)
  par : ∀ v u e, s.parent v = some (u, e) → u < v ∧ v < s.nodes.length ∧ e ∈ G ∧ e.src = s.loc u ∧ e.tgt = s.loc v

/-- `a` is `d` or an ancestor of it. -/
inductive LwAnc (s : LwState T) : Nat → Nat → Prop where
  | refl (a : Nat) : LwAnc s a a
  | step {a u d : Nat} {e : LEdge T} (hp : s.parent d = some (u, e)) (h : LwAnc s a u) : LwAnc s a d

/-- The tree path from `a` down to `v`. -/
inductive LwPath (s : LwState T) : Nat → List (Nat × LEdge T × Nat) → Nat → Prop where
  | nil (a : Nat) : LwPath s a [] a
  | snoc {a u v : Nat} {e : LEdge T} {l : List (Nat × LEdge T × Nat)} (h : LwPath s a l u) (hp : s.parent v = some (u, e)) :
      LwPath s a (l ++ [(u, e, v)]) v

section
variable {G : LGraph T} {s : LwState T}

theorem LwTree.parent_lt (h : LwTree G s) {v u : Nat} {e : LEdge T} (hp : s.parent v = some (u, e)) : u < v := (h.par v u e hp).1

theorem LwAnc.le (h : LwTree G s) {a d : Nat} (hd : LwAnc s a d) : a ≤ d := by
  induction hd with
  | refl => exact Nat.le_refl _
  | step hp _ ih => have := h.parent_lt hp; omega

theorem LwAnc.cases' {a d : Nat} (h : LwAnc s a d) : a = d ∨ ∃ u e, s.parent d = some (u, e) ∧ LwAnc s a u := by
  cases h with
  | refl => exact .inl rfl
  | step hp h => exact .inr ⟨_, _, hp, h⟩

theorem LwAnc.congr {s' : LwState T} (hp : s'.parent = s.parent) {a d : Nat} (h : LwAnc s a d) : LwAnc s' a d := by
  induction h with
  | refl => exact .refl _
  | step h _ ih => exact .step (by rw [hp]; exact h) ih

theorem LwTree.anc_root (h : LwTree G s) : ∀ n v, v ≤ n → v < s.nodes.length → LwAnc s 0 v := by
  intro n
  induction n with
  | zero => intro v hv _; obtain rfl : v = 0 := by omega
            exact .refl _
  | succ n ih =>
    intro v hv hl
    by_cases h0 : v = 0
    · subst h0; exact .refl _
    · obtain ⟨u, e, hp⟩ := h.above v (by omega) hl
      have := h.parent_lt hp
      exact .step hp (ih u (by omega) (by omega))

theorem mem_up (h : LwTree G s) : ∀ fuel v, v < fuel → ∀ a, a ∈ (s.up 0 fuel v).map (fun p => p.1) ↔ a ≠ v ∧ LwAnc s a v := by
  intro fuel
  induction fuel with
  | zero => intro v hv; omega
  | succ fuel ih =>
    intro v hv a
    unfold LwState.up
    by_cases h0 : v = 0
    · subst h0
      simp only [if_true, List.map_nil, List.not_mem_nil, false_iff, not_and]
      intro hne ha
      rcases ha.cases' with rfl | ⟨u, e, hp, _⟩
      · exact hne rfl
      · rw [h.root.2] at hp; cases hp
    · rw [if_neg h0]
      cases hp : s.parent v with
      | none =>
        simp only [List.map_nil, List.not_mem_nil, false_iff, not_and]
        intro hne ha
        rcases ha.cases' with rfl | ⟨u, e, hp', _⟩
        · exact hne rfl
        · rw [hp] at hp'; cases hp'
      | some ue =>
        obtain ⟨u, e⟩ := ue
        have hu := h.parent_lt hp
        simp only [List.map_cons, List.mem_cons, ih u (by omega) a]
        constructor
        · rintro (rfl | ⟨_, ha⟩)
          · exact ⟨by omega, .step hp (.refl _)⟩
          · have := ha.le h
            exact ⟨by omega, .step hp ha⟩
        · rintro ⟨hne, ha⟩
          rcases ha.cases' with rfl | ⟨u', e', hp', ha⟩
          · exact absurd rfl hne
          · rw [hp] at hp'; cases hp'
            by_cases hau : a = u
            · exact .inl hau
            · exact .inr ⟨hau, ha⟩

theorem mem_ancestors (h : LwTree G s) {a v : Nat} : a ∈ s.ancestors v ↔ a ≠ v ∧ LwAnc s a v := by
  unfold LwState.ancestors LwState.path
  rw [List.map_reverse, List.mem_reverse]
  exact mem_up h (v + 1) v (by omega) a

theorem mem_ancestorsIncl (h : LwTree G s) {a v : Nat} : a ∈ s.ancestorsIncl v ↔ LwAnc s a v := by
  unfold LwState.ancestorsIncl
  rw [List.mem_cons, mem_ancestors h]
  constructor
  · rintro (rfl | h)
    · exact .refl _
    · exact h.2
  · intro ha
    by_cases hav : a = v
    · exact .inl hav
    · exact .inr ⟨hav, ha⟩

theorem isCovered_iff (h : LwTree G s) {v : Nat} : s.isCovered v = true ↔ ∃ a b, LwAnc s a v ∧ (a, b) ∈ s.cover := by
  unfold LwState.isCovered
  simp only [List.any_eq_true, mem_ancestorsIncl h, beq_iff_eq, Prod.exists]
  constructor
  · rintro ⟨a, ha, x, b, hm, rfl⟩; exact ⟨x, b, ha, hm⟩
  · rintro ⟨a, b, ha, hm⟩; exact ⟨a, ha, a, b, hm, rfl⟩

theorem isAncestorLoop_iff (h : LwTree G s) (a : Nat) : ∀ fuel v, v < fuel → (s.isAncestorLoop a fuel v = true ↔ LwAnc s a v) := by
  intro fuel
  induction fuel with
  | zero => intro v hv; omega
  | succ fuel ih =>
    intro v hv
    unfold LwState.isAncestorLoop
    by_cases ha : v = a
    · subst ha; simp only [if_true, true_iff]; exact .refl _
    · rw [if_neg ha]
      have hno : s.parent v = none → ¬ LwAnc s a v := by
        intro hp hh
        rcases hh.cases' with rfl | ⟨u, e, hp', _⟩
        · exact ha rfl
        · rw [hp] at hp'; cases hp'
      by_cases h0 : v = 0
      · subst h0; simpa using hno h.root.2
      · rw [if_neg h0]
        cases hp : s.parent v with
        | none => simpa using hno hp
        | some ue =>
          obtain ⟨u, e⟩ := ue
          have hu := h.parent_lt hp
          simp only [ih u (by omega)]
          constructor
          · intro hh; exact .step hp hh
          · intro hh
            rcases hh.cases' with rfl | ⟨u', e', hp', hh⟩
            · exact absurd rfl ha
            · rw [hp] at hp'; cases hp'; exact hh

theorem isAncestor_iff (h : LwTree G s) {a v : Nat} : s.isAncestor a v = true ↔ LwAnc s a v :=
  isAncestorLoop_iff h a (v + 1) v (by omega)

/-! ### Descendants -/

theorem descLoop_mono (s : LwState T) : ∀ fuel v w, w ∈ s.descLoop fuel v → w ∈ s.descLoop (fuel + 1) v := by
  intro fuel
  induction fuel with
  | zero => intro v w hw; simp only [LwState.descLoop, List.mem_singleton] at hw; subst hw; simp [LwState.descLoop]
  | succ fuel ih =>
    intro v w hw
    rw [LwState.descLoop, List.mem_cons, List.mem_flatMap] at hw ⊢
    rcases hw with rfl | ⟨c, hc, hw⟩
    · exact .inl rfl
    · exact .inr ⟨c, hc, ih c w hw⟩

theorem descLoop_mono_le (s : LwState T) {v w : Nat} : ∀ {i j : Nat}, i ≤ j → w ∈ s.descLoop i v → w ∈ s.descLoop j v := by
  intro i j hij
  induction hij with
  | refl => exact id
  | step _ ih => exact fun h => descLoop_mono s _ v w (ih h)

theorem descLoop_child (h : LwTree G s) {x w : Nat} {e : LEdge T} (hp : s.parent x = some (w, e)) :
    ∀ fuel v, w ∈ s.descLoop fuel v → x ∈ s.descLoop (fuel + 1) v := by
  have hx : x ∈ s.children w := by
    unfold LwState.children
    simp only [List.mem_filter, List.mem_range, hp, Option.map_some, decide_true, and_true]
    exact (h.par _ _ _ hp).2.1
  intro fuel
  induction fuel with
  | zero =>
    intro v hw
    simp only [LwState.descLoop, List.mem_singleton] at hw
    subst hw
    rw [LwState.descLoop, List.mem_cons, List.mem_flatMap]
    exact .inr ⟨x, hx, by simp [LwState.descLoop]⟩
  | succ fuel ih =>
    intro v hw
    rw [LwState.descLoop, List.mem_cons, List.mem_flatMap] at hw
    rw [LwState.descLoop, List.mem_cons, List.mem_flatMap]
    rcases hw with rfl | ⟨c, hc, hw⟩
    · refine .inr ⟨x, hx, ?_⟩
      cases fuel <;> simp [LwState.descLoop]
    · exact .inr ⟨c, hc, ih c hw⟩

theorem mem_descLoop_of_anc (h : LwTree G s) {v w : Nat} (ha : LwAnc s v w) : w ∈ s.descLoop (w - v) v := by
  induction ha with
  | refl => simp [LwState.descLoop]
  | @step u d e hp ha ih =>
    have h1 := h.parent_lt hp
    have h2 := ha.le h
    exact descLoop_mono_le s (by omega : u - v + 1 ≤ d - v) (descLoop_child h hp _ _ ih)

theorem mem_descendants (h : LwTree G s) {v w : Nat} (ha : LwAnc s v w) (hw : w < s.nodes.length) : w ∈ s.descendants v :=
  descLoop_mono_le s (by omega : w - v ≤ s.nodes.length) (mem_descLoop_of_anc h ha)

theorem anc_of_mem_descLoop (s : LwState T) : ∀ fuel v w, w ∈ s.descLoop fuel v → LwAnc s v w := by
  have htr : ∀ {a b c : Nat}, LwAnc s a b → LwAnc s b c → LwAnc s a c := by
    intro a b c h1 h2
    induction h2 with
    | refl => exact h1
    | step hp _ ih => exact .step hp ih
  intro fuel
  induction fuel with
  | zero => intro v w hw; simp only [LwState.descLoop, List.mem_singleton] at hw; subst hw; exact .refl _
  | succ fuel ih =>
    intro v w hw
    rw [LwState.descLoop, List.mem_cons, List.mem_flatMap] at hw
    rcases hw with rfl | ⟨c, hc, hw⟩
    · exact .refl _
    · unfold LwState.children at hc
      simp only [List.mem_filter, decide_eq_true_eq, Option.map_eq_some_iff, Prod.exists] at hc
      obtain ⟨_, a, e, hp, rfl⟩ := hc
      exact htr (.step hp (.refl _)) (ih c w hw)

/-! ### Paths -/

theorem up_path (h : LwTree G s) : ∀ fuel v, v < fuel → v < s.nodes.length → LwPath s 0 (s.up 0 fuel v).reverse v := by
  intro fuel
  induction fuel with
  | zero => intro v hv; omega
  | succ fuel ih =>
    intro v hv hl
    unfold LwState.up
    by_cases h0 : v = 0
    · subst h0; simp only [if_true, List.reverse_nil]; exact .nil _
    · rw [if_neg h0]
      obtain ⟨u, e, hp⟩ := h.above v (by omega) hl
      have := h.parent_lt hp
      rw [hp]
      simp only [List.reverse_cons]
      exact .snoc (ih u (by omega) (by omega)) hp

theorem path_ok (h : LwTree G s) {v : Nat} (hv : v < s.nodes.length) : LwPath s 0 (s.path v 0) v := up_path h (v + 1) v (by omega) hv

theorem LwPath.edges {a v : Nat} {l : List (Nat × LEdge T × Nat)} (hp : LwPath s a l v) :
    ∀ p ∈ l, s.parent p.2.2 = some (p.1, p.2.1) := by
  induction hp with
  | nil => intro p hp; cases hp
  | snoc _ hp ih =>
    intro p hm
    rcases List.mem_append.1 hm with hm | hm
    · exact ih p hm
    · rw [List.mem_singleton.1 hm]; exact hp

theorem LwPath.last {a v : Nat} {l : List (Nat × LEdge T × Nat)} (hp : LwPath s a l v) :
    (l = [] ∧ a = v) ∨ ∃ p, l[l.length - 1]? = some p ∧ p.2.2 = v ∧ l ≠ [] := by
  cases hp with
  | nil => exact .inl ⟨rfl, rfl⟩
  | @snoc u _ e l _ _ => exact .inr ⟨(u, e, v), by simp, rfl, by simp⟩

/-- The source of each edge is the start of the path or the target of the edge before. -/
theorem LwPath.link {a v : Nat} {l : List (Nat × LEdge T × Nat)} (hp : LwPath s a l v) {i : Nat} {p : Nat × LEdge T × Nat}
    (hi : l[i]? = some p) : (i = 0 ∧ p.1 = a) ∨ ∃ q, 0 < i ∧ l[i - 1]? = some q ∧ q.2.2 = p.1 := by
  induction hp generalizing i p with
  | nil => simp at hi
  | @snoc u v e l h hp ih =>
    by_cases hlt : i < l.length
    · rw [List.getElem?_append_left hlt] at hi
      rcases ih hi with h1 | ⟨q, h1, h2, h3⟩
      · exact .inl h1
      · exact .inr ⟨q, h1, by rw [List.getElem?_append_left (by omega)]; exact h2, h3⟩
    · have hlen := List.getElem?_lt hi
      simp only [List.length_append, List.length_cons, List.length_nil] at hlen
      obtain rfl : i = l.length := by omega
      simp at hi
      subst hi
      rcases h.last with ⟨rfl, rfl⟩ | ⟨q, h1, h2, h3⟩
      · exact .inl ⟨rfl, rfl⟩
      · have : 0 < l.length := List.length_pos_of_ne_nil h3
        exact .inr ⟨q, this, by rw [List.getElem?_append_left (by omega)]; exact h1, h2⟩

theorem LwPath.chained (h : LwTree G s) {a v : Nat} {l : List (Nat × LEdge T × Nat)} (hp : LwPath s a l v) :
    Chained (s.loc a) (l.map fun p => p.2.1) (s.loc v) := by
  induction hp with
  | nil => exact .nil _
  | snoc _ hp ih =>
    obtain ⟨_, _, _, h1, h2⟩ := h.par _ _ _ hp
    rw [List.map_append]
    refine ih.append' ?_
    simp only [List.map_cons, List.map_nil]
    rw [← h1, ← h2]
    exact .cons (.nil _)

theorem LwPath.mem (h : LwTree G s) {a v : Nat} {l : List (Nat × LEdge T × Nat)} (hp : LwPath s a l v) :
    ∀ e ∈ l.map (fun p => p.2.1), e ∈ G := by
  intro e he
  obtain ⟨p, hm, rfl⟩ := List.mem_map.1 he
  exact (h.par _ _ _ (hp.edges p hm)).2.2.1

end

/-! ### States of the same shape -/

/-- Same tree: only labels, covering and leaves may differ. -/
structure LwSame (s s' : LwState T) : Prop where
  len : s'.nodes.length = s.nodes.length
  loc : s'.loc = s.loc
  parent : s'.parent = s.parent

theorem LwSame.rfl' (s : LwState T) : LwSame s s := ⟨rfl, rfl, rfl⟩

theorem LwSame.trans {s s' s'' : LwState T} (h1 : LwSame s s') (h2 : LwSame s' s'') : LwSame s s'' :=
  ⟨h2.len.trans h1.len, h2.loc.trans h1.loc, h2.parent.trans h1.parent⟩

theorem LwSame.tree {G : LGraph T} {s s' : LwState T} (h : LwSame s s') (ht : LwTree G s) : LwTree G s' where
  pos := by rw [h.len]; exact ht.pos
  root := by rw [h.loc, h.parent]; exact ht.root
  above v := by rw [h.len, h.parent]; exact ht.above v
  par v u e := by rw [h.len, h.parent, h.loc]; exact ht.par v u e

theorem LwSame.anc {s s' : LwState T} (h : LwSame s s') {a d : Nat} : LwAnc s' a d ↔ LwAnc s a d :=
  ⟨fun k => k.congr h.parent.symm, fun k => k.congr h.parent⟩

theorem setLabel_same (s : LwState T) (v : Nat) (f : Fla T) : LwSame s (s.setLabel v f) := by
  refine ⟨by simp [LwState.setLabel], ?_, ?_⟩
  · funext w
    simp only [LwState.loc, LwState.setLabel, List.getElem?_modify]
    cases s.nodes[w]? <;> simp
    split <;> rfl
  · funext w
    simp only [LwState.parent, LwState.setLabel, List.getElem?_modify]
    cases s.nodes[w]? <;> simp
    split <;> rfl

theorem setLabel_label (s : LwState T) {v : Nat} (hv : v < s.nodes.length) (f : Fla T) (w : Nat) :
    (s.setLabel v f).label w = if w = v then f else s.label w := by
  simp only [LwState.label, LwState.setLabel, List.getElem?_modify]
  by_cases h : w = v
  · subst h
    rw [List.getElem?_eq_getElem hv]
    simp
  · rw [if_neg h]
    cases s.nodes[w]? <;> simp
    rw [if_neg (fun k => h k.symm)]

theorem cover_same (s : LwState T) (c : List (Nat × Nat)) : LwSame s { s with cover := c } := ⟨rfl, rfl, rfl⟩
theorem leaves_same (s : LwState T) (l : List Nat) : LwSame s { s with leaves := l } := ⟨rfl, rfl, rfl⟩

end Golem
