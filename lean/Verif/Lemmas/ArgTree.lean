import Verif.Lemmas.ArgTuples
import Verif.Lemmas.Contract
import Verif.Lemmas.Witness
import Verif.Lemmas.Normalizer

/-! Interpolation trees: shape, numbers of instances, and labels. -/

namespace Golem
variable {T : Theory}

/-- The symbol of the fact derived at a node. -/
def tgtAt (tree : List (PaTree T)) (n : Nat) : Pred := ((tree[n]?).map fun t => t.clause.tgt).getD .tru

/-- The graph after the clean-up, as far as single clauses are concerned. -/
structure PaGraph (R : PRepr) (G : Graph T) : Prop where
  wf : R.WF
  fresh : ∀ k, R.AuxName (.paux k)
  srcNe : ∀ e ∈ G, e.src ≠ []
  tru : ∀ e ∈ G, .tru ∈ e.src → e.src = [.tru]
  ends : ∀ e ∈ G, e.tgt ≠ .tru ∧ .fls ∉ e.src
  label : ∀ e ∈ G, ∀ x ∈ e.fla.vars, x ∈ R.own e.src e.tgt ∨ ∃ k, x = .base (.paux k)
  ids : ∀ e ∈ G, ∀ e' ∈ G, e.id = e'.id → e = e'

/-- The shape of interpolation trees. -/
structure PaTreeOk (G : Graph T) (tree : List (PaTree T)) : Prop where
  root : ∃ e, tree[0]? = some ⟨none, e, none⟩ ∧ e.tgt = .fls
  node : ∀ (n : Nat) (t : PaTree T), 0 < n → tree[n]? = some t → t.clause.tgt ≠ .fls ∧ ∃ p, t.parent = some p ∧ p < n
  clause : ∀ (n : Nat) (t : PaTree T), tree[n]? = some t → t.clause ∈ G
  kids : ∀ (n : Nat) (t : PaTree T), tree[n]? = some t →
    (t.clause.src = [.tru] ∧ paChildren tree n = []) ∨
    (.tru ∉ t.clause.src ∧ (paChildren tree n).map (tgtAt tree) = t.clause.src)

theorem mem_paChildren {tree : List (PaTree T)} {n c : Nat} : c ∈ paChildren tree n ↔ ∃ t, tree[c]? = some t ∧ t.parent = some n := by
  simp only [paChildren, List.mem_filter, List.mem_range, decide_eq_true_eq, Option.bind_eq_some_iff]
  constructor
  · exact fun h => h.2
  · rintro ⟨t, h1, h2⟩
    exact ⟨List.getElem?_lt h1, t, h1, h2⟩

theorem paChildren_nodup (tree : List (PaTree T)) (n : Nat) : (paChildren tree n).Nodup :=
  List.Nodup.sublist List.filter_sublist List.nodup_range

theorem tgtAt_eq {tree : List (PaTree T)} {n : Nat} {t : PaTree T} (h : tree[n]? = some t) : tgtAt tree n = t.clause.tgt := by
  simp [tgtAt, h]

section tree
variable {G : Graph T} {tree : List (PaTree T)}

theorem PaTreeOk.pos (h : PaTreeOk G tree) : 0 < tree.length := by
  obtain ⟨e, h1, _⟩ := h.root
  exact List.getElem?_lt h1

theorem PaTreeOk.child_gt (h : PaTreeOk G tree) {n c : Nat} (hc : c ∈ paChildren tree n) : n < c := by
  obtain ⟨t, h1, h2⟩ := mem_paChildren.1 hc
  rcases Nat.eq_zero_or_pos c with rfl | hpos
  · obtain ⟨e, h3, _⟩ := h.root
    rw [h3] at h1; cases h1; cases h2
  · obtain ⟨_, p, h3, h4⟩ := h.node c t hpos h1
    rw [h2] at h3; cases h3; exact h4

theorem PaTreeOk.parent_none (h : PaTreeOk G tree) {n : Nat} {t : PaTree T} (ht : tree[n]? = some t) : t.parent = none ↔ n = 0 := by
  constructor
  · intro hp
    rcases Nat.eq_zero_or_pos n with h0 | hpos
    · exact h0
    · obtain ⟨_, p, h3, _⟩ := h.node n t hpos ht
      rw [hp] at h3; cases h3
  · rintro rfl
    obtain ⟨e, h3, _⟩ := h.root
    rw [h3] at ht; cases ht; rfl

theorem PaTreeOk.tgt_fls (h : PaTreeOk G tree) {n : Nat} {t : PaTree T} (ht : tree[n]? = some t) : t.clause.tgt = .fls ↔ n = 0 := by
  constructor
  · intro hp
    rcases Nat.eq_zero_or_pos n with h0 | hpos
    · exact h0
    · exact absurd hp (h.node n t hpos ht).1
  · rintro rfl
    obtain ⟨e, h3, h4⟩ := h.root
    rw [h3] at ht; cases ht; exact h4

/-- The clause of a node and its children: position by position. -/
theorem PaTreeOk.kid (h : PaTreeOk G tree) {n : Nat} {t : PaTree T} (ht : tree[n]? = some t) (htru : .tru ∉ t.clause.src) :
    (paChildren tree n).length = t.clause.src.length ∧ (paChildren tree n).map (tgtAt tree) = t.clause.src := by
  rcases h.kids n t ht with ⟨h1, _⟩ | ⟨_, h2⟩
  · rw [h1] at htru; simp at htru
  · refine ⟨?_, h2⟩
    rw [← h2, List.length_map]

/-! ### Numbers of instances -/

/-- The numbers given so far are below the counters, and instances of one symbol have different numbers. -/
structure VersInv (tree : List (PaTree T)) (c : (Pred → Nat) × List (Nat × Nat)) : Prop where
  lt : ∀ p ∈ c.2, p.2 < c.1 (tgtAt tree p.1)
  inj : ∀ p ∈ c.2, ∀ p' ∈ c.2, p.2 = p'.2 → tgtAt tree p.1 = tgtAt tree p'.1 → p.1 = p'.1
  keys : (c.2.map Prod.fst).Nodup

theorem paAssign_inv : ∀ (l : List Nat) (c : (Pred → Nat) × List (Nat × Nat)), VersInv tree c → l.Nodup → (∀ x ∈ l, x ∉ c.2.map Prod.fst) →
    VersInv tree (paAssign (l.map fun x => (x, tgtAt tree x)) c) ∧
    (paAssign (l.map fun x => (x, tgtAt tree x)) c).2.map Prod.fst = c.2.map Prod.fst ++ l := by
  intro l
  induction l with
  | nil => intro c h _ _; exact ⟨h, by simp [paAssign]⟩
  | cons a l ih =>
    rintro ⟨cnt, vers⟩ h hn hd
    rw [List.nodup_cons] at hn
    simp only [List.map_cons, paAssign]
    have hnew : VersInv tree (fun q => if q = tgtAt tree a then cnt (tgtAt tree a) + 1 else cnt q, vers ++ [(a, cnt (tgtAt tree a))]) := by
      refine ⟨?_, ?_, ?_⟩
      · intro p hp
        simp only [List.mem_append, List.mem_singleton] at hp
        rcases hp with hp | rfl
        · have := h.lt p hp
          simp only at this ⊢
          split
          · rename_i e; rw [e] at this; omega
          · exact this
        · simp
      · intro p hp p' hp' e1 e2
        simp only [List.mem_append, List.mem_singleton] at hp hp'
        rcases hp with hp | rfl <;> rcases hp' with hp' | rfl
        · exact h.inj p hp p' hp' e1 e2
        · have := h.lt p hp
          simp only at this e1 e2
          rw [e2] at this; omega
        · have := h.lt p' hp'
          simp only at this e1 e2
          rw [← e2] at this; omega
        · rfl
      · rw [List.map_append, List.nodup_append]
        refine ⟨h.keys, by simp, ?_⟩
        intro x hx y hy e
        simp only [List.map_cons, List.map_nil, List.mem_singleton] at hy
        subst hy; subst e
        exact hd x (by simp) hx
    obtain ⟨h1, h2⟩ := ih _ hnew hn.2 (by
      intro x hx
      simp only [List.map_append, List.map_cons, List.map_nil, List.mem_append, List.mem_singleton, not_or]
      refine ⟨hd x (by simp [hx]), ?_⟩
      rintro rfl; exact hn.1 hx)
    refine ⟨h1, ?_⟩
    rw [h2]; simp

theorem PaTreeOk.zip_src (h : PaTreeOk G tree) {n : Nat} {t : PaTree T} (ht : tree[n]? = some t) :
    (paChildren tree n).zip t.clause.src = (paChildren tree n).map fun x => (x, tgtAt tree x) := by
  rcases h.kids n t ht with ⟨_, h2⟩ | ⟨_, h2⟩
  · rw [h2]; rfl
  · rw [← h2]
    induction paChildren tree n with
    | nil => rfl
    | cons a l ih => simp [ih]

theorem nodup_length_le : ∀ (n : Nat) (l : List Nat), l.Nodup → (∀ x ∈ l, x < n) → l.length ≤ n := by
  intro n
  induction n with
  | zero => intro l _ h; cases l with
    | nil => simp
    | cons a l => exact absurd (h a (by simp)) (by omega)
  | succ n ih =>
    intro l hn h
    have h1 := ih (l.erase n) (hn.erase n) (by
      intro x hx
      have h2 := (hn.mem_erase_iff).1 hx
      have := h x h2.2
      have := h2.1
      omega)
    have h2 : l.length ≤ (l.erase n).length + 1 := by
      rw [List.length_erase]; split <;> omega
    omega

/-- The loop visits every node. -/
theorem paVersLoop_spec (h : PaTreeOk G tree) : ∀ (fuel : Nat) (stack V : List Nat) (c : (Pred → Nat) × List (Nat × Nat)),
    VersInv tree c → (stack ++ V).Nodup → (∀ n ∈ stack ++ V, n < tree.length) → 0 ∈ stack ++ V →
    (∀ n, n ∈ c.2.map Prod.fst ↔ ∃ p ∈ V, n ∈ paChildren tree p) → (∀ p ∈ V, ∀ n ∈ paChildren tree p, n ∈ stack ++ V) →
    (∀ n ∈ stack ++ V, n = 0 ∨ ∃ p ∈ V, n ∈ paChildren tree p) → tree.length < fuel + V.length →
    ∃ cnt, VersInv tree (cnt, paVersLoop tree fuel stack c) ∧
      ∀ n, 0 < n → n < tree.length → n ∈ (paVersLoop tree fuel stack c).map Prod.fst := by
  intro fuel
  induction fuel with
  | zero =>
    intro stack V c hi hn hlt h0 hk hc hp hf
    have hV : V.Nodup := (List.nodup_append.1 hn).2.1
    have := nodup_length_le tree.length V hV fun x hx => hlt x (by simp [hx])
    omega
  | succ fuel ih =>
    intro stack V c hi hn hlt h0 hk hc hp hf
    cases stack with
    | nil =>
      rw [paVersLoop]
      refine ⟨c.1, hi, fun n h1 h2 => ?_⟩
      have all : ∀ n, n < tree.length → n ∈ V := by
        intro n
        induction n using Nat.strongRecOn with
        | ind n ihn =>
          intro hn'
          rcases Nat.eq_zero_or_pos n with rfl | hpos
          · simpa using h0
          · obtain ⟨t, ht⟩ : ∃ t, tree[n]? = some t := ⟨tree[n], by simp [hn']⟩
            obtain ⟨_, p, hp1, hp2⟩ := h.node n t hpos ht
            have := hc p (ihn p hp2 (by omega)) n (mem_paChildren.2 ⟨t, ht, hp1⟩)
            simpa using this
      obtain ⟨t, ht⟩ : ∃ t, tree[n]? = some t := ⟨tree[n], by simp [h2]⟩
      obtain ⟨_, p, hp1, hp2⟩ := h.node n t h1 ht
      exact (hk n).2 ⟨p, all p (by omega), mem_paChildren.2 ⟨t, ht, hp1⟩⟩
    | cons cur stack =>
      rw [paVersLoop]
      have hcur : cur < tree.length := hlt cur (by simp)
      obtain ⟨t, ht⟩ : ∃ t, tree[cur]? = some t := ⟨tree[cur], by simp [hcur]⟩
      have hcV : cur ∉ V := by
        intro hv
        rw [List.cons_append, List.nodup_cons] at hn
        exact hn.1 (by simp [hv])
      have hnew : ∀ x ∈ paChildren tree cur, x ∉ cur :: stack ++ V := by
        intro x hx hm
        rcases hp x hm with rfl | ⟨p, hpV, hpx⟩
        · have := h.child_gt hx; omega
        · obtain ⟨t1, a1, a2⟩ := mem_paChildren.1 hx
          obtain ⟨t2, b1, b2⟩ := mem_paChildren.1 hpx
          rw [a1] at b1; cases b1
          rw [a2] at b2; cases b2
          exact hcV hpV
      have hz : (paChildren tree cur).zip (((tree[cur]?).map fun t => t.clause.src).getD []) = (paChildren tree cur).map fun x => (x, tgtAt tree x) := by
        rw [ht]; exact h.zip_src ht
      rw [hz]
      obtain ⟨a1, a2⟩ := paAssign_inv (tree := tree) (paChildren tree cur) c hi (paChildren_nodup _ _) (by
        intro x hx hm
        obtain ⟨p, hpV, hpx⟩ := (hk x).1 hm
        exact hnew x hx (hc p hpV x hpx))
      refine ih _ (cur :: V) _ a1 ?_ ?_ ?_ ?_ ?_ ?_ (by simp; omega)
      · have hn1 : (cur :: stack ++ V).Nodup := hn
        have hn2 : (paChildren tree cur).reverse.Nodup :=
          ((List.reverse_perm _).nodup_iff).2 (paChildren_nodup tree cur)
        have hperm : ((paChildren tree cur).reverse ++ stack ++ cur :: V).Perm ((paChildren tree cur).reverse ++ (cur :: stack ++ V)) := by
          rw [List.append_assoc]
          refine List.Perm.append_left _ ?_
          rw [List.cons_append]
          exact List.perm_middle
        rw [hperm.nodup_iff, List.nodup_append]
        refine ⟨hn2, hn1, fun x hx y hy e => ?_⟩
        subst e
        exact hnew x (List.mem_reverse.1 hx) hy
      · intro n hn'
        simp only [List.mem_append, List.mem_reverse, List.mem_cons] at hn'
        rcases hn' with (h1 | h1) | rfl | h1
        · obtain ⟨t', h2, _⟩ := mem_paChildren.1 h1
          exact List.getElem?_lt h2
        · exact hlt n (by simp [h1])
        · exact hcur
        · exact hlt n (by simp [h1])
      · simp only [List.mem_append, List.mem_cons, List.mem_reverse] at h0 ⊢
        rcases h0 with (h1 | h1) | h1 <;> simp [h1]
      · intro n
        rw [a2, List.mem_append, hk n]
        simp only [List.mem_cons, exists_eq_or_imp]
        exact or_comm
      · intro p hpm n hn'
        rcases List.mem_cons.1 hpm with rfl | hpm
        · simp [hn']
        · have := hc p hpm n hn'
          simp only [List.mem_append, List.mem_cons, List.mem_reverse] at this ⊢
          rcases this with (h1 | h1) | h1 <;> simp [h1]
      · intro n hn'
        simp only [List.mem_append, List.mem_reverse, List.mem_cons] at hn'
        rcases hn' with (h1 | h1) | rfl | h1
        · exact .inr ⟨cur, by simp, h1⟩
        · rcases hp n (by simp [h1]) with h2 | ⟨p, h2, h3⟩
          · exact .inl h2
          · exact .inr ⟨p, by simp [h2], h3⟩
        · rcases hp n (by simp) with h2 | ⟨p, h2, h3⟩
          · exact .inl h2
          · exact .inr ⟨p, by simp [h2], h3⟩
        · rcases hp n (by simp [h1]) with h2 | ⟨p, h2, h3⟩
          · exact .inl h2
          · exact .inr ⟨p, by simp [h2], h3⟩

theorem lookup_of_nodup {α β : Type} [DecidableEq α] : ∀ {l : List (α × β)}, (l.map Prod.fst).Nodup → ∀ {a : α} {b : β}, (a, b) ∈ l →
    List.lookup a l = some b := by
  intro l
  induction l with
  | nil => intro _ a b h; simp at h
  | cons x l ih =>
    intro hn a b h
    obtain ⟨y, z⟩ := x
    simp only [List.map_cons, List.nodup_cons] at hn
    rcases List.mem_cons.1 h with e | h
    · cases e; simp
    · have : a ≠ y := by
        intro e
        exact hn.1 (List.mem_map.2 ⟨(a, b), ‹(a, b) ∈ l›, e⟩)
      rw [List.lookup_cons]
      have hb : (a == y) = false := by simpa using this
      rw [hb]
      exact ih hn.2 h

/-- Different nodes with the same symbol are different instances. -/
theorem PaTreeOk.version_inj (h : PaTreeOk G tree) {n m : Nat} (hn : 0 < n) (hm : 0 < m) (hn' : n < tree.length) (hm' : m < tree.length)
    (hs : tgtAt tree n = tgtAt tree m) (hv : paVersion (paVersions tree) n = paVersion (paVersions tree) m) : n = m := by
  obtain ⟨cnt, hi, hall⟩ := paVersLoop_spec h (tree.length + 1) [0] [] (fun _ => 0, []) ⟨by simp, by simp, by simp⟩ (by simp)
    (by simpa using h.pos) (by simp) (by simp) (by simp) (by simp) (by simp)
  obtain ⟨⟨n', k⟩, h1, e1⟩ := List.mem_map.1 (hall n hn hn')
  obtain ⟨⟨m', k'⟩, h2, e2⟩ := List.mem_map.1 (hall m hm hm')
  simp only at e1 e2
  subst e1; subst e2
  have l1 := lookup_of_nodup hi.keys h1
  have l2 := lookup_of_nodup hi.keys h2
  simp only [paVersion, paVersions, l1, l2, Option.getD_some] at hv
  exact hi.inj _ h1 _ h2 hv hs

end tree
end Golem
