import Verif.Lemmas.ArgItp

/-! The structure of abstract reachability graphs, and the unfolding of a proof into an interpolation tree. -/

namespace Golem
variable {T : Theory}

/-- An entry of the queue fits the nodes. -/
structure PaState.EdgeOk (G : Graph T) (s : PaState T) (q : PaEdge T) : Prop where
  mem : q.edge ∈ G
  lt : ∀ a ∈ q.sources, a < s.nodes.length
  syms : q.sources.map s.sym = q.edge.src

/-- The incoming edge of a node fits the nodes. -/
structure PaState.IncOk (G : Graph T) (s : PaState T) (i : Nat) (e : ArgEdge T) : Prop where
  only : s.incoming.filter (fun e => e.target == i) = [e]
  mem : e.clause ∈ G
  tgt : e.clause.tgt = s.sym i
  ne : s.sym i ≠ .fls
  lt : ∀ a ∈ e.sources, a < i
  syms : e.sources.map s.sym = e.clause.src

/-- The structure of the ARG. -/
structure PaStruct (G : Graph T) (s : PaState T) : Prop where
  root : s.nodes[0]? = some ⟨.tru, []⟩
  inc : ∀ i, 0 < i → i < s.nodes.length → ∃ e, s.IncOk G i e
  tgt : ∀ e ∈ s.incoming, 0 < e.target ∧ e.target < s.nodes.length

section
variable {G : Graph T} {s : PaState T}

theorem PaState.IncOk.find {i : Nat} {e : ArgEdge T} (h : s.IncOk G i e) : s.incomingEdge i = some e := by
  unfold PaState.incomingEdge
  rw [← List.head?_filter, h.only]
  rfl

theorem PaStruct.pos (h : PaStruct G s) : 0 < s.nodes.length := List.getElem?_lt h.root

theorem PaStruct.sym_zero (h : PaStruct G s) : s.sym 0 = .tru := by simp [PaState.sym, h.root]

theorem PaStruct.inc_zero (h : PaStruct G s) : s.incomingEdge 0 = none := by
  unfold PaState.incomingEdge
  rw [List.find?_eq_none]
  intro e he
  have := (h.tgt e he).1
  simp only [beq_iff_eq]
  omega

theorem PaStruct.sym_tru (h : PaStruct G s) (hG : ∀ e ∈ G, e.tgt ≠ .tru ∧ .fls ∉ e.src) {i : Nat} (hi : i < s.nodes.length) :
    s.sym i = .tru ↔ i = 0 := by
  constructor
  · intro hs
    rcases Nat.eq_zero_or_pos i with h0 | hpos
    · exact h0
    · obtain ⟨e, he⟩ := h.inc i hpos hi
      exact absurd (he.tgt.trans hs) (hG _ he.mem).1
  · rintro rfl; exact h.sym_zero

/-! ### The number of iterations -/

/-- `sizes` up to a node. -/
def PaState.sizesTo (s : PaState T) (k : Nat) : List Nat :=
  (List.range k).foldl (fun acc i =>
    acc ++ [1 + (((s.incomingEdge i).map ArgEdge.sources).getD []).foldr (fun a n => acc.getD a 0 + n) 0]) []

theorem PaState.sizesTo_succ (s : PaState T) (k : Nat) : s.sizesTo (k + 1) =
    s.sizesTo k ++ [1 + (((s.incomingEdge k).map ArgEdge.sources).getD []).foldr (fun a n => (s.sizesTo k).getD a 0 + n) 0] := by
  unfold PaState.sizesTo
  rw [List.range_succ, List.foldl_append]
  rfl

theorem PaState.sizesTo_length (s : PaState T) (k : Nat) : (s.sizesTo k).length = k := by
  induction k with
  | zero => rfl
  | succ k ih => rw [PaState.sizesTo_succ, List.length_append, ih]; rfl

theorem PaState.sizesTo_get (s : PaState T) {k m i : Nat} (hi : i < k) (hk : k ≤ m) : (s.sizesTo m).getD i 0 = (s.sizesTo k).getD i 0 := by
  induction m with
  | zero => omega
  | succ m ih =>
    rcases Nat.lt_or_ge m k with h | h
    · have : k = m + 1 := by omega
      subst this; rfl
    · rw [← ih h, PaState.sizesTo_succ, List.getD_eq_getElem?_getD, List.getD_eq_getElem?_getD,
        List.getElem?_append_left (by rw [PaState.sizesTo_length]; omega)]

/-- The iterations below a node. -/
theorem PaState.sizes_get (s : PaState T) {i : Nat} (hi : i < s.nodes.length)
    (hlt : ∀ a ∈ ((s.incomingEdge i).map ArgEdge.sources).getD [], a < i) :
    s.sizes.getD i 0 = 1 + (((s.incomingEdge i).map ArgEdge.sources).getD []).foldr (fun a n => s.sizes.getD a 0 + n) 0 := by
  have hE : s.sizes = s.sizesTo s.nodes.length := rfl
  rw [hE, s.sizesTo_get (k := i + 1) (by omega) hi, PaState.sizesTo_succ, List.getD_eq_getElem?_getD, List.getElem?_append_right
    (by rw [PaState.sizesTo_length]; exact Nat.le_refl _), PaState.sizesTo_length]
  simp only [Nat.sub_self, List.getElem?_cons_zero, Option.getD_some]
  congr 1
  generalize ((s.incomingEdge i).map ArgEdge.sources).getD [] = l at hlt ⊢
  induction l with
  | nil => rfl
  | cons a l ih =>
    rw [List.foldr_cons, List.foldr_cons, ih fun b hb => hlt b (List.mem_cons_of_mem _ hb),
      s.sizesTo_get (k := i) (m := s.nodes.length) (hlt a List.mem_cons_self) (by omega)]

/-! ### The unfolding -/

/-- The node of the ARG that a node of the tree unfolds. -/
def argAt (tree : List (PaTree T)) (n : Nat) : Nat := ((tree[n]?).bind PaTree.arg).getD 0

/-- The sources of the step at a node of the tree. -/
def PaState.treeSources (s : PaState T) (q : PaEdge T) (tree : List (PaTree T)) (n : Nat) : List Nat :=
  if n = 0 then q.sources else ((s.incomingEdge (argAt tree n)).map ArgEdge.sources).getD []

/-- The entries of the stack that wait for a parent. -/
def pending (stack : List (Nat × Nat)) (n : Nat) : List Nat := (stack.filter fun p => decide (p.2 = n ∧ p.1 ≠ 0)).map Prod.fst

/-- What the loop of `make` keeps. -/
structure MakeInv (s : PaState T) (q : PaEdge T) (tree : List (PaTree T)) (stack : List (Nat × Nat)) : Prop where
  root : tree[0]? = some ⟨none, q.edge, none⟩
  node : ∀ (n : Nat) (t : PaTree T), 0 < n → tree[n]? = some t → ∃ p a e, t.parent = some p ∧ p < n ∧ t.arg = some a ∧ 0 < a ∧
    a < s.nodes.length ∧ s.incomingEdge a = some e ∧ t.clause = e.clause
  kids : ∀ n, n < tree.length → (paChildren tree n).map (argAt tree) ++ pending stack n =
    (s.treeSources q tree n).filter fun a => decide (a ≠ 0)
  stack : ∀ p ∈ stack, p.2 < tree.length ∧ p.1 < s.nodes.length

theorem paChildren_snoc (tree : List (PaTree T)) (t : PaTree T) (n : Nat) :
    paChildren (tree ++ [t]) n = paChildren tree n ++ if t.parent = some n then [tree.length] else [] := by
  unfold paChildren
  rw [List.length_append, List.length_singleton, List.range_succ, List.filter_append]
  congr 1
  · refine List.filter_congr fun i hi => ?_
    rw [List.mem_range] at hi
    rw [List.getElem?_append_left hi]
  · simp only [List.filter_cons, List.filter_nil, List.getElem?_concat_length, Option.bind_some, decide_eq_true_eq]

theorem argAt_snoc_lt {tree : List (PaTree T)} {t : PaTree T} {n : Nat} (h : n < tree.length) : argAt (tree ++ [t]) n = argAt tree n := by
  unfold argAt
  rw [List.getElem?_append_left h]

theorem argAt_snoc {tree : List (PaTree T)} {t : PaTree T} : argAt (tree ++ [t]) tree.length = t.arg.getD 0 := by
  unfold argAt
  rw [List.getElem?_concat_length]
  rfl

theorem stack_sum (f : Nat → Nat) (m : Nat) (l : List Nat) : ∀ (rest : List (Nat × Nat)),
    (l.map (fun a => (a, m)) ++ rest).foldr (fun p n => f p.1 + n) 0 = l.foldr (fun a n => f a + n) 0 + rest.foldr (fun p n => f p.1 + n) 0 := by
  induction l with
  | nil => simp
  | cons a l ih => intro rest; simp only [List.map_cons, List.cons_append, List.foldr_cons, ih]; omega

theorem MakeInv.skip {q : PaEdge T} {tree : List (PaTree T)} {p : Nat} {stack : List (Nat × Nat)} (h : MakeInv s q tree ((0, p) :: stack)) :
    MakeInv s q tree stack where
  root := h.root
  node := h.node
  kids := by
    intro n hn
    rw [← h.kids n hn]
    simp [pending]
  stack := fun x hx => h.stack x (List.mem_cons_of_mem _ hx)

theorem MakeInv.push (hs : PaStruct G s) {q : PaEdge T} {tree : List (PaTree T)} {c p : Nat} {stack : List (Nat × Nat)} {e : ArgEdge T}
    (hc : 0 < c) (h : MakeInv s q tree ((c, p) :: stack)) (he : s.IncOk G c e) :
    MakeInv s q (tree ++ [⟨some p, e.clause, some c⟩]) (e.sources.map (fun a => (a, tree.length)) ++ stack) := by
  obtain ⟨hp, hcl⟩ := h.stack _ List.mem_cons_self
  simp only at hp hcl
  have hpos : 0 < tree.length := List.getElem?_lt h.root
  refine ⟨?_, ?_, ?_, ?_⟩
  · rw [List.getElem?_append_left hpos, h.root]
  · intro n t hn ht
    rcases Nat.lt_or_ge n tree.length with hlt | hge
    · rw [List.getElem?_append_left hlt] at ht
      exact h.node n t hn ht
    · have hn' := List.getElem?_lt ht
      rw [List.length_append, List.length_singleton] at hn'
      have : n = tree.length := by omega
      subst this
      rw [List.getElem?_concat_length] at ht
      cases ht
      exact ⟨p, c, e, rfl, hp, rfl, hc, hcl, he.find, rfl⟩
  · intro n hn
    rw [List.length_append, List.length_singleton] at hn
    have hpend : ∀ (l : List Nat), pending (l.map (fun a => (a, tree.length)) ++ stack) n =
        (if n = tree.length then l.filter (fun a => decide (a ≠ 0)) else []) ++ pending stack n := by
      intro l
      simp only [pending, List.filter_append, List.map_append]
      congr 1
      induction l with
      | nil => simp
      | cons a l ih =>
        rw [List.map_cons, List.filter_cons]
        by_cases hnt : n = tree.length
        · subst hnt
          by_cases ha : a = 0 <;> simp_all
        · have : ¬ tree.length = n := fun h => hnt h.symm
          simp_all
    rw [hpend, paChildren_snoc, List.map_append]
    rcases Nat.lt_or_ge n tree.length with hlt | hge
    · have hsrc : s.treeSources q (tree ++ [⟨some p, e.clause, some c⟩]) n = s.treeSources q tree n := by
        unfold PaState.treeSources
        rw [argAt_snoc_lt hlt]
      rw [hsrc, ← h.kids n hlt, if_neg (fun h => absurd h (Nat.ne_of_lt hlt))]
      have hmap : (paChildren tree n).map (argAt (tree ++ [⟨some p, e.clause, some c⟩])) = (paChildren tree n).map (argAt tree) := by
        refine List.map_congr_left fun i hi => argAt_snoc_lt ?_
        obtain ⟨_, h1, _⟩ := mem_paChildren.1 hi
        exact List.getElem?_lt h1
      rw [hmap]
      by_cases hpn : p = n
      · subst hpn
        simp only [if_true, List.map_singleton, argAt_snoc, Option.getD_some, List.nil_append, List.append_assoc]
        congr 1
        simp [pending, Nat.ne_of_gt hc]
      · have : ¬ (some p = some n) := by simpa using hpn
        simp only [if_neg this, List.map_nil, List.append_nil, List.nil_append]
        congr 1
        simp [pending, hpn]
    · have hn' : n = tree.length := by omega
      subst hn'
      have h1 : paChildren tree tree.length = [] := by
        rw [List.eq_nil_iff_forall_not_mem]
        intro i hi
        obtain ⟨t, h1, h2⟩ := mem_paChildren.1 hi
        have h3 := List.getElem?_lt h1
        rcases Nat.eq_zero_or_pos i with rfl | hi0
        · rw [h.root] at h1; cases h1; cases h2
        · obtain ⟨p', _, _, h4, h5, _⟩ := h.node i t hi0 h1
          rw [h2] at h4; cases h4; omega
      have h2 : pending stack tree.length = [] := by
        unfold pending
        rw [List.map_eq_nil_iff, List.filter_eq_nil_iff]
        intro x hx
        have := (h.stack x (List.mem_cons_of_mem _ hx)).1
        simp only [decide_eq_true_eq]
        omega
      have h3 : ¬ (some p = some tree.length) := by simp; omega
      rw [h1, h2]
      simp only [if_neg h3, List.map_nil, List.nil_append, List.append_nil, if_true]
      unfold PaState.treeSources
      rw [if_neg (by omega), argAt_snoc]
      simp only [Option.getD_some, he.find, Option.map_some]
  · intro x hx
    rw [List.length_append, List.length_singleton]
    rcases List.mem_append.1 hx with h1 | h1
    · obtain ⟨a, ha, rfl⟩ := List.mem_map.1 h1
      have := he.lt a ha
      simp only
      omega
    · have := h.stack x (List.mem_cons_of_mem _ h1)
      omega

theorem paMakeLoop_spec (hs : PaStruct G s) {q : PaEdge T} : ∀ (fuel : Nat) (tree : List (PaTree T)) (stack : List (Nat × Nat)),
    MakeInv s q tree stack → stack.foldr (fun p n => s.sizes.getD p.1 0 + n) 0 < fuel →
    ∃ tree', paMakeLoop s fuel tree stack = .done tree' ∧ MakeInv s q tree' [] := by
  intro fuel
  induction fuel with
  | zero => intro tree stack _ h; omega
  | succ fuel ih =>
    intro tree stack h hf
    match stack with
    | [] => exact ⟨tree, rfl, h⟩
    | (c, p) :: stack =>
      rw [List.foldr_cons] at hf
      simp only at hf
      obtain ⟨_, hcl⟩ := h.stack _ List.mem_cons_self
      simp only at hcl
      by_cases hc : c = 0
      · subst hc
        have h0 := s.sizes_get hs.pos (by rw [hs.inc_zero]; simp)
        rw [hs.inc_zero] at h0
        simp at h0
        rw [← List.getD_eq_getElem?_getD] at h0
        obtain ⟨t', h1, h2⟩ := ih tree stack h.skip (by omega)
        exact ⟨t', by rw [paMakeLoop, if_pos rfl, h1], h2⟩
      · have hc' : 0 < c := by omega
        obtain ⟨e, he⟩ := hs.inc c hc' hcl
        have h0 := s.sizes_get hcl (by rw [he.find]; exact he.lt)
        rw [he.find] at h0
        simp only [Option.map_some, Option.getD_some] at h0
        obtain ⟨t', h1, h2⟩ := ih _ _ (h.push hs hc' he) (by rw [stack_sum (fun a => s.sizes.getD a 0)]; omega)
        exact ⟨t', by rw [paMakeLoop, if_neg hc, he.find]; exact h1, h2⟩

/-- What `make` gives. -/
structure MakeOk (G : Graph T) (s : PaState T) (q : PaEdge T) (tree : List (PaTree T)) : Prop where
  shape : PaTreeOk G tree
  root : tree[0]? = some ⟨none, q.edge, none⟩
  node : ∀ (n : Nat) (t : PaTree T), 0 < n → tree[n]? = some t → 0 < argAt tree n ∧ argAt tree n < s.nodes.length ∧
    t.clause.tgt = s.sym (argAt tree n) ∧ ∃ e, s.IncOk G (argAt tree n) e ∧ t.clause = e.clause
  kids : ∀ n, n < tree.length → (paChildren tree n).map (argAt tree) = (s.treeSources q tree n).filter fun a => decide (a ≠ 0)

theorem paMake_ok {R : PRepr} (hG : PaGraph R G) (hs : PaStruct G s) {q : PaEdge T} (hq : s.EdgeOk G q) (hfls : q.edge.tgt = .fls) :
    ∃ tree, paMake s q = .done tree ∧ MakeOk G s q tree := by
  have h0 : MakeInv s q [⟨none, q.edge, none⟩] (q.sources.map fun a => (a, 0)) := by
    refine ⟨rfl, ?_, ?_, ?_⟩
    · intro n t hn ht
      have := List.getElem?_lt ht
      simp at this; omega
    · intro n hn
      simp only [List.length_singleton] at hn
      have : n = 0 := by omega
      subst this
      have h1 : paChildren [(⟨none, q.edge, none⟩ : PaTree T)] 0 = [] := by
        rw [List.eq_nil_iff_forall_not_mem]
        intro i hi
        obtain ⟨t, h1, h2⟩ := mem_paChildren.1 hi
        have h3 := List.getElem?_lt h1
        simp only [List.length_singleton] at h3
        have : i = 0 := by omega
        subst this
        cases h1; cases h2
      rw [h1]
      simp only [List.map_nil, List.nil_append, PaState.treeSources, if_true]
      generalize q.sources = l
      unfold pending
      induction l with
      | nil => rfl
      | cons a l ih =>
        rw [List.map_cons, List.filter_cons, List.filter_cons]
        by_cases ha : a = 0 <;> simp_all
    · intro p hp
      obtain ⟨a, ha, rfl⟩ := List.mem_map.1 hp
      exact ⟨by simp, hq.lt a ha⟩
  obtain ⟨tree, h1, h2⟩ := paMakeLoop_spec hs (q.sources.foldr (fun a n => s.sizes.getD a 0 + n) 0 + 1) _ _ h0 (by
    have := stack_sum (fun a => s.sizes.getD a 0) 0 q.sources []
    simp only [List.append_nil, List.foldr_nil, Nat.add_zero] at this
    rw [this]; omega)
  refine ⟨tree, h1, ?_⟩
  have hnode : ∀ (n : Nat) (t : PaTree T), 0 < n → tree[n]? = some t → 0 < argAt tree n ∧ argAt tree n < s.nodes.length ∧
    t.clause.tgt = s.sym (argAt tree n) ∧ ∃ e, s.IncOk G (argAt tree n) e ∧ t.clause = e.clause := by
    intro n t hn ht
    obtain ⟨p, a, e, _, _, h3, h4, h5, h6, h7⟩ := h2.node n t hn ht
    have ha : argAt tree n = a := by simp [argAt, ht, h3]
    obtain ⟨e', he'⟩ := hs.inc a h4 h5
    have : e' = e := by rw [he'.find] at h6; exact Option.some.inj h6
    subst this
    rw [ha, h7]
    exact ⟨h4, h5, he'.tgt, e', he', rfl⟩
  have hkids : ∀ n, n < tree.length → (paChildren tree n).map (argAt tree) = (s.treeSources q tree n).filter fun a => decide (a ≠ 0) := by
    intro n hn
    rw [← h2.kids n hn]
    simp [pending]
  refine ⟨⟨⟨q.edge, h2.root, hfls⟩, ?_, ?_, ?_⟩, h2.root, hnode, hkids⟩
  · intro n t hn ht
    obtain ⟨p, a, e, h3, h4, _⟩ := h2.node n t hn ht
    obtain ⟨_, _, h5, e', h6, _⟩ := hnode n t hn ht
    exact ⟨by rw [h5]; exact h6.ne, p, h3, h4⟩
  · intro n t ht
    rcases Nat.eq_zero_or_pos n with rfl | hn
    · rw [h2.root] at ht; cases ht; exact hq.mem
    · obtain ⟨_, _, _, e', h6, h7⟩ := hnode n t hn ht
      rw [h7]; exact h6.mem
  · intro n t ht
    have hn := List.getElem?_lt ht
    have hS : (s.treeSources q tree n).map s.sym = t.clause.src ∧ (∀ a ∈ s.treeSources q tree n, a < s.nodes.length) ∧ t.clause ∈ G := by
      unfold PaState.treeSources
      rcases Nat.eq_zero_or_pos n with rfl | hn
      · rw [h2.root] at ht; cases ht
        rw [if_pos rfl]
        exact ⟨hq.syms, hq.lt, hq.mem⟩
      · obtain ⟨_, h5, _, e', h6, h7⟩ := hnode n t hn ht
        rw [if_neg (by omega), h6.find, h7]
        refine ⟨h6.syms, fun a ha => ?_, h6.mem⟩
        have := h6.lt a ha
        omega
    obtain ⟨hS1, hS2, hm⟩ := hS
    by_cases htru : .tru ∈ t.clause.src
    · left
      have h3 := hG.tru _ hm htru
      refine ⟨h3, ?_⟩
      have := hkids n hn
      rw [h3] at hS1
      rw [← List.map_eq_nil_iff (f := argAt tree), this, List.filter_eq_nil_iff]
      intro a ha
      have h4 : s.sym a ∈ (s.treeSources q tree n).map s.sym := List.mem_map.2 ⟨a, ha, rfl⟩
      rw [hS1, List.mem_singleton] at h4
      have := (hs.sym_tru hG.ends (hS2 a ha)).1 h4
      simpa using this
    · right
      refine ⟨htru, ?_⟩
      have hall : (s.treeSources q tree n).filter (fun a => decide (a ≠ 0)) = s.treeSources q tree n := by
        rw [List.filter_eq_self]
        intro a ha
        simp only [decide_eq_true_eq]
        rintro rfl
        exact htru (by rw [← hS1]; exact List.mem_map.2 ⟨0, ha, hs.sym_zero⟩)
      have h3 := hkids n hn
      rw [hall] at h3
      rw [← hS1, ← h3, List.map_map]
      refine List.map_congr_left fun c hc => ?_
      obtain ⟨t', h4, h5⟩ := mem_paChildren.1 hc
      have hc0 : 0 < c := by
        rcases Nat.eq_zero_or_pos c with rfl | h0
        · rw [h2.root] at h4; cases h4; cases h5
        · exact h0
      rw [tgtAt_eq h4, (hnode c t' hc0 h4).2.2.1]
      rfl

end

end Golem
