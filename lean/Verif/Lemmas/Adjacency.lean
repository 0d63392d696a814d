import Verif.Model.Adjacency
import Verif.Lemmas.Transformers.Simple

namespace Golem
variable {T : Theory}

theorem AdjList.at_touch (l : AdjList) (p q : Pred) : (l.touch p).at q = l.at q := by
  unfold AdjList.touch AdjList.at
  split
  · rfl
  · rename_i h
    have : List.lookup q (l ++ [(p, ([] : List Nat))]) = (List.lookup q l).or (List.lookup q [(p, ([] : List Nat))]) := by
      induction l with
      | nil => simp
      | cons a l ih =>
        obtain ⟨k, v⟩ := a
        simp only [List.cons_append, List.lookup]
        split
        · simp
        · apply ih
          simp only [List.lookup] at h
          split at h
          · simp at h
          · exact h
    rw [this]
    cases hq : List.lookup q l with
    | some v => simp
    | none =>
      simp only [List.lookup]
      split <;> simp

theorem AdjList.lookup_touch_self (l : AdjList) (p : Pred) : ∃ v, List.lookup p (l.touch p) = some v := by
  unfold AdjList.touch
  split
  · rename_i v h; exact ⟨v, h⟩
  · rename_i h
    induction l with
    | nil => exact ⟨[], by simp⟩
    | cons a l ih =>
      obtain ⟨k, v⟩ := a
      simp only [List.cons_append, List.lookup]
      split
      · exact ⟨v, rfl⟩
      · apply ih
        simp only [List.lookup] at h
        split at h
        · simp at h
        · exact h

theorem AdjList.lookup_map_push (l : AdjList) (p q : Pred) (id : Nat) :
    List.lookup q (l.map fun (r, ids) => if r = p then (r, ids ++ [id]) else (r, ids)) =
      (List.lookup q l).map fun ids => if q = p then ids ++ [id] else ids := by
  induction l with
  | nil => rfl
  | cons a l ih =>
    obtain ⟨k, v⟩ := a
    simp only [List.map_cons]
    by_cases hk : k = p
    · subst hk
      simp only [if_true, List.lookup]
      by_cases hq : q = k
      · subst hq; simp
      · have : (q == k) = false := by simpa using hq
        simp only [this, ih]
    · simp only [hk, if_false, List.lookup]
      by_cases hq : q = k
      · subst hq; simp [hk]
      · have : (q == k) = false := by simpa using hq
        simp only [this, ih]

theorem AdjList.at_push (l : AdjList) (p q : Pred) (id : Nat) :
    (l.push p id).at q = if q = p then l.at q ++ [id] else l.at q := by
  unfold AdjList.push
  rw [AdjList.at, AdjList.lookup_map_push]
  by_cases h : q = p
  · subst h
    obtain ⟨v, hv⟩ := l.lookup_touch_self q
    have := l.at_touch q q
    rw [AdjList.at, hv] at this
    rw [hv]
    simp only [if_true, Option.map_some, Option.getD_some] at *
    rw [this]
  · simp only [h, if_false]
    have := l.at_touch p q
    rw [AdjList.at] at this
    rw [← this]
    cases List.lookup q (l.touch p) <;> rfl

/-- Keys. -/
theorem AdjList.keys_touch (l : AdjList) (p q : Pred) : q ∈ (l.touch p).map Prod.fst ↔ q = p ∨ q ∈ l.map Prod.fst := by
  unfold AdjList.touch
  split
  · rename_i v h
    constructor
    · exact Or.inr
    · rintro (rfl | h')
      · exact List.mem_map_of_mem (f := Prod.fst) (lookup_mem h)
      · exact h'
  · simp only [List.map_append, List.mem_append, List.map_cons, List.map_nil, List.mem_singleton]
    constructor
    · rintro (h | h)
      · exact Or.inr h
      · exact Or.inl h
    · rintro (h | h)
      · exact Or.inr h
      · exact Or.inl h

theorem AdjList.keys_push (l : AdjList) (p q : Pred) (id : Nat) :
    q ∈ (l.push p id).map Prod.fst ↔ q = p ∨ q ∈ l.map Prod.fst := by
  rw [← AdjList.keys_touch]
  unfold AdjList.push
  rw [List.map_map]
  have : (Prod.fst ∘ fun (x : Pred × List Nat) => match x with | (r, ids) => if r = p then (r, ids ++ [id]) else (r, ids))
      = Prod.fst := by
    funext x
    obtain ⟨a, b⟩ := x
    simp only [Function.comp]
    split <;> rfl
  rw [this]

theorem AdjList.nodup_touch {l : AdjList} (p : Pred) (h : (l.map Prod.fst).Nodup) : ((l.touch p).map Prod.fst).Nodup := by
  unfold AdjList.touch
  split
  · exact h
  · rename_i hn
    rw [List.map_append, List.nodup_append]
    refine ⟨h, by simp, ?_⟩
    intro a ha b hb hab
    simp at hb
    subst hb; subst hab
    obtain ⟨x, hx, hxa⟩ := List.mem_map.1 ha
    have : (List.lookup a l).isSome := by
      clear h hn ha
      induction l with
      | nil => simp at hx
      | cons y l ih =>
        obtain ⟨k, v⟩ := y
        rw [List.lookup]
        split
        · rfl
        · rename_i hne
          rcases List.mem_cons.1 hx with e | e
          · rw [e] at hxa; simp at hxa; simp [hxa] at hne
          · exact ih e
    rw [hn] at this
    simp at this

theorem AdjList.nodup_push {l : AdjList} (p : Pred) (id : Nat) (h : (l.map Prod.fst).Nodup) :
    ((l.push p id).map Prod.fst).Nodup := by
  have := l.nodup_touch p h
  unfold AdjList.push
  rw [List.map_map]
  have e : (Prod.fst ∘ fun (x : Pred × List Nat) => match x with | (r, ids) => if r = p then (r, ids ++ [id]) else (r, ids))
      = Prod.fst := by
    funext x
    obtain ⟨a, b⟩ := x
    simp only [Function.comp]
    split <;> rfl
  rw [e]; exact this

theorem addSources_incoming_at (id : Nat) (ss : List Pred) (A : AdjLists) (q : Pred) :
    (addSources id ss A).incoming.at q = A.incoming.at q := by
  induction ss generalizing A with
  | nil => rfl
  | cons s ss ih => rw [addSources, ih, AdjList.at_touch]

theorem addSources_keys (id : Nat) (ss : List Pred) (A : AdjLists) (q : Pred) :
    q ∈ (addSources id ss A).incoming.map Prod.fst ↔ q ∈ ss ∨ q ∈ A.incoming.map Prod.fst := by
  induction ss generalizing A with
  | nil => simp [addSources]
  | cons s ss ih =>
    rw [addSources, ih]
    show _ ∨ q ∈ (A.incoming.touch s).map Prod.fst ↔ _
    rw [AdjList.keys_touch, List.mem_cons]
    constructor
    · rintro (h | h | h)
      · exact Or.inl (Or.inr h)
      · exact Or.inl (Or.inl h)
      · exact Or.inr h
    · rintro ((h | h) | h)
      · exact Or.inr (Or.inl h)
      · exact Or.inl h
      · exact Or.inr (Or.inr h)

theorem addSources_nodup (id : Nat) (ss : List Pred) (A : AdjLists) (h : (A.incoming.map Prod.fst).Nodup) :
    ((addSources id ss A).incoming.map Prod.fst).Nodup := by
  induction ss generalizing A with
  | nil => exact h
  | cons s ss ih => rw [addSources]; exact ih _ (AdjList.nodup_touch s h)

/-- If the list of `q` does not yet end in `id` and does not contain `id`, processing the sources appends `id` exactly
once if `q` is a source. -/
theorem addSources_outgoing_at (id : Nat) (ss : List Pred) (A : AdjLists) (q : Pred) :
    (addSources id ss A).outgoing.at q =
      if q ∈ ss ∧ (A.outgoing.at q).getLast? ≠ some id then A.outgoing.at q ++ [id] else A.outgoing.at q := by
  induction ss generalizing A with
  | nil => simp [addSources]
  | cons s ss ih =>
    rw [addSources, ih]
    simp only [AdjList.at_touch]
    by_cases hl : (A.outgoing.at s).getLast? = some id
    · simp only [hl, if_true, AdjList.at_touch, List.mem_cons]
      by_cases hq : q = s
      · subst hq; simp [hl]
      · simp [hq]
    · simp only [hl, if_false, AdjList.at_push, AdjList.at_touch, List.mem_cons]
      by_cases hq : q = s
      · subst hq; simp [hl]
      · simp [hq]

theorem addEdge_in (A : AdjLists) (e : Edge T) (q : Pred) :
    (addEdge A e).inEdges q = A.inEdges q ++ (if q = e.tgt then [e.id] else []) := by
  simp only [addEdge, AdjLists.inEdges, addSources_incoming_at, AdjList.at_push]
  split <;> simp

theorem addEdge_out (A : AdjLists) (e : Edge T) (q : Pred) (h : e.id ∉ A.outEdges q) :
    (addEdge A e).outEdges q = A.outEdges q ++ (if q ∈ e.src then [e.id] else []) := by
  simp only [addEdge, AdjLists.outEdges, AdjList.at_touch, addSources_outgoing_at]
  have : (A.outgoing.at q).getLast? ≠ some e.id := fun hc => h (List.mem_of_getLast? hc)
  simp only [this, ne_eq, not_false_eq_true, and_true]
  split <;> simp

theorem addEdge_nodes (A : AdjLists) (e : Edge T) (q : Pred) :
    q ∈ (addEdge A e).nodes ↔ q = e.tgt ∨ q ∈ e.src ∨ q ∈ A.nodes := by
  simp only [addEdge, AdjLists.nodes, addSources_keys, AdjList.keys_push]
  constructor
  · rintro (h | h | h)
    · exact Or.inr (Or.inl h)
    · exact Or.inl h
    · exact Or.inr (Or.inr h)
  · rintro (h | h | h)
    · exact Or.inr (Or.inl h)
    · exact Or.inl h
    · exact Or.inr (Or.inr h)

theorem addEdge_nodup (A : AdjLists) (e : Edge T) (h : A.nodes.Nodup) : (addEdge A e).nodes.Nodup :=
  addSources_nodup _ _ _ (AdjList.nodup_push _ _ h)

theorem foldl_in (G : List (Edge T)) (A : AdjLists) (q : Pred) :
    (List.foldl addEdge A G).inEdges q = A.inEdges q ++ (G.filter fun e => decide (e.tgt = q)).map Edge.id := by
  induction G generalizing A with
  | nil => simp
  | cons e G ih =>
    rw [List.foldl_cons, ih, addEdge_in]
    by_cases h : e.tgt = q
    · simp [h]
    · have : ¬ q = e.tgt := fun h' => h h'.symm
      simp [h, this]

theorem foldl_out (G : List (Edge T)) (A : AdjLists) (q : Pred) (hn : (A.outEdges q ++ G.map Edge.id).Nodup) :
    (List.foldl addEdge A G).outEdges q = A.outEdges q ++ (G.filter fun e => decide (q ∈ e.src)).map Edge.id := by
  induction G generalizing A with
  | nil => simp
  | cons e G ih =>
    have hne : e.id ∉ A.outEdges q := by
      intro hm
      rw [List.nodup_append] at hn
      exact hn.2.2 _ hm e.id (by simp) rfl
    have ho := addEdge_out A e q hne
    rw [List.foldl_cons, ih, ho]
    · by_cases h : q ∈ e.src <;> simp [h]
    · rw [ho]
      refine List.Nodup.sublist ?_ hn
      simp only [List.map_cons]
      by_cases h : q ∈ e.src
      · simp [h]
      · simp [h]

theorem adjacency_in (G : Graph T) (q : Pred) :
    (adjacency G).inEdges q = (G.filter fun e => decide (e.tgt = q)).map Edge.id := by
  rw [adjacency, foldl_in]
  have : AdjLists.init.inEdges q = [] := by cases q <;> rfl
  rw [this]; rfl

theorem adjacency_out {G : Graph T} (hG : G.IdsNodup) (q : Pred) :
    (adjacency G).outEdges q = (G.filter fun e => decide (q ∈ e.src)).map Edge.id := by
  have h0 : AdjLists.init.outEdges q = [] := by cases q <;> rfl
  rw [adjacency, foldl_out]
  · rw [h0]; rfl
  · rw [h0]; exact hG

theorem foldl_nodes (G : List (Edge T)) (A : AdjLists) (q : Pred) :
    q ∈ (List.foldl addEdge A G).nodes ↔ Graph.Vertex G q ∨ q ∈ A.nodes := by
  induction G generalizing A with
  | nil => simp [Graph.Vertex]
  | cons e G ih =>
    rw [List.foldl_cons, ih, addEdge_nodes]
    simp only [Graph.Vertex, List.mem_cons]
    constructor
    · rintro (⟨e', he', h⟩ | h | h | h)
      · exact Or.inl ⟨e', Or.inr he', h⟩
      · exact Or.inl ⟨e, Or.inl rfl, Or.inl h⟩
      · exact Or.inl ⟨e, Or.inl rfl, Or.inr h⟩
      · exact Or.inr h
    · rintro (⟨e', rfl | he', h⟩ | h)
      · rcases h with h | h
        · exact Or.inr (Or.inl h)
        · exact Or.inr (Or.inr (Or.inl h))
      · exact Or.inl ⟨e', he', h⟩
      · exact Or.inr (Or.inr (Or.inr h))

theorem mem_nodes {G : Graph T} {q : Pred} : q ∈ (adjacency G).nodes ↔ G.Vertex q ∨ q = .tru ∨ q = .fls := by
  rw [adjacency, foldl_nodes]
  simp [AdjLists.init, AdjLists.nodes]

theorem foldl_nodup (G : List (Edge T)) (A : AdjLists) (h : A.nodes.Nodup) : (List.foldl addEdge A G).nodes.Nodup := by
  induction G generalizing A with
  | nil => exact h
  | cons e G ih => exact ih _ (addEdge_nodup A e h)

theorem nodes_nodup (G : Graph T) : (adjacency G).nodes.Nodup := foldl_nodup G _ (by decide)

end Golem
