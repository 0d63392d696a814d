import Verif.Model.Transformers.Unreachable
import Verif.Lemmas.Adjacency

namespace Golem
variable {T : Theory}

theorem Graph.find_of_mem {G : Graph T} (hG : G.IdsNodup) {e : Edge T} (he : e ∈ G) : G.find e.id = some e := by
  have : (G.find e.id).isSome := by
    unfold Graph.find
    rw [List.find?_isSome]
    exact ⟨e, he, by simp⟩
  obtain ⟨e', he'⟩ := Option.isSome_iff_exists.1 this
  obtain ⟨h1, h2⟩ := Graph.find_mem he'
  rw [he', hG.eq h1 he h2]

/-! ### worklists -/

theorem pushSources_spec (ss : List Pred) (q s : List Pred) :
    (∀ x, x ∈ (pushSources ss (q, s)).2 ↔ x ∈ s ∨ x ∈ ss) ∧
    (∀ x ∈ q, x ∈ (pushSources ss (q, s)).1) ∧
    (∀ x ∈ (pushSources ss (q, s)).2, x ∈ s ∨ x ∈ (pushSources ss (q, s)).1) ∧
    (∀ x ∈ (pushSources ss (q, s)).1, x ∈ q ∨ (x ∈ ss ∧ x ∉ s)) := by
  induction ss generalizing q s with
  | nil => exact ⟨by simp [pushSources], by simp [pushSources], fun x hx => Or.inl hx, fun x hx => Or.inl hx⟩
  | cons a ss ih =>
    rw [pushSources]
    by_cases ha : a ∈ s
    · rw [if_pos ha]
      obtain ⟨h1, h2, h3, h4⟩ := ih q s
      refine ⟨?_, h2, h3, ?_⟩
      · intro x; rw [h1, List.mem_cons]
        constructor
        · rintro (h | h)
          · exact Or.inl h
          · exact Or.inr (Or.inr h)
        · rintro (h | rfl | h)
          · exact Or.inl h
          · exact Or.inl ha
          · exact Or.inr h
      · intro x hx; rcases h4 x hx with h | ⟨h, h'⟩
        · exact Or.inl h
        · exact Or.inr ⟨List.mem_cons_of_mem _ h, h'⟩
    · rw [if_neg ha]
      obtain ⟨h1, h2, h3, h4⟩ := ih (a :: q) (a :: s)
      refine ⟨?_, ?_, ?_, ?_⟩
      · intro x; rw [h1, List.mem_cons, List.mem_cons]
        constructor
        · rintro ((h | h) | h)
          · exact Or.inr (Or.inl h)
          · exact Or.inl h
          · exact Or.inr (Or.inr h)
        · rintro (h | h | h)
          · exact Or.inl (Or.inr h)
          · exact Or.inl (Or.inl h)
          · exact Or.inr h
      · intro x hx; exact h2 x (List.mem_cons_of_mem _ hx)
      · intro x hx
        rcases h3 x hx with h | h
        · rcases List.mem_cons.1 h with rfl | h
          · exact Or.inr (h2 _ (by simp))
          · exact Or.inl h
        · exact Or.inr h
      · intro x hx
        rcases h4 x hx with h | ⟨h, h'⟩
        · rcases List.mem_cons.1 h with rfl | h
          · exact Or.inr ⟨by simp, ha⟩
          · exact Or.inl h
        · exact Or.inr ⟨List.mem_cons_of_mem _ h, fun hs => h' (List.mem_cons_of_mem _ hs)⟩

theorem pushIncoming_spec (G : Graph T) (ids : List Nat) (q s : List Pred) :
    (∀ x, x ∈ (pushIncoming G ids (q, s)).2 ↔ x ∈ s ∨ ∃ id ∈ ids, ∃ e, G.find id = some e ∧ x ∈ e.src) ∧
    (∀ x ∈ q, x ∈ (pushIncoming G ids (q, s)).1) ∧
    (∀ x ∈ (pushIncoming G ids (q, s)).2, x ∈ s ∨ x ∈ (pushIncoming G ids (q, s)).1) ∧
    (∀ x ∈ (pushIncoming G ids (q, s)).1, x ∈ q ∨ ((∃ id ∈ ids, ∃ e, G.find id = some e ∧ x ∈ e.src) ∧ x ∉ s)) := by
  induction ids generalizing q s with
  | nil => exact ⟨by simp [pushIncoming], by simp [pushIncoming], fun x hx => Or.inl hx, fun x hx => Or.inl hx⟩
  | cons id ids ih =>
    rw [pushIncoming]
    obtain ⟨a1, a2, a3, a4⟩ := pushSources_spec ((G.find id).elim [] Edge.src) q s
    generalize pushSources ((G.find id).elim [] Edge.src) (q, s) = st at *
    obtain ⟨q1, s1⟩ := st
    obtain ⟨h1, h2, h3, h4⟩ := ih q1 s1
    have hel : ∀ x, x ∈ (G.find id).elim [] Edge.src ↔ ∃ e, G.find id = some e ∧ x ∈ e.src := by
      intro x
      cases G.find id <;> simp
    refine ⟨?_, ?_, ?_, ?_⟩
    · intro x
      rw [h1, a1, hel]
      simp only [List.mem_cons]
      constructor
      · rintro ((h | h) | ⟨i, hi, h⟩)
        · exact Or.inl h
        · exact Or.inr ⟨id, Or.inl rfl, h⟩
        · exact Or.inr ⟨i, Or.inr hi, h⟩
      · rintro (h | ⟨i, rfl | hi, h⟩)
        · exact Or.inl (Or.inl h)
        · exact Or.inl (Or.inr h)
        · exact Or.inr ⟨i, hi, h⟩
    · intro x hx; exact h2 x (a2 x hx)
    · intro x hx
      rcases h3 x hx with h | h
      · rcases a3 x h with h | h
        · exact Or.inl h
        · exact Or.inr (h2 x h)
      · exact Or.inr h
    · intro x hx
      rcases h4 x hx with h | ⟨⟨i, hi, h⟩, h'⟩
      · rcases a4 x h with h | ⟨h, h'⟩
        · exact Or.inl h
        · exact Or.inr ⟨⟨id, by simp, (hel x).1 h⟩, h'⟩
      · exact Or.inr ⟨⟨i, by simp [hi], h⟩, fun hs => h' ((a1 x).2 (Or.inl hs))⟩

/-- Structural backward reachability from the exit (not through the entry). -/
inductive BackReach (G : Graph T) : Pred → Prop where
  | exit : BackReach G .fls
  | step {e : Edge T} (he : e ∈ G) (ht : BackReach G e.tgt) (hne : e.tgt ≠ .tru) {s : Pred} (hs : s ∈ e.src) :
      BackReach G s

/-- Structural forward reachability from the entry. -/
inductive FwdReach (G : Graph T) : Pred → Prop where
  | entry : FwdReach G .tru
  | step {e : Edge T} (he : e ∈ G) (hne : e.src ≠ []) (hs : ∀ s ∈ e.src, FwdReach G s) : FwdReach G e.tgt

theorem backwardLoop_spec {G : Graph T} (hG : G.IdsNodup) {fuel : Nat} {q s r : List Pred}
    (htru : Pred.tru ∈ s) (hexit : Pred.fls ∈ s) (hq : ∀ x ∈ q, x ∈ s ∧ x ≠ .tru)
    (hinv : ∀ e ∈ G, e.tgt ∈ s → e.tgt ∈ q ∨ e.tgt = .tru ∨ ∀ x ∈ e.src, x ∈ s)
    (hsnd : ∀ x ∈ s, x = .tru ∨ BackReach G x)
    (h : backwardLoop G (adjacency G) fuel q s = some r) :
    ∀ x, x ∈ r ↔ x = .tru ∨ BackReach G x := by
  induction fuel generalizing q s with
  | zero =>
    cases q with
    | nil =>
      simp [backwardLoop] at h; subst h
      intro x
      refine ⟨hsnd x, ?_⟩
      rintro (rfl | hx)
      · exact htru
      · induction hx with
        | exit => exact hexit
        | step he _ hne hs ih =>
          rcases hinv _ he ih with h | h | h
          · simp at h
          · exact absurd h hne
          · exact h _ hs
    | cons v q => simp [backwardLoop] at h
  | succ fuel ih =>
    cases q with
    | nil =>
      simp [backwardLoop] at h; subst h
      intro x
      refine ⟨hsnd x, ?_⟩
      rintro (rfl | hx)
      · exact htru
      · induction hx with
        | exit => exact hexit
        | step he _ hne hs ih =>
          rcases hinv _ he ih with h | h | h
          · simp at h
          · exact absurd h hne
          · exact h _ hs
    | cons v q =>
      rw [backwardLoop] at h
      obtain ⟨h1, h2, h3, h4⟩ := pushIncoming_spec G ((adjacency G).inEdges v) q s
      generalize pushIncoming G ((adjacency G).inEdges v) (q, s) = st at *
      obtain ⟨q', s'⟩ := st
      simp only at h h1 h2 h3 h4
      have hin : ∀ e ∈ G, e.tgt = v → ∀ x ∈ e.src, x ∈ s' := by
        intro e he ht x hx
        rw [h1]
        right
        refine ⟨e.id, ?_, e, Graph.find_of_mem hG he, hx⟩
        rw [adjacency_in]
        exact List.mem_map_of_mem (List.mem_filter.2 ⟨he, by simpa using ht⟩)
      have hback : ∀ x, (∃ id ∈ (adjacency G).inEdges v, ∃ e, G.find id = some e ∧ x ∈ e.src) →
          ∃ e ∈ G, e.tgt = v ∧ x ∈ e.src := by
        rintro x ⟨id, hid, e, he, hx⟩
        obtain ⟨m1, m2⟩ := Graph.find_mem he
        rw [adjacency_in] at hid
        obtain ⟨e', he', hid'⟩ := List.mem_map.1 hid
        obtain ⟨n1, n2⟩ := List.mem_filter.1 he'
        have := hG.eq n1 m1 (by rw [hid', m2])
        subst this
        exact ⟨e', m1, by simpa using n2, hx⟩
      have hvs := hq v (by simp)
      have hss : ∀ x ∈ s, x ∈ s' := fun x hx => (h1 x).2 (Or.inl hx)
      apply ih (hss _ htru) (hss _ hexit) ?_ ?_ ?_ h
      · intro x hx
        rcases h4 x hx with h | ⟨h, h'⟩
        · exact ⟨hss _ (hq x (by simp [h])).1, (hq x (by simp [h])).2⟩
        · exact ⟨(h1 x).2 (Or.inr h), fun e => h' (e ▸ htru)⟩
      · intro e he ht
        rcases h3 _ ht with ht' | ht'
        · rcases hinv e he ht' with h | h | h
          · rcases List.mem_cons.1 h with h | h
            · exact Or.inr (Or.inr (hin e he h))
            · exact Or.inl (h2 _ h)
          · exact Or.inr (Or.inl h)
          · exact Or.inr (Or.inr fun x hx => hss _ (h x hx))
        · exact Or.inl ht'
      · intro x hx
        rcases (h1 x).1 hx with h | h
        · exact hsnd x h
        · obtain ⟨e, he, ht, hx⟩ := hback x h
          rcases hsnd v hvs.1 with h | h
          · exact absurd h hvs.2
          · exact Or.inr (.step he (ht ▸ h) (ht ▸ hvs.2) hx)

theorem pushTargets_spec (G : Graph T) (ids : List Nat) (q s : List Pred) :
    (∀ x ∈ s, x ∈ (pushTargets G ids (q, s)).2) ∧
    (∀ x ∈ q, x ∈ (pushTargets G ids (q, s)).1) ∧
    (∀ x ∈ (pushTargets G ids (q, s)).2, x ∈ s ∨ x ∈ (pushTargets G ids (q, s)).1) ∧
    (∀ x ∈ (pushTargets G ids (q, s)).1, x ∈ q ∨ x ∈ (pushTargets G ids (q, s)).2) ∧
    (∀ id ∈ ids, ∀ e, G.find id = some e → (∀ x ∈ e.src, x ∈ s) → e.tgt ∈ (pushTargets G ids (q, s)).2) ∧
    (∀ P : Pred → Prop, (∀ id ∈ ids, ∀ e, G.find id = some e → (∀ x ∈ e.src, P x) → P e.tgt) →
      (∀ x ∈ s, P x) → ∀ x ∈ (pushTargets G ids (q, s)).2, P x) := by
  induction ids generalizing q s with
  | nil => exact ⟨fun x hx => hx, fun x hx => hx, fun x hx => Or.inl hx, fun x hx => Or.inl hx, by simp, fun _ _ h => h⟩
  | cons id ids ih =>
    rw [pushTargets]
    cases hf : G.find id with
    | none =>
      simp only
      obtain ⟨h1, h2, h3, h4, h5, h6⟩ := ih q s
      refine ⟨h1, h2, h3, h4, ?_, ?_⟩
      · intro i hi e he hs
        rcases List.mem_cons.1 hi with rfl | hi
        · rw [hf] at he; simp at he
        · exact h5 i hi e he hs
      · intro P hP; exact h6 P (fun i hi => hP i (List.mem_cons_of_mem _ hi))
    | some e0 =>
      simp only
      by_cases ht : e0.tgt ∈ s
      · rw [if_pos ht]
        obtain ⟨h1, h2, h3, h4, h5, h6⟩ := ih q s
        refine ⟨h1, h2, h3, h4, ?_, ?_⟩
        · intro i hi e he hs
          rcases List.mem_cons.1 hi with rfl | hi
          · rw [hf] at he; cases he; exact h1 _ ht
          · exact h5 i hi e he hs
        · intro P hP; exact h6 P (fun i hi => hP i (List.mem_cons_of_mem _ hi))
      · rw [if_neg ht]
        by_cases hall : e0.src.all (fun s' => decide (s' ∈ s)) = true
        · rw [if_pos hall]
          have hall' : ∀ x ∈ e0.src, x ∈ s := by simpa using hall
          obtain ⟨h1, h2, h3, h4, h5, h6⟩ := ih (e0.tgt :: q) (e0.tgt :: s)
          refine ⟨fun x hx => h1 x (List.mem_cons_of_mem _ hx), fun x hx => h2 x (List.mem_cons_of_mem _ hx), ?_, ?_, ?_, ?_⟩
          · intro x hx
            rcases h3 x hx with h | h
            · rcases List.mem_cons.1 h with rfl | h
              · exact Or.inr (h2 _ (by simp))
              · exact Or.inl h
            · exact Or.inr h
          · intro x hx
            rcases h4 x hx with h | h
            · rcases List.mem_cons.1 h with rfl | h
              · exact Or.inr (h1 _ (by simp))
              · exact Or.inl h
            · exact Or.inr h
          · intro i hi e he hs
            rcases List.mem_cons.1 hi with rfl | hi
            · rw [hf] at he; cases he; exact h1 _ (by simp)
            · exact h5 i hi e he (fun x hx => List.mem_cons_of_mem _ (hs x hx))
          · intro P hP hs
            refine h6 P (fun i hi => hP i (List.mem_cons_of_mem _ hi)) ?_
            intro x hx
            rcases List.mem_cons.1 hx with rfl | hx
            · exact hP id (by simp) e0 hf (fun x hx => hs x (hall' x hx))
            · exact hs x hx
        · rw [if_neg hall]
          obtain ⟨h1, h2, h3, h4, h5, h6⟩ := ih q s
          refine ⟨h1, h2, h3, h4, ?_, ?_⟩
          · intro i hi e he hs
            rcases List.mem_cons.1 hi with rfl | hi
            · rw [hf] at he; cases he
              exact absurd (by simpa using hs) hall
            · exact h5 i hi e he hs
          · intro P hP; exact h6 P (fun i hi => hP i (List.mem_cons_of_mem _ hi))

theorem forwardLoop_spec {G : Graph T} (hG : G.IdsNodup) (hne : ∀ e ∈ G, e.src ≠ []) {fuel : Nat} {q s r : List Pred}
    (htru : Pred.tru ∈ s) (hq : ∀ x ∈ q, x ∈ s)
    (hinv : ∀ e ∈ G, (∀ x ∈ e.src, x ∈ s ∧ x ∉ q) → e.tgt ∈ s)
    (hsnd : ∀ x ∈ s, FwdReach G x)
    (h : forwardLoop G (adjacency G) fuel q s = some r) :
    ∀ x, x ∈ r ↔ FwdReach G x := by
  have base : ∀ s : List Pred, Pred.tru ∈ s → (∀ e ∈ G, (∀ x ∈ e.src, x ∈ s ∧ x ∉ ([] : List Pred)) → e.tgt ∈ s) →
      (∀ x ∈ s, FwdReach G x) → ∀ x, x ∈ s ↔ FwdReach G x := by
    intro s htru hinv hsnd x
    refine ⟨hsnd x, ?_⟩
    intro hx
    induction hx with
    | entry => exact htru
    | step he _ _ ih => exact hinv _ he (fun x hx => ⟨ih x hx, by simp⟩)
  induction fuel generalizing q s with
  | zero =>
    cases q with
    | nil => simp [forwardLoop] at h; subst h; exact base s htru hinv hsnd
    | cons v q => simp [forwardLoop] at h
  | succ fuel ih =>
    cases q with
    | nil => simp [forwardLoop] at h; subst h; exact base s htru hinv hsnd
    | cons v q =>
      rw [forwardLoop] at h
      obtain ⟨h1, h2, h3, h4, h5, h6⟩ := pushTargets_spec G ((adjacency G).outEdges v) q s
      generalize pushTargets G ((adjacency G).outEdges v) (q, s) = st at *
      obtain ⟨q', s'⟩ := st
      simp only at h h1 h2 h3 h4 h5 h6
      apply ih (h1 _ htru) ?_ ?_ ?_ h
      · intro x hx
        rcases h4 x hx with h | h
        · exact h1 _ (hq x (by simp [h]))
        · exact h
      · intro e he hs
        have hs' : ∀ x ∈ e.src, x ∈ s ∧ x ∉ q := by
          intro x hx
          obtain ⟨a, b⟩ := hs x hx
          rcases h3 x a with h | h
          · exact ⟨h, fun hc => b (h2 x hc)⟩
          · exact absurd h b
        by_cases hv : v ∈ e.src
        · refine h5 e.id ?_ e (Graph.find_of_mem hG he) (fun x hx => (hs' x hx).1)
          rw [adjacency_out hG]
          exact List.mem_map_of_mem (List.mem_filter.2 ⟨he, by simpa using hv⟩)
        · refine h1 _ (hinv e he fun x hx => ⟨(hs' x hx).1, ?_⟩)
          intro hc
          rcases List.mem_cons.1 hc with rfl | hc
          · exact hv hx
          · exact (hs' x hx).2 hc
      · refine h6 (FwdReach G) ?_ hsnd
        intro id _ e he hs
        exact .step (Graph.find_mem he).1 (hne _ (Graph.find_mem he).1) hs

/-! ### termination of the worklists -/

def unseen (nodes s : List Pred) : Nat := (nodes.filter fun n => decide (n ∉ s)).length

theorem unseen_cons {nodes s : List Pred} (hn : nodes.Nodup) {a : Pred} (ha : a ∈ nodes) (hs : a ∉ s) :
    unseen nodes (a :: s) + 1 = unseen nodes s := by
  unfold unseen
  induction nodes with
  | nil => simp at ha
  | cons b nodes ih =>
    obtain ⟨hb, hn'⟩ := List.nodup_cons.1 hn
    by_cases hab : a = b
    · subst hab
      have e1 : (nodes.filter fun n => decide (n ∉ a :: s)) = nodes.filter fun n => decide (n ∉ s) := by
        apply List.filter_congr
        intro x hx
        have : x ≠ a := fun h => hb (h ▸ hx)
        simp [this]
      simp only [List.filter_cons, List.mem_cons, true_or, not_true_eq_false, decide_false, hs, not_false_eq_true,
        decide_true, if_true, List.length_cons]
      simp only [List.mem_cons] at e1
      rw [e1]; simp
    · have ha' : a ∈ nodes := by
        rcases List.mem_cons.1 ha with h | h
        · exact absurd h hab
        · exact h
      have := ih hn' ha'
      have hba : ¬ b = a := fun h => hab h.symm
      by_cases hbs : b ∈ s
      · simp only [List.filter_cons, List.mem_cons, hbs, or_true, not_true_eq_false, decide_false, Bool.false_eq_true, if_false]
        simpa using this
      · simp only [List.filter_cons, List.mem_cons, hbs, hba, or_self, not_false_eq_true, decide_true, if_true, List.length_cons]
        simp only [List.mem_cons] at this
        omega

theorem pushSources_measure {nodes : List Pred} (hn : nodes.Nodup) (ss : List Pred) (h : ∀ x ∈ ss, x ∈ nodes) (q s : List Pred) :
    (pushSources ss (q, s)).1.length + unseen nodes (pushSources ss (q, s)).2 = q.length + unseen nodes s := by
  induction ss generalizing q s with
  | nil => rfl
  | cons a ss ih =>
    rw [pushSources]
    by_cases ha : a ∈ s
    · rw [if_pos ha]; exact ih (fun x hx => h x (List.mem_cons_of_mem _ hx)) q s
    · rw [if_neg ha, ih (fun x hx => h x (List.mem_cons_of_mem _ hx))]
      have := unseen_cons hn (h a (by simp)) ha
      simp only [List.length_cons]; omega

theorem find_src_nodes {G : Graph T} {id : Nat} : ∀ x ∈ (G.find id).elim [] Edge.src, x ∈ (adjacency G).nodes := by
  intro x hx
  cases hf : G.find id with
  | none => rw [hf] at hx; simp at hx
  | some e =>
    rw [hf] at hx
    exact mem_nodes.2 (Or.inl ⟨e, (Graph.find_mem hf).1, Or.inr hx⟩)

theorem pushIncoming_measure {G : Graph T} (ids : List Nat) (q s : List Pred) :
    (pushIncoming G ids (q, s)).1.length + unseen (adjacency G).nodes (pushIncoming G ids (q, s)).2 =
      q.length + unseen (adjacency G).nodes s := by
  induction ids generalizing q s with
  | nil => rfl
  | cons id ids ih =>
    rw [pushIncoming]
    have := pushSources_measure (nodes_nodup G) _ (find_src_nodes (G := G) (id := id)) q s
    generalize pushSources ((G.find id).elim [] Edge.src) (q, s) = st at *
    obtain ⟨q1, s1⟩ := st
    rw [ih]; exact this

theorem pushTargets_measure {G : Graph T} (ids : List Nat) (q s : List Pred) :
    (pushTargets G ids (q, s)).1.length + unseen (adjacency G).nodes (pushTargets G ids (q, s)).2 =
      q.length + unseen (adjacency G).nodes s := by
  induction ids generalizing q s with
  | nil => rfl
  | cons id ids ih =>
    rw [pushTargets]
    cases hf : G.find id with
    | none => exact ih q s
    | some e0 =>
      simp only
      split
      · exact ih q s
      · rename_i ht
        split
        · rw [ih]
          have := unseen_cons (nodes_nodup G) (mem_nodes.2 (Or.inl ⟨e0, (Graph.find_mem hf).1, Or.inl rfl⟩)) ht
          simp only [List.length_cons]; omega
        · exact ih q s

theorem backwardLoop_terminates {G : Graph T} {fuel : Nat} {q s : List Pred}
    (h : q.length + unseen (adjacency G).nodes s ≤ fuel) : ∃ r, backwardLoop G (adjacency G) fuel q s = some r := by
  induction fuel generalizing q s with
  | zero =>
    cases q with
    | nil => exact ⟨s, rfl⟩
    | cons v q => simp at h
  | succ fuel ih =>
    cases q with
    | nil => exact ⟨s, rfl⟩
    | cons v q =>
      rw [backwardLoop]
      apply ih
      have := pushIncoming_measure (G := G) ((adjacency G).inEdges v) q s
      simp only [List.length_cons] at h
      omega

theorem forwardLoop_terminates {G : Graph T} {fuel : Nat} {q s : List Pred}
    (h : q.length + unseen (adjacency G).nodes s ≤ fuel) : ∃ r, forwardLoop G (adjacency G) fuel q s = some r := by
  induction fuel generalizing q s with
  | zero =>
    cases q with
    | nil => exact ⟨s, rfl⟩
    | cons v q => simp at h
  | succ fuel ih =>
    cases q with
    | nil => exact ⟨s, rfl⟩
    | cons v q =>
      rw [forwardLoop]
      apply ih
      have := pushTargets_measure (G := G) ((adjacency G).outEdges v) q s
      simp only [List.length_cons] at h
      omega

theorem unseen_le (nodes s : List Pred) : unseen nodes s ≤ nodes.length := List.length_filter_le _ _

/-- `computeBackwardUnreachable` always returns, with exactly the nodes that cannot reach the exit. -/
theorem computeBackward_exact {G : Graph T} (hG : G.IdsNodup) :
    ∃ bw, computeBackwardUnreachable G (adjacency G) = some bw ∧
      ∀ x, x ∈ bw ↔ G.Vertex x ∧ x ≠ .tru ∧ ¬ BackReach G x := by
  obtain ⟨r, hr⟩ := backwardLoop_terminates (G := G) (fuel := (adjacency G).nodes.length + 1) (q := [.fls])
    (s := [.tru, .fls]) (by have := unseen_le (adjacency G).nodes [.tru, .fls]; simp only [List.length_cons, List.length_nil]; omega)
  have hs := backwardLoop_spec hG (by simp) (by simp) (by simp) (by
      intro e _ ht
      simp only [List.mem_cons, List.not_mem_nil, or_false] at ht ⊢
      rcases ht with h | h
      · exact Or.inr (Or.inl h)
      · exact Or.inl h) (by
      intro x hx
      simp only [List.mem_cons, List.not_mem_nil, or_false] at hx
      rcases hx with rfl | rfl
      · exact Or.inl rfl
      · exact Or.inr .exit) hr
  refine ⟨_, by rw [computeBackwardUnreachable, hr]; rfl, ?_⟩
  intro x
  rw [List.mem_filter, mem_nodes]
  simp only [decide_eq_true_eq, hs]
  constructor
  · rintro ⟨h1 | h1 | h1, h2⟩
    · exact ⟨h1, fun h => h2 (Or.inl h), fun h => h2 (Or.inr h)⟩
    · exact absurd (Or.inl h1) h2
    · exact absurd (Or.inr (h1 ▸ .exit)) h2
  · rintro ⟨h1, h2, h3⟩
    exact ⟨Or.inl h1, fun h => h.elim h2 h3⟩

theorem computeForward_exact {G : Graph T} (hG : G.IdsNodup) (hne : ∀ e ∈ G, e.src ≠ []) :
    ∃ fw, computeForwardUnreachable G (adjacency G) = some fw ∧
      ∀ x, x ∈ fw ↔ (G.Vertex x ∨ x = .fls) ∧ ¬ FwdReach G x := by
  obtain ⟨r, hr⟩ := forwardLoop_terminates (G := G) (fuel := (adjacency G).nodes.length + 1) (q := [.tru])
    (s := [.tru]) (by have := unseen_le (adjacency G).nodes [.tru]; simp only [List.length_cons, List.length_nil]; omega)
  have hs := forwardLoop_spec hG hne (by simp) (by simp) (by
      intro e he h
      cases hsrc : e.src with
      | nil => exact absurd hsrc (hne e he)
      | cons a l =>
        have := h a (by rw [hsrc]; simp)
        exact absurd this.1 this.2) (by
      intro x hx
      simp at hx; subst hx; exact .entry) hr
  refine ⟨_, by rw [computeForwardUnreachable, hr]; rfl, ?_⟩
  intro x
  rw [List.mem_filter, mem_nodes]
  simp only [decide_eq_true_eq, hs]
  constructor
  · rintro ⟨h1 | h1 | h1, h2⟩
    · exact ⟨Or.inl h1, h2⟩
    · exact absurd (h1 ▸ .entry) h2
    · exact ⟨Or.inr h1, h2⟩
  · rintro ⟨h1 | h1, h2⟩
    · exact ⟨Or.inl h1, h2⟩
    · exact ⟨Or.inr (Or.inr h1), h2⟩

/-! ### deleting nodes -/

theorem mem_deleteNodes {ps : List Pred} {G : Graph T} {e : Edge T} :
    e ∈ ps.foldl deleteNode G ↔ e ∈ G ∧ e.tgt ∉ ps ∧ ∀ s ∈ e.src, s ∉ ps := by
  induction ps generalizing G with
  | nil => simp
  | cons p ps ih =>
    rw [List.foldl_cons, ih]
    simp only [deleteNode, List.mem_filter, decide_eq_true_eq, List.mem_cons, not_or]
    constructor
    · rintro ⟨⟨h1, h2, h3⟩, h4, h5⟩
      exact ⟨h1, ⟨h2, h4⟩, fun s hs => ⟨fun h => h3 (h ▸ hs), h5 s hs⟩⟩
    · rintro ⟨h1, ⟨h2, h4⟩, h5⟩
      exact ⟨⟨h1, h2, fun h => (h5 p h).1 rfl⟩, h4, fun s hs => (h5 s hs).2⟩

theorem deleteNodes_ids {ps : List Pred} {G : Graph T} (hG : G.IdsNodup) : Graph.IdsNodup (ps.foldl deleteNode G) := by
  induction ps generalizing G with
  | nil => exact hG
  | cons p ps ih => exact ih (List.Nodup.sublist (List.filter_sublist.map _) hG)

theorem Defs.get_insertNew (D : Defs T) (p q : Pred) (d : Fla T) :
    (D.insertNew p d).get q = if q = p ∧ D.get p = none then some d else D.get q := by
  unfold Defs.insertNew
  split
  · rename_i v h; rw [h]; simp
  · rename_i h
    rw [Defs.get_append, Defs.get_cons, Defs.get_nil, h]
    by_cases hq : q = p
    · subst hq; simp [h]
    · simp [hq]

theorem Defs.get_foldl_insert (ps : List Pred) (d : Fla T) (D : Defs T) (q : Pred) :
    (ps.foldl (fun D p => D.insertNew p d) D).get q =
      if q ∈ ps ∧ D.get q = none then some d else D.get q := by
  induction ps generalizing D with
  | nil => simp
  | cons p ps ih =>
    rw [List.foldl_cons, ih, Defs.get_insertNew]
    by_cases hq : q = p
    · subst hq
      cases hD : D.get q <;> simp
    · simp only [hq, false_and, if_false, List.mem_cons, false_or]

/-- Definition of a predicate after back-translation. -/
theorem unreachableBack_get (fw bw : List Pred) (D : Defs T) (q : Pred) :
    ((unreachableBack fw bw).safe D).get q =
      match D.get q with
      | some d => some d
      | none => if q ∈ bw then some .tt else if q ∈ fw then some .ff else none := by
  simp only [unreachableBack, Defs.get_foldl_insert]
  cases D.get q with
  | some d => simp
  | none =>
    by_cases h1 : q ∈ bw <;> by_cases h2 : q ∈ fw <;> simp [h1, h2]

end Golem
