import Verif.Model.Graph
import Verif.Lemmas.Chc

namespace Golem
variable {T : Theory}

theorem instancesAux_fst (seen src : List Pred) : (instancesAux seen src).map Prod.fst = src := by
  induction src generalizing seen with
  | nil => rfl
  | cons p ps ih => simp [instancesAux, ih]

theorem instances_fst (src : List Pred) : (instances src).map Prod.fst = src := instancesAux_fst _ _

theorem instancesAux_length (seen src : List Pred) : (instancesAux seen src).length = src.length := by
  rw [← List.length_map (f := Prod.fst), instancesAux_fst]

theorem instances_length (src : List Pred) : (instances src).length = src.length := instancesAux_length _ _

theorem instancesAux_ge {seen src : List Pred} {q : Pred × Nat} (h : q ∈ instancesAux seen src) :
    seen.count q.1 ≤ q.2 := by
  induction src generalizing seen with
  | nil => simp [instancesAux] at h
  | cons p ps ih =>
    simp only [instancesAux, List.mem_cons] at h
    rcases h with h | h
    · subst h; exact Nat.le_refl _
    · have := ih h
      refine Nat.le_trans ?_ this
      rw [List.count_cons]
      omega

theorem instancesAux_nodup (seen src : List Pred) : (instancesAux seen src).Nodup := by
  induction src generalizing seen with
  | nil => simp [instancesAux]
  | cons p ps ih =>
    simp only [instancesAux, List.nodup_cons]
    refine ⟨?_, ih _⟩
    intro h
    have := instancesAux_ge h
    simp at this
    omega

theorem instances_nodup (src : List Pred) : (instances src).Nodup := instancesAux_nodup _ _

theorem mem_of_mem_instances {src : List Pred} {q : Pred × Nat} (h : q ∈ instances src) : q.1 ∈ src := by
  rw [← instances_fst src]; exact List.mem_map_of_mem h

theorem PRepr.srcVars_nodup {R : PRepr} (hR : R.WF) (p : Pred) (i : Nat) : (R.srcVars p i).Nodup := by
  unfold PRepr.srcVars
  exact (List.nodup_map_iff_of_inj (fun a b h => by cases h; rfl)).2 (hR.nodup p)
where
  List.nodup_map_iff_of_inj {α β : Type} {f : α → β} {l : List α} (hf : ∀ a b, f a = f b → a = b) :
    (l.map f).Nodup ↔ l.Nodup := by
    induction l with
    | nil => simp
    | cons a l ih =>
      simp only [List.map_cons, List.nodup_cons, ih, List.mem_map]
      constructor
      · rintro ⟨h1, h2⟩; exact ⟨fun h => h1 ⟨a, h, rfl⟩, h2⟩
      · rintro ⟨h1, h2⟩; exact ⟨fun ⟨b, hb, h⟩ => h1 (hf _ _ h ▸ hb), h2⟩

theorem nodup_map_of_inj {α β : Type} {f : α → β} {l : List α} (hf : ∀ a b, f a = f b → a = b) (h : l.Nodup) :
    (l.map f).Nodup := (PRepr.srcVars_nodup.List.nodup_map_iff_of_inj hf).2 h

theorem PRepr.tgtVars_nodup {R : PRepr} (hR : R.WF) (p : Pred) : (R.tgtVars p).Nodup :=
  nodup_map_of_inj (fun _ _ h => by cases h; rfl) (hR.nodup p)

theorem PRepr.baseVars_nodup {R : PRepr} (hR : R.WF) (p : Pred) : (R.baseVars p).Nodup :=
  nodup_map_of_inj (fun _ _ h => by cases h; rfl) (hR.nodup p)

theorem PRepr.mem_srcVars {R : PRepr} {p : Pred} {i : Nat} {x : Var} :
    x ∈ R.srcVars p i ↔ ∃ n ∈ R.args p, x = .src n i := by
  simp [PRepr.srcVars, eq_comm]

theorem PRepr.mem_tgtVars {R : PRepr} {p : Pred} {x : Var} : x ∈ R.tgtVars p ↔ ∃ n ∈ R.args p, x = .tgt n := by
  simp [PRepr.tgtVars, eq_comm]

theorem PRepr.mem_baseVars {R : PRepr} {p : Pred} {x : Var} : x ∈ R.baseVars p ↔ ∃ n ∈ R.args p, x = .base n := by
  simp [PRepr.baseVars, eq_comm]

/-- Source variables of different (predicate, instance) pairs are disjoint. -/
theorem PRepr.srcVars_disjoint {R : PRepr} (hR : R.WF) {p q : Pred} {i j : Nat} (h : (p, i) ≠ (q, j)) {x : Var}
    (hx : x ∈ R.srcVars p i) : x ∉ R.srcVars q j := by
  intro hy
  obtain ⟨n, hn, rfl⟩ := R.mem_srcVars.1 hx
  obtain ⟨m, hm, e⟩ := R.mem_srcVars.1 hy
  cases e
  by_cases hpq : p = q
  · exact h (by rw [hpq])
  · exact hR.disjoint p q hpq n hn hm

theorem PRepr.keys_nodup {R : PRepr} (hR : R.WF) {qs : List (Pred × Nat)} (h : qs.Nodup) : (R.keys qs).Nodup := by
  induction qs with
  | nil => simp [PRepr.keys]
  | cons q qs ih =>
    obtain ⟨hq, hqs⟩ := List.nodup_cons.1 h
    simp only [PRepr.keys, List.flatMap_cons]
    rw [List.nodup_append]
    refine ⟨R.srcVars_nodup hR _ _, ih hqs, ?_⟩
    intro a ha b hb hab
    subst hab
    rw [List.mem_flatMap] at hb
    obtain ⟨q', hq', hb⟩ := hb
    refine R.srcVars_disjoint hR (p := q.1) (i := q.2) (q := q'.1) (j := q'.2) ?_ ha hb
    intro e
    have : q = q' := e
    exact hq (this ▸ hq')

theorem graphRules_mono {R : PRepr} {G G' : Graph T} (h : ∀ e ∈ G, e ∈ G') {r : GRule T} (hr : graphRules R G r) :
    graphRules R G' r := by
  obtain ⟨e, he, ρ, h1, h2⟩ := hr
  exact ⟨e, h e he, ρ, h1, h2⟩

theorem Graph.find_mem {G : Graph T} {id : Nat} {e : Edge T} (h : G.find id = some e) : e ∈ G ∧ e.id = id := by
  unfold Graph.find at h
  exact ⟨List.mem_of_find?_eq_some h, by simpa using List.find?_some h⟩

/-- Lookup in a substitution with distinct keys. -/
theorem SubstMap.fn_of_mem {m : SubstMap T} (hn : (m.map Prod.fst).Nodup) {x : Var} {t : Tm T} (h : (x, t) ∈ m) :
    m.fn x = t := by
  unfold SubstMap.fn
  have hs := SubstMap.find_isSome_of_mem h
  obtain ⟨t', ht'⟩ := Option.isSome_iff_exists.1 hs
  rw [ht']
  have hm := SubstMap.find_some_mem ht'
  have : t' = t := by
    clear hs ht'
    induction m with
    | nil => simp at h
    | cons p m ih =>
      simp only [List.map_cons, List.nodup_cons] at hn
      rcases List.mem_cons.1 h with h1 | h1 <;> rcases List.mem_cons.1 hm with h2 | h2
      · rw [← h1] at h2; cases h2; rfl
      · exact absurd (List.mem_map_of_mem (f := Prod.fst) h2) (by rw [← h1] at hn; exact hn.1)
      · exact absurd (List.mem_map_of_mem (f := Prod.fst) h1) (by rw [← h2] at hn; exact hn.1)
      · exact ih hn.2 h1 h2
  simp [this]

end Golem
