import Verif.Lemmas.ArgTree

/-! Labels of interpolation trees. -/

namespace Golem
variable {T : Theory}

/-- All pairs of the substitution that makes a label. -/
def paPairs (R : PRepr) (tree : List (PaTree T)) (vers : List (Nat × Nat)) (n : Nat) (e : Edge T) : List (Var × Var) :=
  paSubst R tree vers n e ++
    (firstOcc (e.fla.vars.filter fun x => decide (List.lookup x (paSubst R tree vers n e) = none))).map fun x => (x, paAux n x)

/-- The renaming that makes a label. -/
def paRen (R : PRepr) (tree : List (PaTree T)) (vers : List (Nat × Nat)) (n : Nat) (e : Edge T) (x : Var) : Var :=
  (List.lookup x (paPairs R tree vers n e)).getD x

theorem lookup_map_var (l : List (Var × Var)) (x : Var) :
    List.lookup x (l.map fun p => (p.1, (Tm.var p.2 : Tm T))) = (List.lookup x l).map Tm.var := by
  induction l with
  | nil => rfl
  | cons a l ih =>
    obtain ⟨y, z⟩ := a
    simp only [List.map_cons, List.lookup_cons]
    cases (x == y) <;> simp [ih]

theorem paLabel_eq (R : PRepr) (tree : List (PaTree T)) (vers : List (Nat × Nat)) (n : Nat) (e : Edge T) :
    paLabel R tree vers n e = e.fla.rename (paRen R tree vers n e) := by
  unfold paLabel varSubstitute Fla.rename
  simp only
  congr 1
  funext x
  unfold SubstMap.fn SubstMap.find
  rw [lookup_map_var]
  show _ = Tm.var (paRen R tree vers n e x)
  unfold paRen paPairs
  cases List.lookup x (paSubst R tree vers n e ++
    (firstOcc (e.fla.vars.filter fun x => decide (List.lookup x (paSubst R tree vers n e) = none))).map fun x => (x, paAux n x)) <;> simp

theorem zip_map_fst {α β : Type} : ∀ {l : List α} {l' : List β}, l.length = l'.length → (l.zip l').map Prod.fst = l := by
  intro l
  induction l with
  | nil => intro l' _; simp
  | cons a l ih =>
    intro l' h
    cases l' with
    | nil => simp at h
    | cons b l' => simp [ih (by simpa using h)]

theorem lookup_none_iff {α β : Type} [DecidableEq α] {l : List (α × β)} {a : α} : List.lookup a l = none ↔ a ∉ l.map Prod.fst := by
  induction l with
  | nil => simp
  | cons x l ih =>
    rw [List.lookup_cons]
    by_cases h : a = x.1
    · simp [h]
    · have hb : (a == x.1) = false := by simpa using h
      rw [hb]
      simp [ih, h]

theorem srcPart_keys (R : PRepr) (vers : List (Nat × Nat)) (l : List (Nat × Pred × Nat)) :
    (l.flatMap fun c => (R.srcVars c.2.1 c.2.2).zip (R.verVars c.2.1 (paVersion vers c.1))).map Prod.fst = R.keys (l.map Prod.snd) := by
  induction l with
  | nil => rfl
  | cons a l ih =>
    simp only [List.flatMap_cons, List.map_append, ih, List.map_cons, PRepr.keys]
    rw [zip_map_fst (by simp [PRepr.srcVars, PRepr.verVars])]

theorem paSubst_keys {R : PRepr} (hR : R.WF) (tree : List (PaTree T)) (vers : List (Nat × Nat)) (n : Nat) (e : Edge T) :
    ((paSubst R tree vers n e).map Prod.fst).Nodup ∧ ∀ m, .base m ∉ (paSubst R tree vers n e).map Prod.fst := by
  have hs : (((paChildren tree n).zip (instances e.src)).map Prod.snd).Sublist (instances e.src) := by
    generalize paChildren tree n = l
    generalize instances e.src = l'
    induction l generalizing l' with
    | nil => simp
    | cons a l ih =>
      cases l' with
      | nil => simp
      | cons b l' => simpa using ih l'
  have hk := R.keys_nodup hR ((instances_nodup e.src).sublist hs)
  unfold paSubst
  rw [List.map_append, srcPart_keys]
  have ht : (if e.tgt = .fls then [] else (R.tgtVars e.tgt).zip (R.verVars e.tgt (paVersion vers n))).map Prod.fst =
      if e.tgt = .fls then [] else R.tgtVars e.tgt := by
    split
    · rfl
    · exact zip_map_fst (by simp [PRepr.tgtVars, PRepr.verVars])
  rw [ht]
  constructor
  · rw [List.nodup_append]
    refine ⟨?_, hk, ?_⟩
    · split
      · exact List.nodup_nil
      · exact R.tgtVars_nodup hR _
    · intro x hx y hy he
      subst he
      split at hx
      · simp at hx
      · obtain ⟨_, _, rfl⟩ := R.mem_tgtVars.1 hx
        simp only [PRepr.keys, List.mem_flatMap] at hy
        obtain ⟨q, _, hq⟩ := hy
        obtain ⟨_, _, e⟩ := R.mem_srcVars.1 hq
        cases e
  · intro m hm
    rcases List.mem_append.1 hm with hm | hm
    · split at hm
      · simp at hm
      · obtain ⟨_, _, e⟩ := R.mem_tgtVars.1 hm
        cases e
    · simp only [PRepr.keys, List.mem_flatMap] at hm
      obtain ⟨q, _, hq⟩ := hm
      obtain ⟨_, _, e⟩ := R.mem_srcVars.1 hq
      cases e

theorem paPairs_keys {R : PRepr} (hR : R.WF) (tree : List (PaTree T)) (vers : List (Nat × Nat)) (n : Nat) (e : Edge T) :
    ((paPairs R tree vers n e).map Prod.fst).Nodup := by
  unfold paPairs
  rw [List.map_append, List.map_map]
  have : (Prod.fst ∘ fun x => (x, paAux n x)) = (id : Var → Var) := rfl
  rw [this, List.map_id, List.nodup_append]
  refine ⟨(paSubst_keys hR tree vers n e).1, firstOcc_nodup _, fun x hx y hy he => ?_⟩
  subst he
  have := (List.mem_filter.1 (mem_firstOcc.1 hy)).2
  simp only [decide_eq_true_eq] at this
  exact lookup_none_iff.1 this hx

theorem paRen_of_mem {R : PRepr} (hR : R.WF) {tree : List (PaTree T)} {vers : List (Nat × Nat)} {n : Nat} {e : Edge T} {x y : Var}
    (h : (x, y) ∈ paPairs R tree vers n e) : paRen R tree vers n e x = y := by
  unfold paRen
  rw [lookup_of_nodup (paPairs_keys hR tree vers n e) h]
  rfl

theorem mem_zip_map {α β γ : Type} {f : α → β} {g : α → γ} : ∀ {l : List α} {a : α}, a ∈ l → (f a, g a) ∈ (l.map f).zip (l.map g) := by
  intro l
  induction l with
  | nil => intro a h; simp at h
  | cons b l ih =>
    intro a h
    rcases List.mem_cons.1 h with rfl | h
    · simp
    · simp [ih h]

section
variable {R : PRepr} {tree : List (PaTree T)} {vers : List (Nat × Nat)} {n : Nat} {e : Edge T}

theorem ren_tgt (hR : R.WF) {a : Name} (ha : a ∈ R.args e.tgt) : paRen R tree vers n e (.tgt a) = .ver a (paVersion vers n) := by
  refine paRen_of_mem hR (List.mem_append_left _ (List.mem_append_left _ ?_))
  have hne : e.tgt ≠ .fls := by
    intro h; rw [h, hR.fls] at ha; simp at ha
  rw [if_neg hne]
  exact mem_zip_map ha

theorem ren_src (hR : R.WF) {a : Name} {j c i : Nat} {p : Pred} (hc : (paChildren tree n)[j]? = some c)
    (hi : (instances e.src)[j]? = some (p, i)) (ha : a ∈ R.args p) : paRen R tree vers n e (.src a i) = .ver a (paVersion vers c) := by
  refine paRen_of_mem hR (List.mem_append_left _ (List.mem_append_right _ ?_))
  rw [List.mem_flatMap]
  refine ⟨(c, p, i), ?_, ?_⟩
  · refine List.mem_of_getElem? (i := j) ?_
    rw [List.getElem?_zip_eq_some]
    exact ⟨hc, hi⟩
  · exact mem_zip_map (f := fun a => Var.src a i) ha

theorem ren_aux (hR : R.WF) {k : Nat} (h : Var.base (.paux k) ∈ e.fla.vars) :
    paRen R tree vers n e (.base (.paux k)) = .ver (.paux k) n := by
  refine paRen_of_mem hR (List.mem_append_right _ ?_)
  refine List.mem_map.2 ⟨.base (.paux k), ?_, rfl⟩
  rw [mem_firstOcc, List.mem_filter]
  refine ⟨h, ?_⟩
  simp only [decide_eq_true_eq]
  exact lookup_none_iff.2 ((paSubst_keys hR tree vers n e).2 _)

end

section
variable {R : PRepr} {G : Graph T} {tree : List (PaTree T)}

/-- The fact of the instance at a node. -/
def treeFact (R : PRepr) (tree : List (PaTree T)) (ρ : Valuation T) (n : Nat) : Fact T :=
  (tgtAt tree n, (R.verVars (tgtAt tree n) (paVersion (paVersions tree) n)).map ρ)

theorem paFact_eq (hR : R.WF) (h : PaTreeOk G tree) {ρ : Valuation T} {n : Nat} {t : PaTree T} (ht : tree[n]? = some t) :
    paFact R tree ρ n t = treeFact R tree ρ n := by
  unfold paFact treeFact
  rw [tgtAt_eq ht]
  split
  · rename_i hp
    have := (h.tgt_fls ht).2 ((h.parent_none ht).1 hp)
    rw [this]
    simp [falseFact, PRepr.verVars, hR.fls]
  · rfl

/-- The facts a node's clause is applied to. -/
def bodyFacts (R : PRepr) (tree : List (PaTree T)) (ρ : Valuation T) (n : Nat) : List (Fact T) :=
  if paChildren tree n = [] then [trueFact] else (paChildren tree n).map (treeFact R tree ρ)

/-- A valuation of the label of a node is an application of the node's clause to the facts of its children. -/
theorem label_fires (hG : PaGraph R G) (h : PaTreeOk G tree) {ρ : Valuation T} {n : Nat} {t : PaTree T} (ht : tree[n]? = some t)
    (hl : (paLabel R tree (paVersions tree) n t.clause).holds ρ) : t.clause.Fires R (bodyFacts R tree ρ n) (treeFact R tree ρ n) := by
  rw [paLabel_eq, Fla.holds_rename] at hl
  refine ⟨_, hl, ?_, ?_⟩
  · have hm := h.clause n t ht
    unfold bodyFacts Edge.srcFacts
    rcases h.kids n t ht with ⟨h1, h2⟩ | ⟨h1, h2⟩
    · rw [if_pos h2, h1]
      simp [instances, instancesAux, PRepr.srcVars, hG.wf.tru, trueFact]
    · have hne : paChildren tree n ≠ [] := by
        intro e; rw [e] at h2; exact hG.srcNe _ hm h2.symm
      rw [if_neg hne]
      apply List.ext_getElem?
      intro j
      rw [List.getElem?_map, List.getElem?_map]
      have hlen : (paChildren tree n).length = (instances t.clause.src).length := by
        rw [instances_length, ← h2, List.length_map]
      cases hc : (paChildren tree n)[j]? with
      | none =>
        rw [List.getElem?_eq_none_iff] at hc
        rw [List.getElem?_eq_none_iff.2 (by omega)]; rfl
      | some c =>
        have hj := List.getElem?_lt hc
        obtain ⟨⟨p, i⟩, hi⟩ : ∃ q, (instances t.clause.src)[j]? = some q := ⟨(instances t.clause.src)[j], by simp [← hlen, hj]⟩
        rw [hi]
        have hp : tgtAt tree c = p := by
          have e1 : ((paChildren tree n).map (tgtAt tree))[j]? = some (tgtAt tree c) := by rw [List.getElem?_map, hc]; rfl
          have e2 : ((instances t.clause.src).map Prod.fst)[j]? = some p := by rw [List.getElem?_map, hi]; rfl
          rw [instances_fst, ← h2, e1] at e2
          exact Option.some.inj e2
        simp only [Option.map_some, Option.some.injEq, treeFact, hp]
        rw [Prod.mk.injEq]
        refine ⟨rfl, ?_⟩
        simp only [PRepr.verVars, PRepr.srcVars, List.map_map]
        refine List.map_congr_left fun a ha => ?_
        simp only [Function.comp]
        rw [ren_src hG.wf hc hi ha]
  · unfold treeFact Edge.tgtFact
    rw [tgtAt_eq ht, Prod.mk.injEq]
    refine ⟨rfl, ?_⟩
    simp only [PRepr.verVars, PRepr.tgtVars, List.map_map]
    refine List.map_congr_left fun a ha => ?_
    simp only [Function.comp]
    rw [ren_tgt hG.wf ha]

/-- The instance of a node that a variable belongs to. -/
def OfInst (R : PRepr) (tree : List (PaTree T)) (c : Nat) (x : Var) : Prop :=
  ∃ a ∈ R.args (tgtAt tree c), x = .ver a (paVersion (paVersions tree) c)

/-- The variables of a label: those of the node's instance, those of its children, and own auxiliary variables. -/
theorem label_vars (hG : PaGraph R G) (h : PaTreeOk G tree) {n : Nat} {t : PaTree T} (ht : tree[n]? = some t) {x : Var}
    (hx : x ∈ (paLabel R tree (paVersions tree) n t.clause).vars) :
    (n ≠ 0 ∧ OfInst R tree n x) ∨ (∃ c ∈ paChildren tree n, OfInst R tree c x) ∨ ∃ k, x = .ver (.paux k) n := by
  rw [paLabel_eq, Fla.mem_vars_rename] at hx
  obtain ⟨y, hy, rfl⟩ := hx
  rcases hG.label _ (h.clause n t ht) y hy with ho | ⟨k, rfl⟩
  · rcases mem_own.1 ho with ⟨⟨p, i⟩, hq, hs⟩ | hs
    · obtain ⟨a, ha, rfl⟩ := R.mem_srcVars.1 hs
      simp only at ha
      obtain ⟨j, hj⟩ := List.getElem?_of_mem hq
      right; left
      rcases h.kids n t ht with ⟨h1, _⟩ | ⟨_, h2⟩
      · rw [h1] at hq
        simp [instances, instancesAux] at hq
        rw [hq.1, hG.wf.tru] at ha; simp at ha
      · have hlen : (paChildren tree n).length = (instances t.clause.src).length := by
          rw [instances_length, ← h2, List.length_map]
        have hj' := List.getElem?_lt hj
        obtain ⟨c, hc⟩ : ∃ c, (paChildren tree n)[j]? = some c := ⟨(paChildren tree n)[j], by simp [hlen, hj']⟩
        have hp : tgtAt tree c = p := by
          have e1 : ((paChildren tree n).map (tgtAt tree))[j]? = some (tgtAt tree c) := by rw [List.getElem?_map, hc]; rfl
          have e2 : ((instances t.clause.src).map Prod.fst)[j]? = some p := by rw [List.getElem?_map, hj]; rfl
          rw [instances_fst, ← h2, e1] at e2
          exact Option.some.inj e2
        refine ⟨c, List.mem_of_getElem? hc, a, by rw [hp]; exact ha, ?_⟩
        exact ren_src hG.wf hc hj ha
    · obtain ⟨a, ha, rfl⟩ := R.mem_tgtVars.1 hs
      left
      refine ⟨?_, a, by rw [tgtAt_eq ht]; exact ha, ren_tgt hG.wf ha⟩
      rintro rfl
      rw [(h.tgt_fls ht).2 rfl, hG.wf.fls] at ha
      simp at ha
  · right; right
    exact ⟨k, ren_aux hG.wf hy⟩

/-- A variable belongs to at most one instance, and auxiliary variables to none. -/
theorem ofInst_inj (hG : PaGraph R G) (h : PaTreeOk G tree) {c c' : Nat} {x : Var} (hc : 0 < c) (hc' : 0 < c') (hl : c < tree.length)
    (hl' : c' < tree.length) (h1 : OfInst R tree c x) (h2 : OfInst R tree c' x) : c = c' := by
  obtain ⟨a, ha, rfl⟩ := h1
  obtain ⟨b, hb, e⟩ := h2
  rw [Var.ver.injEq] at e
  obtain ⟨rfl, e2⟩ := e
  refine h.version_inj hc hc' hl hl' ?_ (by exact_mod_cast e2)
  apply Classical.byContradiction
  intro hne
  exact hG.wf.disjoint _ _ hne _ ha hb

theorem ofInst_aux (hG : PaGraph R G) {c k n : Nat} (h : OfInst R tree c (.ver (.paux k) n)) : False := by
  obtain ⟨a, ha, e⟩ := h
  rw [Var.ver.injEq] at e
  rw [← e.1] at ha
  exact hG.fresh k _ ha

end
end Golem
