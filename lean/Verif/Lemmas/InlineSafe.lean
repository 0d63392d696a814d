import Verif.Lemmas.InlineItp

/-! The edge inliner: the translation of SAFE witnesses. -/

namespace Golem
variable {T : Theory}

theorem SafeFlex.good {R : PRepr} {G : Graph T} {D : Defs T} (h : SafeFlex R G D) : SafeGood R G D :=
  ⟨⟨h.closed, h.tru, h.fls, h.model _ fun _ _ => Iff.rfl⟩, h.only⟩

/-- A model on the facts of the vertices is a model. -/
theorem isModel_agree {R : PRepr} {G : Graph T} {M N : Fact T → Prop} (hN : IsModel (graphRules R G) N)
    (h : ∀ f, (G.Vertex f.1 ∨ f.1 = .tru ∨ f.1 = .fls) → (M f ↔ N f)) : IsModel (graphRules R G) M := by
  refine ⟨⟨(h _ (.inr (.inl rfl))).2 hN.1.1, ?_⟩, fun hf => hN.2 ((h _ (.inr (.inr rfl))).1 hf)⟩
  rintro ⟨b, hd⟩ hr hb
  obtain ⟨e, he, hfire⟩ := graphRules_iff.1 hr
  simp only at hb hfire ⊢
  rw [h hd (.inl (by rw [hfire.tgt]; exact vertex_tgt he))]
  refine hN.1.2 ⟨b, hd⟩ hr fun f hf => ?_
  refine (h f (.inl (vertex_src he ?_))).1 (hb f hf)
  rw [← hfire.src]
  exact List.mem_map_of_mem hf

/-- A complete witness is one. -/
theorem SafeWitness.flex {R : PRepr} {G : Graph T} {D : Defs T} (h : SafeWitness R G D) : SafeFlex R G D := by
  refine ⟨h.closed, h.tru, h.fls, h.only, fun M hM => isModel_agree h.model ?_⟩
  rintro f (hf | hf | hf)
  · exact hM f (h.complete _ hf)
  · exact hM f (by rw [hf, h.tru]; rfl)
  · exact hM f (by rw [hf, h.fls]; rfl)

theorem SafeFlex.complete {R : PRepr} {G : Graph T} {D : Defs T} (h : SafeFlex R G D) (hc : ∀ p, G.Vertex p → (D.get p).isSome) :
    SafeWitness R G D := ⟨h.good.toSafeModel, hc, h.only⟩

/-- Strengthening the definition of one vertex, to get rid of an edge that leaves it. -/
theorem flex_strengthen {R : PRepr} {G G' : Graph T} {v : Pred} {e : Edge T} (hv : v ≠ .tru ∧ v ≠ .fls) (hs : e.src = [v])
    (hrest : ∀ q ∈ G, q ≠ e → q ∈ G') {D D2 : Defs T} (hD : SafeFlex R G' D) {I Mv : Fact T → Prop}
    (hDv : (D.get v).isSome → ∀ f, f.1 = v → (Mv f ↔ D.interp R f))
    (hget : ∀ p, p ≠ v → (D.get p).isSome → D2.get p = D.get p)
    (h2v : (D2.get v).isSome) (h2 : ∀ f, f.1 = v → (D2.interp R f ↔ Mv f ∧ I f))
    (hin : ∀ M, D.AgreesWith R M → (∀ f, f.1 = v → (M f ↔ Mv f)) → ∀ q ∈ G, q.tgt = v → ∀ b f, q.Fires R b f →
      (∀ g ∈ b, M g) → I f)
    (hout : ∀ M, D.AgreesWith R M → (∀ f, f.1 = v → (M f ↔ Mv f)) → ∀ f g, e.Fires R [f] g → M f → I f → M g)
    (M2 : Fact T → Prop) (hM2 : D2.AgreesWith R M2) : IsModel (graphRules R G) M2 := by
  let M : Fact T → Prop := fun f => if f.1 = v then Mv f else M2 f
  have hMv : ∀ f, f.1 = v → (M f ↔ Mv f) := fun f hf => by show (if f.1 = v then _ else _) ↔ _; rw [if_pos hf]
  have hMn : ∀ f, f.1 ≠ v → (M f ↔ M2 f) := fun f hf => by show (if f.1 = v then _ else _) ↔ _; rw [if_neg hf]
  have hagree : D.AgreesWith R M := by
    intro f hf
    by_cases hfv : f.1 = v
    · rw [hMv f hfv]
      exact hDv (hfv ▸ hf) f hfv
    · rw [hMn f hfv]
      have := hget _ hfv hf
      rw [hM2 f (by rw [this]; exact hf)]
      exact interp_of_get this
  have hmodel := hD.model M hagree
  have hM2v : ∀ f, f.1 = v → (M2 f ↔ M f ∧ I f) := by
    intro f hf
    rw [hM2 f (by rw [hf]; exact h2v), h2 f hf, hMv f hf]
  have hle : ∀ f, M2 f → M f := by
    intro f h
    by_cases hf : f.1 = v
    · exact ((hM2v f hf).1 h).1
    · exact (hMn f hf).2 h
  refine ⟨⟨(hMn trueFact (Ne.symm hv.1)).1 hmodel.1.1, ?_⟩, fun h => hmodel.2 (hle _ h)⟩
  rintro ⟨b, hd⟩ hr hb
  obtain ⟨q, hq, hfire⟩ := graphRules_iff.1 hr
  simp only at hb hfire ⊢
  have hMd : M hd := by
    by_cases hqe : q = e
    · subst hqe
      obtain ⟨f, rfl, hf⟩ := fires_one hfire hs
      have := (hM2v f hf).1 (hb f (by simp))
      exact hout M hagree hMv f hd hfire this.1 this.2
    · exact hmodel.1.2 ⟨b, hd⟩ (hfire.rule (hrest q hq hqe)) fun g hg => hle g (hb g hg)
  by_cases hdv : hd.1 = v
  · rw [hM2v hd hdv]
    exact ⟨hMd, hin M hagree hMv q hq (hfire.tgt.symm.trans hdv) b hd hfire fun g hg => hle g (hb g hg)⟩
  · exact (hMn hd hdv).1 hMd

/-! ### Conjoining to a definition -/

theorem Defs.get_set {D : Defs T} {p q : Pred} {d : Fla T} :
    (D.set p d).get q = if q = p ∧ (D.get p).isSome then some d else D.get q := by
  unfold Defs.set Defs.get
  induction D with
  | nil => simp
  | cons a D ih =>
    obtain ⟨r, x⟩ := a
    simp only [List.map_cons]
    by_cases hr : r = p
    · subst hr
      simp only [if_true, List.lookup_cons]
      by_cases hq : q = r
      · subst hq; simp
      · have : (q == r) = false := by simpa using hq
        simp only [this, ih]
        simp [hq]
    · have hpr : (p == r) = false := by simpa using Ne.symm hr
      simp only [hr, if_false, List.lookup_cons, hpr]
      by_cases hq : q = r
      · subst hq
        simp [hr]
      · have : (q == r) = false := by simpa using hq
        simp only [this, ih]

/-- The facts of `v` that satisfy a formula over its arguments. -/
def FlaOf (R : PRepr) (v : Pred) (d : Fla T) (f : Fact T) : Prop := ∃ ρ : Valuation T, (R.baseVars v).map ρ = f.2 ∧ d.holds ρ

theorem interp_flaOf {R : PRepr} {D : Defs T} {v : Pred} {d : Fla T} (h : D.get v = some d) {f : Fact T} (hf : f.1 = v) :
    D.interp R f ↔ FlaOf R v d f := by
  unfold Defs.interp FlaOf
  subst hf
  rw [h]
  simp

theorem holds_of_base {R : PRepr} {v : Pred} {d : Fla T} (hd : ∀ x ∈ d.vars, x ∈ R.baseVars v) {ρ ρ' : Valuation T}
    (h : (R.baseVars v).map ρ = (R.baseVars v).map ρ') : d.holds ρ ↔ d.holds ρ' :=
  Fla.holds_congr fun x hx => List.map_inj_left.1 h x (hd x hx)

theorem flaOf_and {R : PRepr} {v : Pred} {d i : Fla T} (hi : ∀ x ∈ i.vars, x ∈ R.baseVars v) {f : Fact T} :
    FlaOf R v (.and d i) f ↔ FlaOf R v d f ∧ FlaOf R v i f := by
  constructor
  · rintro ⟨ρ, h1, h2⟩
    rw [Fla.holds_and] at h2
    exact ⟨⟨ρ, h1, h2.1⟩, ⟨ρ, h1, h2.2⟩⟩
  · rintro ⟨⟨ρ, h1, h2⟩, ⟨ρ', h1', h2'⟩⟩
    exact ⟨ρ, h1, (Fla.holds_and ..).2 ⟨h2, (holds_of_base hi (h1'.trans h1.symm)).1 h2'⟩⟩

theorem flaOf_tgt {R : PRepr} (hR : R.WF) {v : Pred} {i : Fla T} {ρ : Valuation T}
    (h : ∀ ρ', (R.baseVars v).map ρ' = (R.tgtVars v).map ρ → i.holds ρ') : FlaOf R v i (v, (R.tgtVars v).map ρ) := by
  obtain ⟨ρ', hρ'⟩ := exists_valuation (T := T) (R.baseVars_nodup hR v) (vs := (R.tgtVars v).map ρ)
    (by simp [PRepr.baseVars, PRepr.tgtVars])
  exact ⟨ρ', hρ', h ρ' hρ'⟩

end Golem
