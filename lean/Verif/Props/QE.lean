import Verif.Model.QE
import Verif.Props.NormalForms
import Verif.Lemmas.Smt
import Mathlib.Data.List.Perm.Subperm

/-! C36: quantifier elimination. -/

namespace Golem
variable {T : Theory}

theorem nnfNegate_vars {f g : Fla T} (h : nnfNegate f = some g) : ∀ x ∈ g.vars, x ∈ f.vars := by
  induction f generalizing g with
  | and f1 f2 ih1 ih2 | or f1 f2 ih1 ih2 =>
    simp only [nnfNegate, Option.bind_eq_bind, Option.bind_eq_some_iff, Option.pure_def, Option.some.injEq] at h
    obtain ⟨a, ha, b, hb, rfl⟩ := h
    intro x hx
    simp only [Fla.vars, List.mem_append] at hx ⊢
    exact hx.imp (ih1 ha x) (ih2 hb x)
  | _ => simp only [nnfNegate, Option.some.injEq, reduceCtorEq] at h <;> subst h <;> simp [Fla.vars]

theorem toNNF_vars {f g : Fla T} (h : toNNF f = some g) : ∀ x ∈ g.vars, x ∈ f.vars := by
  unfold toNNF at h
  induction f generalizing g with
  | and f1 f2 ih1 ih2 | or f1 f2 ih1 ih2 =>
    simp only [nnfTransform, Option.bind_eq_bind, Option.bind_eq_some_iff, Option.pure_def, Option.some.injEq] at h
    obtain ⟨a, ha, b, hb, rfl⟩ := h
    intro x hx
    simp only [Fla.vars, List.mem_append] at hx ⊢
    exact hx.imp (ih1 ha x) (ih2 hb x)
  | not f ih =>
    simp only [nnfTransform, Option.bind_eq_bind, Option.bind_eq_some_iff] at h
    obtain ⟨a, ha, hb⟩ := h
    intro x hx
    exact ih ha x (nnfNegate_vars hb x hx)
  | iff f1 f2 ih1 ih2 =>
    simp only [nnfTransform, Option.bind_eq_bind, Option.bind_eq_some_iff, Option.pure_def, Option.some.injEq] at h
    obtain ⟨a, ha, b, hb, c, hc, d, hd, rfl⟩ := h
    intro x hx
    simp only [Fla.vars, List.mem_append] at hx ⊢
    rcases hx with (hx | hx) | (hx | hx)
    · exact .inl (ih1 ha x (nnfNegate_vars hc x hx))
    · exact .inr (ih2 hb x hx)
    · exact .inr (ih2 hb x (nnfNegate_vars hd x hx))
    · exact .inl (ih1 ha x hx)
  | _ => simp only [nnfTransform, Option.some.injEq] at h <;> subst h <;> simp [Fla.vars]

/-- What a list of projections of `f` satisfies. -/
structure ProjInv (f : Fla T) (vs : List Var) (ps : List (Fla T)) : Prop where
  vars : ∀ p ∈ ps, ∀ x ∈ p.vars, x ∈ f.vars ∧ x ∉ vs
  under : ∀ p ∈ ps, ∀ ρ, p.holds ρ → ∃ ρ', (∀ x, x ∉ vs → ρ' x = ρ x) ∧ f.holds ρ'

theorem qeLoop_spec {S : Smt T} (hS : S.Correct) {M : Mbp T} {f : Fla T} {vs : List Var} (hM : M.SoundAt f vs) :
    ∀ (n : Nat) (ps qs : List (Fla T)), ProjInv f vs ps → qeLoop S M f vs n ps = .done qs →
      ProjInv f vs qs ∧ ∀ ρ, f.holds ρ → ∃ p ∈ qs, p.holds ρ := by
  intro n
  induction n with
  | zero => intro ps qs _ h; cases h
  | succ n ih =>
    intro ps qs hI h
    unfold qeLoop at h
    simp only at h
    split at h
    · rename_i hu
      cases h
      refine ⟨hI, fun ρ hf => Classical.byContradiction fun hn => hS.unsat _ hu ⟨ρ, ?_⟩⟩
      rw [allHold_cons]
      refine ⟨hf, ?_⟩
      intro g hg
      obtain ⟨p, hp, rfl⟩ := List.mem_map.1 hg
      exact fun hh => hn ⟨p, hp, hh⟩
    · rename_i hs
      split at h
      · rename_i p hp
        have hm := hS.sat _ hs
        rw [allHold_cons] at hm
        obtain ⟨_, h2, h3⟩ := hM _ p hm.1 hp
        refine ih _ _ ⟨?_, ?_⟩ h
        · intro q hq
          rw [List.mem_append] at hq
          rcases hq with hq | hq
          · exact hI.vars q hq
          · simp at hq; subst hq; exact h2
        · intro q hq
          rw [List.mem_append] at hq
          rcases hq with hq | hq
          · exact hI.under q hq
          · simp at hq; subst hq; exact h3
      · cases h
    · cases h

/-- What the final simplification has to satisfy. -/
structure SimpOk (simp : Fla T → Fla T) : Prop where
  equiv : ∀ f, (simp f).Equiv f
  vars : ∀ f, ∀ x ∈ (simp f).vars, x ∈ f.vars

theorem Fla.agree_outside {f : Fla T} {vs : List Var} {ρ : Valuation T} (hf : ∀ x ∈ f.vars, x ∉ vs)
    {ρ' : Valuation T} (h : ∀ x, x ∉ vs → ρ' x = ρ x) : f.holds ρ' ↔ f.holds ρ :=
  Fla.holds_congr fun x hx => h x (hf x hx)

/-- C36. If quantifier elimination returns a formula, it mentions none of the eliminated variables, no new ones, and is
equivalent to the existential quantification of its input. Projection has to be right on the normalized input only. -/
theorem C36_eliminate_at {S : Smt T} (hS : S.Correct) {M : Mbp T} {f f' : Fla T} {vs : List Var}
    (hf' : toNNF f = some f') (hM : M.SoundAt f' vs) {simp : Fla T → Fla T} (hs : SimpOk simp)
    (fuel : Nat) (g : Fla T) (h : qeEliminate S M simp fuel f vs = .done g) :
    (∀ x ∈ g.vars, x ∈ f.vars ∧ x ∉ vs) ∧
    ∀ ρ : Valuation T, g.holds ρ ↔ ∃ ρ' : Valuation T, (∀ x, x ∉ vs → ρ' x = ρ x) ∧ f.holds ρ' := by
  unfold qeEliminate at h
  rw [hf'] at h
  simp only at h
  obtain ⟨f'', h1, _, h3⟩ := C29_nnf f
  rw [hf'] at h1; cases h1
  split at h
  · rename_i ps hps
    cases h
    obtain ⟨hI, hcov⟩ := qeLoop_spec hS hM fuel [] ps ⟨by simp, by simp⟩ hps
    have hv : ∀ x ∈ (simp (Fla.disj ps)).vars, x ∈ f.vars ∧ x ∉ vs := by
      intro x hx
      obtain ⟨p, hp, hx⟩ := Fla.mem_vars_disj.1 (hs.vars _ x hx)
      exact ⟨toNNF_vars hf' x (hI.vars p hp x hx).1, (hI.vars p hp x hx).2⟩
    refine ⟨hv, fun ρ => ⟨fun hg => ?_, ?_⟩⟩
    · rw [hs.equiv, Fla.holds_disj] at hg
      obtain ⟨p, hp, hg⟩ := hg
      obtain ⟨ρ', ha, hb⟩ := hI.under p hp ρ hg
      exact ⟨ρ', ha, (h3 ρ').1 hb⟩
    · rintro ⟨ρ', ha, hb⟩
      rw [← Fla.agree_outside (fun x hx => (hv x hx).2) ha, hs.equiv, Fla.holds_disj]
      exact hcov ρ' ((h3 ρ').2 hb)
  · cases h
  · cases h

/-- C36. The same when projection is right on all formulas. -/
theorem C36_eliminate {S : Smt T} (hS : S.Correct) {M : Mbp T} (hM : M.Sound) {simp : Fla T → Fla T} (hs : SimpOk simp)
    (fuel : Nat) (f g : Fla T) (vs : List Var) (h : qeEliminate S M simp fuel f vs = .done g) :
    (∀ x ∈ g.vars, x ∈ f.vars ∧ x ∉ vs) ∧
    ∀ ρ : Valuation T, g.holds ρ ↔ ∃ ρ' : Valuation T, (∀ x, x ∉ vs → ρ' x = ρ x) ∧ f.holds ρ' := by
  obtain ⟨f', hf', _⟩ := C29_nnf f
  exact C36_eliminate_at hS hf' (hM _ _) hs fuel g h

/-- C36. `keepOnly` meets the contract its callers rely on. -/
theorem C36_keepOnly {S : Smt T} (hS : S.Correct) {M : Mbp T} (hM : M.Sound) {simp : Fla T → Fla T} (hs : SimpOk simp)
    (fuel : Nat) : KeepOnly.Exact (T := T) fun f keep => match qeKeepOnly S M simp fuel f keep with
      | .done g => some g
      | _ => none := by
  intro f keep g h
  simp only at h
  split at h
  · rename_i g' hg
    cases h
    obtain ⟨h1, h2⟩ := C36_eliminate hS hM hs fuel f g _ hg
    refine ⟨fun x hx => ?_, fun ρ => ?_⟩
    · obtain ⟨a, b⟩ := h1 x hx
      simpa [a] using b
    · rw [h2]
      constructor
      · rintro ⟨ρ', a, b⟩
        exact ⟨ρ', fun x hx => a x (by simp [hx]), b⟩
      · rintro ⟨ρ', a, b⟩
        classical
        refine ⟨fun x => if x ∈ f.vars then ρ' x else ρ x, ?_, (Fla.holds_congr fun x hx => by simp [hx]).1 b⟩
        intro x hx
        by_cases hf : x ∈ f.vars
        · simp only [hf, if_true]
          simp [hf] at hx
          exact a x hx
        · simp [hf]
  · cases h

theorem qeLoop_terminates {S : Smt T} (hS : S.Correct) (hc : S.Complete) {M : Mbp T} {f : Fla T} {vs : List Var} (hM : M.SoundAt f vs)
    {F : List (Fla T)} (hF : ∀ ps : List (Fla T), S.check (f :: ps.map Fla.not) = .sat →
      ∃ p ∈ F, M f vs (S.model (f :: ps.map Fla.not)) = some p) :
    ∀ (n : Nat) (ps : List (Fla T)), ps.Nodup → (∀ p ∈ ps, p ∈ F) → F.length < ps.length + n →
      ∃ qs, qeLoop S M f vs n ps = .done qs := by
  intro n
  induction n with
  | zero =>
    intro ps hnd hsub hlen
    have := List.Subperm.length_le (List.subperm_of_subset hnd hsub)
    omega
  | succ n ih =>
    intro ps hnd hsub hlen
    unfold qeLoop
    simp only
    rcases hc (f :: ps.map Fla.not) with hs | hs
    · simp only [hs]
      have hm := hS.sat _ hs
      rw [allHold_cons] at hm
      obtain ⟨p, hp, hMp⟩ := hF _ hs
      simp only [hMp]
      have hnew : p ∉ ps := fun h => hm.2 (.not p) (List.mem_map.2 ⟨p, h, rfl⟩) (hM _ p hm.1 hMp).1
      refine ih _ (List.nodup_append.2 ⟨hnd, by simp, ?_⟩) ?_ (by simp; omega)
      · intro a ha b hb; simp at hb; subst hb; rintro rfl; exact hnew ha
      · intro q hq
        rw [List.mem_append] at hq
        rcases hq with hq | hq
        · exact hsub q hq
        · simp at hq; subst hq; exact hp
    · simp [hs]

/-- C36. If projection of the (normalized) formula can only produce finitely many results, elimination terminates, for no
result is produced twice. -/
theorem C36_terminates {S : Smt T} (hS : S.Correct) (hc : S.Complete) {M : Mbp T} (simp : Fla T → Fla T)
    (f f' : Fla T) (hf' : toNNF f = some f') (vs : List Var) (hM : M.SoundAt f' vs) (F : List (Fla T))
    (hF : ∀ ps : List (Fla T), S.check (f' :: ps.map Fla.not) = .sat →
      ∃ p ∈ F, M f' vs (S.model (f' :: ps.map Fla.not)) = some p) (fuel : Nat) (hfuel : F.length < fuel) :
    ∃ g, qeEliminate S M simp fuel f vs = .done g := by
  obtain ⟨qs, h⟩ := qeLoop_terminates hS hc hM hF fuel [] (by simp) (by simp) (by simpa using hfuel)
  exact ⟨simp (Fla.disj qs), by simp [qeEliminate, hf', h]⟩

/-- Reading off the answers: a backend that knows which formulas are satisfiable. Shows that the hypotheses on the backend can be met
for every theory. -/
noncomputable def oracleSmt (T : Theory) : Smt T := by
  classical
  exact
    { check := fun fs => if SatList fs then .sat else .unsat
      model := fun fs => if h : SatList fs then h.choose else fun _ => T.vF
      itp := fun _ _ => .tt }

theorem oracleSmt_correct : (oracleSmt T).Correct := by
  classical
  refine ⟨fun fs h => ?_, fun fs h => ?_⟩
  · have hs : SatList fs := Classical.byContradiction fun hn => by simp [oracleSmt, hn] at h
    simp only [oracleSmt, hs, dite_true]
    exact hs.choose_spec
  · intro hs
    simp [oracleSmt, hs] at h

theorem oracleSmt_complete : (oracleSmt T).Complete := by
  classical
  intro fs
  by_cases h : SatList fs
  · left; simp [oracleSmt, h]
  · right; simp [oracleSmt, h]

/-! ### A concrete projection meeting the contract -/

namespace QEEx

/-- Boolean variables are replaced by their values in the model (`src/ModelBasedProjection.cc:445-453`). -/
def boolMbp : Mbp propTheory := fun f vs ρ => some (f.subst fun x => if x ∈ vs then .const (ρ x) else .var x)

theorem boolMbp_sound : boolMbp.Sound := by
  intro f vs ρ p hf h
  simp only [boolMbp, Option.some.injEq] at h
  subst h
  refine ⟨?_, ?_, ?_⟩
  · rw [Fla.holds_subst]
    refine (Fla.holds_congr fun x _ => ?_).1 hf
    split <;> rfl
  · intro x hx
    obtain ⟨y, hy, hx⟩ := Fla.mem_vars_subst.1 hx
    split at hx
    · simp [Tm.vars] at hx
    · rename_i hn; simp [Tm.vars] at hx; subst hx; exact ⟨hy, hn⟩
  · intro ρ' h
    rw [Fla.holds_subst] at h
    refine ⟨_, fun x hx => ?_, h⟩
    simp [hx, Tm.eval]

def x : Var := .base (.user "x")
def y : Var := .base (.user "y")

/-- `∃x. (x ∨ y) ∧ ¬x`. -/
example : propSmt.Correct ∧ propSmt.Complete ∧ boolMbp.Sound ∧ SimpOk (T := propTheory) id ∧
    qeEliminate propSmt boolMbp id 5 (.and (.or (.atom (.var x)) (.atom (.var y))) (.not (.atom (.var x)))) [x] =
      .done (.or (.and (.or (.atom (.const false)) (.atom (.var y))) (.not (.atom (.const false)))) .ff) :=
  ⟨propSmt_sound.correct, propSmt_complete, boolMbp_sound, ⟨fun _ _ => Iff.rfl, fun _ _ h => h⟩, by decide +kernel⟩

end QEEx

end Golem
