import Verif.Model.Smt

namespace Golem
variable {T : Theory}

theorem allHold_append {ρ : Valuation T} {A B : List (Fla T)} : AllHold ρ (A ++ B) ↔ AllHold ρ A ∧ AllHold ρ B := by
  simp [AllHold, or_imp, forall_and]

theorem allHold_cons {ρ : Valuation T} {f : Fla T} {B : List (Fla T)} :
    AllHold ρ (f :: B) ↔ f.holds ρ ∧ AllHold ρ B := by
  simp [AllHold]

theorem holds_conj_iff {ρ : Valuation T} {l : List (Fla T)} : (Fla.conj l).holds ρ ↔ AllHold ρ l := Fla.holds_conj

theorem allHold_nil {ρ : Valuation T} : AllHold ρ ([] : List (Fla T)) := by simp [AllHold]

theorem Smt.pathItp_length (S : Smt T) (fs : List (Fla T)) : (S.pathItp fs).length = fs.length - 1 := by
  simp [Smt.pathItp]

theorem Smt.pathItp_get (S : Smt T) (fs : List (Fla T)) (i : Nat) (h : i < (S.pathItp fs).length) :
    (S.pathItp fs)[i] = S.itp (fs.take (i + 1)) (fs.drop (i + 1)) := by
  simp [Smt.pathItp]

theorem Smt.Sound.pathItp {S : Smt T} (hS : S.Sound) {fs : List (Fla T)} (hu : S.check fs = .unsat) (i : Nat) :
    IsItp (fs.take (i + 1)) (fs.drop (i + 1)) (S.itp (fs.take (i + 1)) (fs.drop (i + 1))) := by
  apply hS.itp fs _ _ hu
  intro f
  rw [← List.mem_append, List.take_append_drop]

theorem Smt.Sound.pathItp_step {S : Smt T} (hS : S.Sound) {fs : List (Fla T)} (hu : S.check fs = .unsat) (i : Nat)
    (h : i < fs.length) (ρ : Valuation T) (h1 : (S.itp (fs.take i) (fs.drop i)).holds ρ) (h2 : fs[i].holds ρ) :
    (S.itp (fs.take (i + 1)) (fs.drop (i + 1))).holds ρ := by
  have hd : fs.drop i = [fs[i]] ++ fs.drop (i + 1) := by simp
  have ht : fs.take (i + 1) = fs.take i ++ [fs[i]] := by simp
  rw [ht]
  apply hS.path fs _ _ _ hu
  · intro f
    rw [← List.mem_append, ← List.mem_append, ← hd, List.take_append_drop]
  · rw [← hd]; exact h1
  · simpa [AllHold] using h2

/-! A computable backend for propositional formulas, meeting the contract. -/

/-- Truth-value theory: one Boolean sort, no proper function symbols (`ap1` is negation, `ap2` conjunction, so that
Boolean terms exist). -/
def propTheory : Theory where
  Val := Bool
  Sym := Unit
  decVal := inferInstance
  decSym := inferInstance
  ap1 _ a := !a
  ap2 _ a b := a && b
  ap3 _ a b c := a && b && c
  truth := id
  vT := true
  vF := false
  truth_vT := rfl
  truth_vF := rfl

def Valuation.set (ρ : Valuation T) (x : Var) (v : T.Val) : Valuation T := fun y => if y = x then v else ρ y

def assigns : List Var → Valuation propTheory → List (Valuation propTheory)
  | [], ρ => [ρ]
  | x :: xs, ρ => assigns xs (ρ.set x true) ++ assigns xs (ρ.set x false)

def dedupVars : List Var → List Var
  | [] => []
  | x :: xs => if x ∈ xs then dedupVars xs else x :: dedupVars xs

theorem mem_dedupVars {l : List Var} {x : Var} : x ∈ dedupVars l ↔ x ∈ l := by
  induction l with
  | nil => simp [dedupVars]
  | cons y ys ih =>
    simp only [dedupVars]
    split
    · rename_i h
      rw [ih]
      constructor
      · intro hx; exact List.mem_cons_of_mem _ hx
      · intro hx
        rcases List.mem_cons.1 hx with hx | hx
        · exact hx ▸ h
        · exact hx
    · simp [ih]

def allFalse : Valuation propTheory := fun _ => false

def propSat (f : Fla propTheory) : Option (Valuation propTheory) :=
  (assigns (dedupVars f.vars) allFalse).find? (fun ρ => decide (f.holds ρ))

theorem assigns_complete (xs : List Var) (ρ0 ρ : Valuation propTheory) :
    ∃ ρ' ∈ assigns xs ρ0, ∀ x, (x ∈ xs → ρ' x = ρ x) ∧ (x ∉ xs → ρ' x = ρ0 x) := by
  induction xs generalizing ρ0 with
  | nil => exact ⟨ρ0, by simp [assigns], by simp⟩
  | cons y ys ih =>
    obtain ⟨ρ', hm, h⟩ := ih (ρ0.set y (ρ y))
    refine ⟨ρ', ?_, ?_⟩
    · simp only [assigns, List.mem_append]
      cases hy : ρ y with
      | true => left; rw [hy] at hm; exact hm
      | false => right; rw [hy] at hm; exact hm
    · intro x
      have := h x
      by_cases hx : x ∈ ys
      · simp [hx]; exact this.1 hx
      · have h2 := this.2 hx
        by_cases hxy : x = y
        · subst hxy; simp [h2, Valuation.set]
        · simp [hx, hxy]; rw [h2]; simp [Valuation.set, hxy]

theorem propSat_none {f : Fla propTheory} (h : propSat f = none) (ρ : Valuation propTheory) : ¬ f.holds ρ := by
  intro hf
  obtain ⟨ρ', hm, hr⟩ := assigns_complete (dedupVars f.vars) allFalse ρ
  have := List.find?_eq_none.1 h ρ' hm
  simp at this
  apply this
  exact (Fla.holds_congr (fun x hx => ((hr x).1 (mem_dedupVars.2 hx)))).2 hf

theorem propSat_some {f : Fla propTheory} {ρ} (h : propSat f = some ρ) : f.holds ρ := by
  have := List.find?_some h
  simpa using this

/-- Existential elimination of a propositional variable. -/
def exElim (f : Fla propTheory) (x : Var) : Fla propTheory :=
  .or (f.subst fun y => if y = x then .const true else .var y)
      (f.subst fun y => if y = x then .const false else .var y)

theorem exElim_holds {f : Fla propTheory} {x : Var} {ρ : Valuation propTheory} :
    (exElim f x).holds ρ ↔ ∃ v, f.holds (ρ.set x v) := by
  have key : ∀ v : Bool, (fun y => Tm.eval ρ (if y = x then (.const v : Tm propTheory) else .var y)) =
      Valuation.set (T := propTheory) ρ x v := by
    intro v; funext y; by_cases h : y = x
    · simp [Tm.eval, Valuation.set, h]; rfl
    · simp [Tm.eval, Valuation.set, h]
  simp only [exElim, Fla.holds_or, Fla.holds_subst]
  rw [key true, key false]
  constructor
  · rintro (h | h)
    · exact ⟨true, h⟩
    · exact ⟨false, h⟩
  · rintro ⟨v, h⟩
    have hv : v = (true : Bool) ∨ v = (false : Bool) := by
      cases (v : Bool) with
      | true => exact Or.inl rfl
      | false => exact Or.inr rfl
    rcases hv with hv | hv
    · subst hv; exact Or.inl h
    · subst hv; exact Or.inr h

theorem exElim_vars {f : Fla propTheory} {x y : Var} (h : y ∈ (exElim f x).vars) : y ∈ f.vars ∧ y ≠ x := by
  simp only [exElim, Fla.vars, List.mem_append, Fla.mem_vars_subst] at h
  rcases h with ⟨z, hz, h⟩ | ⟨z, hz, h⟩ <;>
  · split at h
    · simp [Tm.vars] at h
    · rename_i hzx; simp [Tm.vars] at h; subst h; exact ⟨hz, hzx⟩

theorem foldl_exElim_vars {xs : List Var} {f : Fla propTheory} {y : Var} (h : y ∈ (xs.foldl exElim f).vars) :
    y ∈ f.vars ∧ y ∉ xs := by
  induction xs generalizing f with
  | nil => simpa using h
  | cons x xs ih =>
    have := ih h
    have h2 := exElim_vars this.1
    refine ⟨h2.1, ?_⟩
    simp [this.2, h2.2]

theorem foldl_exElim_holds {xs : List Var} {f : Fla propTheory} {ρ : Valuation propTheory} :
    (xs.foldl exElim f).holds ρ ↔ ∃ ρ', (∀ y, y ∉ xs → ρ' y = ρ y) ∧ f.holds ρ' := by
  induction xs generalizing f with
  | nil =>
    constructor
    · intro h; exact ⟨ρ, by simp, h⟩
    · rintro ⟨ρ', h, hf⟩
      have : ρ' = ρ := funext (fun y => h y (by simp))
      exact this ▸ hf
  | cons x xs ih =>
    simp only [List.foldl_cons, ih, exElim_holds]
    constructor
    · rintro ⟨ρ', h, v, hf⟩
      refine ⟨ρ'.set x v, ?_, hf⟩
      intro y hy
      simp at hy
      simp [Valuation.set, hy.1, h y hy.2]
    · rintro ⟨ρ', h, hf⟩
      refine ⟨ρ'.set x (ρ x), ?_, ρ' x, ?_⟩
      · intro y hy
        by_cases hxy : y = x
        · subst hxy; simp [Valuation.set]
        · simp [Valuation.set, hxy]; exact h y (by simp [hxy, hy])
      · have : (ρ'.set x (ρ x)).set x (ρ' x) = ρ' := by
          funext y; simp only [Valuation.set]; split
          · rename_i e; rw [e]
          · rfl
        rw [this]; exact hf

/-- Strongest interpolant. -/
def propItp (A B : List (Fla propTheory)) : Fla propTheory :=
  ((dedupVars (Fla.conj A).vars).filter (fun x => decide (x ∉ (Fla.conj B).vars))).foldl exElim (Fla.conj A)

theorem propItp_holds {A B : List (Fla propTheory)} {ρ : Valuation propTheory} :
    (propItp A B).holds ρ ↔ ∃ ρ', (∀ y ∈ (Fla.conj B).vars, ρ' y = ρ y) ∧ AllHold ρ' A := by
  simp only [propItp, foldl_exElim_holds]
  constructor
  · rintro ⟨ρ', h, hf⟩
    refine ⟨ρ', ?_, holds_conj_iff.1 hf⟩
    intro y hy
    exact h y (by simp [hy])
  · rintro ⟨ρ', h, hf⟩
    refine ⟨fun y => if y ∈ (Fla.conj A).vars then ρ' y else ρ y, ?_, ?_⟩
    · intro y hy
      by_cases hA : y ∈ (Fla.conj A).vars
      · simp only [hA, if_true]
        simp [mem_dedupVars, hA] at hy
        exact h y hy
      · simp [hA]
    · have : (Fla.conj A).holds ρ' := holds_conj_iff.2 hf
      refine (Fla.holds_congr ?_).2 this
      intro x hx; simp [hx]

/-- The propositional backend. -/
def propSmt : Smt propTheory where
  check fs := if (propSat (Fla.conj fs)).isSome then .sat else .unsat
  model fs := (propSat (Fla.conj fs)).getD allFalse
  itp := propItp

theorem propSmt_sound : propSmt.Sound where
  sat fs h := by
    simp only [propSmt] at h ⊢
    split at h
    · rename_i hs
      obtain ⟨ρ, hρ⟩ := Option.isSome_iff_exists.1 hs
      rw [hρ]
      exact holds_conj_iff.1 (propSat_some hρ)
    · simp at h
  unsat fs h := by
    simp only [propSmt] at h
    split at h
    · simp at h
    · rename_i hs
      rintro ⟨ρ, hρ⟩
      exact propSat_none (by simpa using hs) ρ (holds_conj_iff.2 hρ)
  itp fs A B h hfs := by
    have hun : ∀ ρ, AllHold ρ A → ¬ AllHold ρ B := by
      intro ρ hA hB
      simp only [propSmt] at h
      split at h
      · simp at h
      · rename_i hs
        refine propSat_none (by simpa using hs) ρ ?_
        rw [Fla.holds_conj]
        intro f hf
        rcases (hfs f).1 hf with h | h
        · exact hA f h
        · exact hB f h
    refine ⟨?_, ?_, ?_⟩
    · intro ρ hA
      exact propItp_holds.2 ⟨ρ, fun _ _ => rfl, hA⟩
    · intro ρ hI hB
      obtain ⟨ρ', hr, hA⟩ := propItp_holds.1 hI
      apply hun ρ' hA
      have : (Fla.conj B).holds ρ := holds_conj_iff.2 hB
      have := (Fla.holds_congr hr).2 this
      exact holds_conj_iff.1 this
    · intro x hx
      have := foldl_exElim_vars hx
      refine ⟨this.1, ?_⟩
      have h2 := this.2
      simp [mem_dedupVars, this.1] at h2
      exact h2
  path fs A C B h hfs := by
    intro ρ hI hC
    obtain ⟨ρ', hr, hA⟩ := propItp_holds.1 hI
    refine propItp_holds.2 ⟨ρ', ?_, ?_⟩
    · intro y hy; exact hr y (by
        rw [Fla.mem_vars_conj] at hy ⊢
        obtain ⟨f, hf, h⟩ := hy
        exact ⟨f, by simp [hf], h⟩)
    · rw [allHold_append]
      refine ⟨hA, ?_⟩
      have : (Fla.conj C).holds ρ := holds_conj_iff.2 hC
      have := (Fla.holds_congr (f := Fla.conj C) (fun y hy => hr y (by
        rw [Fla.mem_vars_conj] at hy ⊢
        obtain ⟨f, hf, h⟩ := hy
        exact ⟨f, by simp [hf], h⟩))).2 this
      exact holds_conj_iff.1 this

theorem propSmt_complete : propSmt.Complete := by
  intro fs
  simp only [propSmt]
  split <;> simp

/-- A backend that never decides anything also meets the contract. -/
def unknownSmt : Smt T where
  check _ := .unknown
  model _ := fun _ => T.vT
  itp _ _ := .tt

theorem unknownSmt_sound : (unknownSmt (T := T)).Sound where
  sat _ h := by simp [unknownSmt] at h
  unsat _ h := by simp [unknownSmt] at h
  itp _ _ _ h := by simp [unknownSmt] at h
  path _ _ _ _ h := by simp [unknownSmt] at h

end Golem
