import Mathlib.Algebra.Order.Field.Basic
import Mathlib.Tactic.FieldSimp
import Verif.Lemmas.MBPPoly

/-! `postprocess` and the projection of real variables. -/

set_option linter.unusedSectionVars false
set_option linter.unusedSimpArgs false

namespace Golem

section
variable {K : Type} [CommRing K] [LinearOrder K] [IsStrictOrderedRing K] {md : K → K → K}

/-- Meaning of a possibly negated inequality `0 <= p`. -/
def SLeq (ρ : Var → K) (b : Poly K × Bool) : Prop := if b.2 then 0 ≤ b.1.eval ρ else ¬ 0 ≤ b.1.eval ρ

theorem eval_mk (t : List (Var × K)) (k : K) (ρ : Var → K) :
    (⟨t, k⟩ : Poly K).eval ρ = (⟨t, 0⟩ : Poly K).eval ρ + k := by simp [Poly.eval]

theorem addBound_holds (ρ : Var → K) (t : List (Var × K)) (s : Bool) (k : K)
    (bs : List ((List (Var × K) × Bool) × K)) :
    (∀ b ∈ addBound t s k bs, SLeq ρ (⟨b.1.1, b.2⟩, b.1.2)) ↔
      SLeq ρ (⟨t, k⟩, s) ∧ ∀ b ∈ bs, SLeq ρ (⟨b.1.1, b.2⟩, b.1.2) := by
  induction bs with
  | nil => simp [addBound]
  | cons b bs ih =>
    obtain ⟨key, k'⟩ := b
    unfold addBound
    split
    · rename_i hk
      subst hk
      have : SLeq ρ ((⟨t, if (if s then decide (-k > -k') else decide (-k < -k')) then k else k'⟩ : Poly K), s) ↔
          SLeq ρ (⟨t, k⟩, s) ∧ SLeq ρ (⟨t, k'⟩, s) := by
        cases s
        · simp only [SLeq, Bool.false_eq_true, if_false, not_le, decide_eq_true_eq]
          split
          · rename_i h; rw [eval_mk, eval_mk t k']; constructor
            · intro h'; exact ⟨h', by linarith⟩
            · exact And.left
          · rename_i h; rw [eval_mk, eval_mk t k]; constructor
            · intro h'; exact ⟨by linarith, h'⟩
            · exact And.right
        · simp only [SLeq, if_true, decide_eq_true_eq]
          split
          · rename_i h; rw [eval_mk, eval_mk t k']; constructor
            · intro h'; exact ⟨h', by linarith⟩
            · exact And.left
          · rename_i h; rw [eval_mk, eval_mk t k]; constructor
            · intro h'; exact ⟨by linarith, h'⟩
            · exact And.right
      simp only [List.forall_mem_cons, this, and_assoc]
    · simp only [List.forall_mem_cons, ih]
      exact and_left_comm

theorem addBound_keys {t : List (Var × K)} {s : Bool} {k : K} {bs : List ((List (Var × K) × Bool) × K)} {b}
    (h : b ∈ addBound t s k bs) : b.1.1 = t ∨ ∃ b' ∈ bs, b'.1.1 = b.1.1 := by
  induction bs with
  | nil => simp [addBound] at h; subst h; exact .inl rfl
  | cons b0 bs ih =>
    obtain ⟨key, k'⟩ := b0
    unfold addBound at h
    split at h
    · rename_i hk
      rcases List.mem_cons.1 h with h | h
      · subst h; subst hk; exact .inl rfl
      · exact .inr ⟨b, by simp [h], rfl⟩
    · rcases List.mem_cons.1 h with h | h
      · subst h; exact .inr ⟨_, List.mem_cons_self .., rfl⟩
      · rcases ih h with h | ⟨b', h1, h2⟩
        · exact .inl h
        · exact .inr ⟨b', by simp [h1], h2⟩

theorem gatherBounds_holds {α : Type} {view : α → Option (Poly K × Bool)} {ρ : Var → K} {H : α → Prop}
    (hv : ∀ l b, view l = some b → (H l ↔ SLeq ρ b)) (ls tmp : List α) (bs : List ((List (Var × K) × Bool) × K)) :
    ((∀ l ∈ (gatherBounds view ls (tmp, bs)).1, H l) ∧
      ∀ b ∈ (gatherBounds view ls (tmp, bs)).2, SLeq ρ (⟨b.1.1, b.2⟩, b.1.2)) ↔
    (∀ l ∈ ls, H l) ∧ (∀ l ∈ tmp, H l) ∧ ∀ b ∈ bs, SLeq ρ (⟨b.1.1, b.2⟩, b.1.2) := by
  induction ls generalizing tmp bs with
  | nil => simp [gatherBounds]
  | cons l ls ih =>
    unfold gatherBounds
    split
    · rename_i p s h
      rw [ih, addBound_holds, List.forall_mem_cons, hv l _ h]
      have e : SLeq ρ ((⟨p.norm.cs, p.k⟩ : Poly K), s) ↔ SLeq ρ (p, s) := by
        have : (⟨p.norm.cs, p.k⟩ : Poly K).eval ρ = p.eval ρ := p.eval_norm ρ
        simp only [SLeq, this]
      rw [e]; tauto
    · rw [ih, List.forall_mem_cons]
      simp only [List.mem_append, List.mem_singleton, or_imp, forall_and, forall_eq]
      tauto

theorem postprocess_holds {α : Type} {view : α → Option (Poly K × Bool)} {mk : Poly K × Bool → α} {ρ : Var → K}
    {H : α → Prop} (hv : ∀ l b, view l = some b → (H l ↔ SLeq ρ b)) (hm : ∀ b, H (mk b) ↔ SLeq ρ b) (ls : List α) :
    (∀ l ∈ postprocess view mk ls, H l) ↔ ∀ l ∈ ls, H l := by
  have h := gatherBounds_holds hv ls [] []
  unfold postprocess
  simp only
  split
  · simp only [List.mem_append, or_imp, forall_and, List.mem_map, forall_exists_index, and_imp,
      forall_apply_eq_imp_iff₂, hm]
    rw [h]
    simp
  · rfl

theorem gatherBounds_from {α : Type} {view : α → Option (Poly K × Bool)} (ls tmp : List α)
    (bs : List ((List (Var × K) × Bool) × K)) :
    (∀ l ∈ (gatherBounds view ls (tmp, bs)).1, l ∈ ls ∨ l ∈ tmp) ∧
    ∀ b ∈ (gatherBounds view ls (tmp, bs)).2, (∃ l ∈ ls, ∃ p s, view l = some (p, s) ∧ b.1.1 = p.norm.cs) ∨
      ∃ b' ∈ bs, b'.1.1 = b.1.1 := by
  induction ls generalizing tmp bs with
  | nil => exact ⟨fun l h => .inr h, fun b h => .inr ⟨b, h, rfl⟩⟩
  | cons l ls ih =>
    unfold gatherBounds
    split
    · rename_i p s h
      obtain ⟨h1, h2⟩ := ih tmp (addBound p.norm.cs s p.k bs)
      refine ⟨fun l' hl => (h1 l' hl).imp_left (List.mem_cons_of_mem _), fun b hb => ?_⟩
      rcases h2 b hb with ⟨l', hl, p', s', h3, h4⟩ | ⟨b', hb', e⟩
      · exact .inl ⟨l', by simp [hl], p', s', h3, h4⟩
      · rcases addBound_keys hb' with h5 | ⟨b'', h5, h6⟩
        · exact .inl ⟨l, by simp, p, s, h, by rw [← e, h5]⟩
        · exact .inr ⟨b'', h5, by rw [h6, e]⟩
    · obtain ⟨h1, h2⟩ := ih (tmp ++ [l]) bs
      refine ⟨fun l' hl => ?_, fun b hb => ?_⟩
      · rcases h1 l' hl with h | h
        · exact .inl (by simp [h])
        · rcases List.mem_append.1 h with h | h
          · exact .inr h
          · simp at h; subst h; exact .inl (by simp)
      · rcases h2 b hb with ⟨l', hl, r⟩ | h
        · exact .inl ⟨l', by simp [hl], r⟩
        · exact .inr h

theorem postprocess_vars {α : Type} {view : α → Option (Poly K × Bool)} {mk : Poly K × Bool → α}
    {V : α → Var → Prop} (hv : ∀ l p s y, view l = some (p, s) → p.coeff y ≠ 0 → V l y)
    (hm : ∀ b y, V (mk b) y → b.1.coeff y ≠ 0) {ls : List α} {l : α} (hl : l ∈ postprocess view mk ls) {y : Var}
    (hy : V l y) : ∃ l' ∈ ls, V l' y := by
  obtain ⟨h1, h2⟩ := gatherBounds_from (view := view) ls [] []
  unfold postprocess at hl
  simp only at hl
  split at hl
  · rcases List.mem_append.1 hl with h | h
    · rcases h1 l h with h | h
      · exact ⟨l, h, hy⟩
      · cases h
    · obtain ⟨b, hb, rfl⟩ := List.mem_map.1 h
      rcases h2 b hb with ⟨l', hl', p, s, h3, h4⟩ | ⟨_, h, _⟩
      · refine ⟨l', hl', hv l' p s y h3 ?_⟩
        have := hm _ y hy
        simp only [h4] at this
        have e : (⟨p.norm.cs, b.2⟩ : Poly K).coeff y = p.norm.coeff y := rfl
        rwa [e, Poly.coeff_norm] at this
      · cases h
  · exact ⟨l, hl, hy⟩

/-- What eliminating the variables `X` from a conjunction of literals, with respect to the model `ρ`, has to satisfy. -/
structure ProjOk (md : K → K → K) (X : Var → Prop) (ρ : Var → K) (lits r : List (MLit K)) : Prop where
  model : ∀ l ∈ r, l.Holds md ρ
  vars : ∀ l ∈ r, ∀ y, l.Has y → ¬ X y ∧ ∃ l0 ∈ lits, l0.Has y
  lift : ∀ ρ', (∀ l ∈ r, l.Holds md ρ') → ∃ ρ'', (∀ y, ¬ X y → ρ'' y = ρ' y) ∧ ∀ l ∈ lits, l.Holds md ρ''

theorem ProjOk.trans {X Y : Var → Prop} {ρ : Var → K} {a b c : List (MLit K)} (h1 : ProjOk md X ρ a b)
    (h2 : ProjOk md Y ρ b c) : ProjOk md (fun y => X y ∨ Y y) ρ a c := by
  refine ⟨h2.model, fun l hl y hy => ?_, fun ρ' h => ?_⟩
  · obtain ⟨h3, l0, h4, h5⟩ := h2.vars l hl y hy
    obtain ⟨h6, l1, h7, h8⟩ := h1.vars l0 h4 y h5
    exact ⟨fun h => h.elim h6 h3, l1, h7, h8⟩
  · obtain ⟨ρ1, h3, h4⟩ := h2.lift ρ' h
    obtain ⟨ρ2, h5, h6⟩ := h1.lift ρ1 h4
    refine ⟨ρ2, fun y hy => ?_, h6⟩
    rw [not_or] at hy
    rw [h5 y hy.1, h3 y hy.2]

theorem MLit.view_holds {l : MLit K} {b : Poly K × Bool} (h : MLit.view l = some b) (ρ : Var → K) :
    l.Holds md ρ ↔ SLeq ρ b := by
  obtain ⟨a, s⟩ := l
  cases a <;> simp [MLit.view] at h
  subst h
  rfl

theorem MLit.postprocess_holds (ls : List (MLit K)) (ρ : Var → K) :
    (∀ l ∈ postprocess MLit.view MLit.mkLeq ls, l.Holds md ρ) ↔ ∀ l ∈ ls, l.Holds md ρ :=
  Golem.postprocess_holds (H := fun l => l.Holds md ρ) (fun _ _ h => MLit.view_holds h ρ) (fun _ => Iff.rfl) ls

theorem MLit.postprocess_vars {ls : List (MLit K)} {l : MLit K}
    (hl : l ∈ postprocess MLit.view MLit.mkLeq ls) {y : Var} (hy : l.Has y) : ∃ l' ∈ ls, l'.Has y := by
  refine Golem.postprocess_vars (V := MLit.Has) (mk := MLit.mkLeq) ?_ (fun _ _ h => h) hl hy
  intro l p s y h hp
  obtain ⟨a, s⟩ := l
  cases a <;> simp [MLit.view] at h
  obtain ⟨rfl, rfl⟩ := h
  exact hp

end

/-! ### Reals -/

/-- `mod` of `realTheory`. -/
abbrev rmd : Rat → Rat → Rat := fun a _ => a

theorem replaceDiseq_holds {ρ : Var → Rat} {p : Poly Rat} (h : p.eval ρ ≠ 0) :
    (replaceDiseq ρ p).Holds rmd ρ := by
  unfold replaceDiseq
  split
  · rename_i h1; simpa [MLit.Holds, MAtom.Holds] using h1
  · rename_i h1
    simp only [MLit.Holds, MAtom.Holds, Poly.eval_neg, Bool.false_eq_true, if_false, not_le]
    have := lt_of_le_of_ne (not_lt.1 h1) (Ne.symm h)
    linarith

theorem replaceDiseq_imp {ρ ρ' : Var → Rat} {p : Poly Rat} (h : (replaceDiseq ρ p).Holds rmd ρ') :
    p.eval ρ' ≠ 0 := by
  unfold replaceDiseq at h
  intro e
  split at h <;> simp [MLit.Holds, MAtom.Holds, e] at h

theorem replaceDiseq_has {ρ : Var → Rat} {p : Poly Rat} {y : Var} : (replaceDiseq ρ p).Has y ↔ p.coeff y ≠ 0 := by
  unfold replaceDiseq
  split <;> simp [MLit.Has, MAtom.poly]

/-- The literals the scan produces: equivalent in the model, stronger in general, over the same variables. -/
structure ScanOk (ρ : Var → Rat) (ls r : List (MLit Rat)) : Prop where
  model : (∀ l ∈ ls, l.Holds rmd ρ) → ∀ l ∈ r, l.Holds rmd ρ
  imp : ∀ ρ', (∀ l ∈ r, l.Holds rmd ρ') → ∀ l ∈ ls, l.Holds rmd ρ'
  vars : ∀ l ∈ r, ∃ l0 ∈ ls, ∀ y, l.Has y ↔ l0.Has y

theorem ScanOk.refl {ρ : Var → Rat} (ls : List (MLit Rat)) : ScanOk ρ ls ls :=
  ⟨id, fun _ h => h, fun l h => ⟨l, h, fun _ => Iff.rfl⟩⟩

theorem ScanOk.step {ρ : Var → Rat} {acc ls r : List (MLit Rat)} {p : Poly Rat}
    (h : ScanOk ρ (acc ++ [replaceDiseq ρ p] ++ ls) r) : ScanOk ρ (acc ++ (.eq p, false) :: ls) r := by
  refine ⟨fun hm => h.model ?_, fun ρ' hr => ?_, fun l hl => ?_⟩
  · intro l hl
    simp only [List.append_assoc, List.cons_append, List.nil_append, List.mem_append, List.mem_cons] at hl
    rcases hl with hl | rfl | hl
    · exact hm l (by simp [hl])
    · apply replaceDiseq_holds
      have := hm (.eq p, false) (by simp)
      simpa [MLit.Holds, MAtom.Holds] using this
    · exact hm l (by simp [hl])
  · intro l hl
    have h' := h.imp ρ' hr
    simp only [List.mem_append, List.mem_cons] at hl
    rcases hl with hl | rfl | hl
    · exact h' l (by simp [hl])
    · have := replaceDiseq_imp (h' (replaceDiseq ρ p) (by simp))
      simpa [MLit.Holds, MAtom.Holds] using this
    · exact h' l (by simp [hl])
  · obtain ⟨l0, h0, hy⟩ := h.vars l hl
    simp only [List.append_assoc, List.cons_append, List.nil_append, List.mem_append, List.mem_cons] at h0
    rcases h0 with h0 | rfl | h0
    · exact ⟨l0, by simp [h0], hy⟩
    · exact ⟨(.eq p, false), by simp, fun y => (hy y).trans replaceDiseq_has⟩
    · exact ⟨l0, by simp [h0], hy⟩

theorem realScan_spec (ρ : Var → Rat) (acc ls : List (MLit Rat)) :
    match realScan ρ acc ls with
    | .eq p all => ScanOk ρ (acc ++ ls) all ∧ (MAtom.eq p, true) ∈ all
    | .ineqs r => ScanOk ρ (acc ++ ls) r := by
  induction ls generalizing acc with
  | nil => simp only [realScan, List.append_nil]; exact .refl acc
  | cons l ls ih =>
    obtain ⟨a, s⟩ := l
    have other : ∀ l, realScan ρ acc (l :: ls) = realScan ρ (acc ++ [l]) ls →
        match realScan ρ acc (l :: ls) with
        | .eq p all => ScanOk ρ (acc ++ l :: ls) all ∧ (MAtom.eq p, true) ∈ all
        | .ineqs r => ScanOk ρ (acc ++ l :: ls) r := by
      intro l h
      rw [h]
      simpa using ih (acc ++ [l])
    cases a with
    | leq p => exact other _ (by rw [realScan] <;> simp)
    | dvd c p => exact other _ (by rw [realScan] <;> simp)
    | eq p =>
      cases s with
      | true => simp only [realScan]; exact ⟨.refl _, by simp⟩
      | false =>
        simp only [realScan]
        have := ih (acc ++ [replaceDiseq ρ p])
        revert this
        split
        · exact fun h => ⟨h.1.step, h.2⟩
        · exact fun h => h.step

theorem solveFor_eval {x : Var} {p : Poly Rat} (hx : p.coeff x ≠ 0) (ρ : Var → Rat) :
    p.eval ρ = p.coeff x * (ρ x - (solveFor x p).eval ρ) := by
  rw [Poly.eval_split p x]
  simp only [solveFor, Poly.eval_smul]
  field_simp
  ring

theorem solveFor_coeff {x : Var} {p : Poly Rat} {y : Var} (h : (solveFor x p).coeff y ≠ 0) : y ≠ x ∧ p.coeff y ≠ 0 := by
  simp only [solveFor, Poly.coeff_smul, Poly.coeff_erase] at h
  have := right_ne_zero_of_mul h
  by_cases e : y = x
  · simp [e] at this
  · exact ⟨e, by simpa [e] using this⟩

/-- Meaning of a bound on a value. -/
def Bound.Sat (b : Bound) (ρ : Var → Rat) (v : Rat) : Prop :=
  match b.lower, b.strict with
  | true, true => b.val.eval ρ < v
  | true, false => b.val.eval ρ ≤ v
  | false, true => v < b.val.eval ρ
  | false, false => v ≤ b.val.eval ρ

theorem toBound_spec {x : Var} {l : MLit Rat} {b : Bound} (h : toBound x l = some b) (hx : l.Has x) :
    (∀ ρ, l.Holds rmd ρ ↔ b.Sat ρ (ρ x)) ∧ ∀ y, b.val.coeff y ≠ 0 → y ≠ x ∧ l.Has y := by
  obtain ⟨a, s⟩ := l
  cases a with
  | eq p => cases s <;> cases h
  | dvd c p => cases s <;> cases h
  | leq p =>
    simp only [toBound, Option.some.injEq] at h
    subst h
    have hx : p.coeff x ≠ 0 := hx
    refine ⟨fun ρ => ?_, fun y hy => solveFor_coeff hy⟩
    simp only [MLit.Holds, MAtom.Holds, Bound.Sat]
    rw [solveFor_eval hx]
    by_cases hc : p.coeff x < 0
    · cases s
      · simp only [hc, if_true, Bool.not_false, Bool.false_eq_true, if_false, not_le]
        rw [mul_neg_iff]
        constructor
        · rintro (h | h)
          · linarith [h.1]
          · linarith [h.2]
        · intro h; exact .inr ⟨hc, by linarith⟩
      · simp only [hc, if_true, Bool.not_true]
        rw [mul_nonneg_iff]
        constructor
        · rintro (h | h)
          · linarith [h.1]
          · linarith [h.2]
        · intro h; exact .inr ⟨hc.le, by linarith⟩
    · have hc' : 0 < p.coeff x := lt_of_le_of_ne (not_lt.1 hc) (Ne.symm hx)
      cases s
      · simp only [hc, if_false, Bool.not_false, Bool.false_eq_true, not_le]
        rw [mul_neg_iff]
        constructor
        · rintro (h | h)
          · linarith [h.2]
          · linarith [h.1]
        · intro h; exact .inl ⟨hc', by linarith⟩
      · simp only [hc, if_true, Bool.not_true, if_false]
        rw [mul_nonneg_iff]
        constructor
        · rintro (h | h)
          · linarith [h.2]
          · linarith [h.1]
        · intro h; exact .inl ⟨hc'.le, by linarith⟩

theorem mkLt_holds (a b : Poly Rat) (ρ : Var → Rat) : (mkLt a b).Holds rmd ρ ↔ a.eval ρ < b.eval ρ := by
  simp [mkLt, MLit.Holds, MAtom.Holds]

theorem mkLeq_holds (a b : Poly Rat) (ρ : Var → Rat) : (mkLeq a b).Holds rmd ρ ↔ a.eval ρ ≤ b.eval ρ := by
  simp [mkLeq, MLit.Holds, MAtom.Holds]

theorem mkLt_has {a b : Poly Rat} {y : Var} (h : (mkLt a b).Has y) : a.coeff y ≠ 0 ∨ b.coeff y ≠ 0 := by
  simp only [mkLt, MLit.Has, MAtom.poly, Poly.coeff_sub] at h
  by_cases e : a.coeff y = 0
  · exact .inr fun e' => h (by rw [e, e', sub_zero])
  · exact .inl e

theorem mkLeq_has {a b : Poly Rat} {y : Var} (h : (mkLeq a b).Has y) : a.coeff y ≠ 0 ∨ b.coeff y ≠ 0 := by
  simp only [mkLeq, MLit.Has, MAtom.poly, Poly.coeff_sub] at h
  by_cases e : a.coeff y = 0
  · exact .inr fun e' => h (by rw [e, e', sub_zero])
  · exact .inl e

theorem mapM_some {α β : Type} {f : α → Option β} {l : List α} {r : List β} (h : l.mapM f = some r) :
    (∀ a ∈ l, ∃ b ∈ r, f a = some b) ∧ ∀ b ∈ r, ∃ a ∈ l, f a = some b := by
  induction l generalizing r with
  | nil => simp at h; subst h; simp
  | cons a l ih =>
    simp only [List.mapM_cons, Option.bind_eq_bind, Option.bind_eq_some_iff, Option.pure_def, Option.some.injEq] at h
    obtain ⟨b, hb, r', hr, rfl⟩ := h
    obtain ⟨h1, h2⟩ := ih hr
    refine ⟨fun a' ha => ?_, fun b' hb' => ?_⟩
    · rcases List.mem_cons.1 ha with rfl | ha
      · exact ⟨b, by simp, hb⟩
      · obtain ⟨b', h3, h4⟩ := h1 a' ha; exact ⟨b', by simp [h3], h4⟩
    · rcases List.mem_cons.1 hb' with rfl | hb'
      · exact ⟨a, by simp, hb⟩
      · obtain ⟨a', h3, h4⟩ := h2 b' hb'; exact ⟨a', by simp [h3], h4⟩

theorem substituteBound_has {what wh : Bound} {l : MLit Rat} (h : substituteBound what wh = some l) {y : Var}
    (hy : l.Has y) : what.val.coeff y ≠ 0 ∨ wh.val.coeff y ≠ 0 := by
  unfold substituteBound at h
  split at h
  · cases h
  · split at h
    · split at h <;> simp only [Option.some.injEq] at h <;> subst h
      · exact (mkLt_has hy).symm
      · exact (mkLeq_has hy).symm
    · simp only at h
      by_cases e : wh.lower = true
      · simp only [e, Bool.not_true, Bool.false_eq_true, if_false] at h
        split at h <;> simp only [Option.some.injEq] at h <;> subst h
        · exact (mkLt_has hy).symm
        · exact (mkLeq_has hy).symm
      · simp only [e, Bool.not_false, if_true] at h
        split at h <;> simp only [Option.some.injEq] at h <;> subst h
        · exact mkLt_has hy
        · exact mkLeq_has hy

/-- A lower bound dominates another one. -/
def Bound.Dom (h w : Bound) (ρ : Var → Rat) : Prop :=
  w.val.eval ρ ≤ h.val.eval ρ ∧ (w.strict = true → h.strict = false → w.val.eval ρ < h.val.eval ρ)

theorem substituteBound_ll {what wh : Bound} {l : MLit Rat} (h : substituteBound what wh = some l)
    (h1 : what.lower = true) (h2 : wh.lower = true) (ρ : Var → Rat) : l.Holds rmd ρ ↔ what.Dom wh ρ := by
  simp only [substituteBound, h1, h2, Bool.not_true, Bool.and_self, Bool.false_eq_true, if_false, if_true] at h
  unfold Bound.Dom
  split at h <;> rename_i hs <;> simp only [Option.some.injEq] at h <;> subst h
  · simp only [Bool.and_eq_true, Bool.not_eq_true'] at hs
    rw [mkLt_holds]
    exact ⟨fun h => ⟨h.le, fun _ _ => h⟩, fun h => h.2 hs.1 hs.2⟩
  · simp only [Bool.and_eq_true, Bool.not_eq_true', not_and] at hs
    rw [mkLeq_holds]
    exact ⟨fun h => ⟨h, fun h1 h2 => absurd h2 (hs h1)⟩, And.left⟩

theorem substituteBound_lu {what wh : Bound} {l : MLit Rat} (h : substituteBound what wh = some l)
    (h1 : what.lower = true) (h2 : wh.lower = false) (ρ : Var → Rat) : l.Holds rmd ρ ↔
      if wh.strict || what.strict then what.val.eval ρ < wh.val.eval ρ else what.val.eval ρ ≤ wh.val.eval ρ := by
  simp only [substituteBound, h1, h2, Bool.not_true, Bool.not_false, Bool.and_true, Bool.false_and, Bool.false_eq_true,
    if_false, if_true] at h
  split at h <;> rename_i hs <;> simp only [Option.some.injEq] at h <;> subst h
  · rw [mkLt_holds]; simp [hs]
  · rw [mkLeq_holds]; simp [hs]

theorem substituteBound_ul {what wh : Bound} {l : MLit Rat} (h : substituteBound what wh = some l)
    (h1 : what.lower = false) (h2 : wh.lower = true) (ρ : Var → Rat) : l.Holds rmd ρ ↔
      if wh.strict || what.strict then wh.val.eval ρ < what.val.eval ρ else wh.val.eval ρ ≤ what.val.eval ρ := by
  simp only [substituteBound, h1, h2, Bool.not_true, Bool.not_false, Bool.and_true, Bool.and_false, Bool.false_eq_true,
    if_false] at h
  split at h <;> rename_i hs <;> simp only [Option.some.injEq] at h <;> subst h
  · rw [mkLt_holds, Bool.or_comm]; simp [hs]
  · rw [mkLeq_holds, Bool.or_comm]; simp [hs]

theorem exists_above (h : Rat) : ∀ us : List Rat, (∀ u ∈ us, h < u) → ∃ v, h < v ∧ ∀ u ∈ us, v < u
  | [], _ => ⟨h + 1, by linarith, by simp⟩
  | u :: us, hu => by
    obtain ⟨v, h1, h2⟩ := exists_above h us fun u' h' => hu u' (by simp [h'])
    refine ⟨(h + min v u) / 2, ?_, ?_⟩
    · have := lt_min h1 (hu u (by simp)); linarith
    · have h3 := lt_min h1 (hu u (by simp))
      intro u' hu'
      rcases List.mem_cons.1 hu' with rfl | hu'
      · have := min_le_right v u'; linarith
      · have := min_le_left v u; have := h2 u' hu'; linarith

theorem exists_below (h : Rat) (ls : List Rat) (hl : ∀ l ∈ ls, l < h) : ∃ v, v < h ∧ ∀ l ∈ ls, l < v := by
  obtain ⟨v, h1, h2⟩ := exists_above (-h) (ls.map fun l => -l) (by
    intro u hu; obtain ⟨l, h', rfl⟩ := List.mem_map.1 hu; have := hl l h'; linarith)
  refine ⟨-v, by linarith, fun l h' => ?_⟩
  have := h2 (-l) (List.mem_map.2 ⟨l, h', rfl⟩)
  linarith

/-- If the substituted bounds hold there is a value satisfying all bounds (substitution of a lower bound). -/
theorem lift_lower {what : Bound} (hw : what.lower = true) {ws : List Bound} {ρ : Var → Rat}
    (h : ∀ w ∈ ws, ∃ l, substituteBound what w = some l ∧ l.Holds rmd ρ) :
    ∃ v, what.Sat ρ v ∧ ∀ w ∈ ws, w.Sat ρ v := by
  by_cases hs : what.strict = true
  · obtain ⟨v, h1, h2⟩ := exists_above (what.val.eval ρ)
      ((ws.filter fun w => !w.lower).map fun w => w.val.eval ρ) (by
        intro u hu
        obtain ⟨w, hw', rfl⟩ := List.mem_map.1 hu
        rw [List.mem_filter] at hw'
        obtain ⟨l, h1, h2⟩ := h w hw'.1
        rw [substituteBound_lu h1 hw (by simpa using hw'.2)] at h2
        simpa [hs] using h2)
    refine ⟨v, by simpa [Bound.Sat, hw, hs] using h1, fun w hw' => ?_⟩
    obtain ⟨l, h3, h4⟩ := h w hw'
    by_cases e : w.lower = true
    · rw [substituteBound_ll h3 hw e] at h4
      have := h4.1
      unfold Bound.Sat
      rw [e]
      cases w.strict
      · simp only; linarith
      · simp only; linarith
    · have := h2 (w.val.eval ρ) (List.mem_map.2 ⟨w, List.mem_filter.2 ⟨hw', by simpa using e⟩, rfl⟩)
      unfold Bound.Sat
      rw [Bool.not_eq_true] at e
      rw [e]
      cases w.strict
      · simp only; linarith
      · simpa only using this
  · rw [Bool.not_eq_true] at hs
    refine ⟨what.val.eval ρ, by simp [Bound.Sat, hw, hs], fun w hw' => ?_⟩
    obtain ⟨l, h3, h4⟩ := h w hw'
    by_cases e : w.lower = true
    · rw [substituteBound_ll h3 hw e] at h4
      unfold Bound.Sat
      rw [e]
      cases hws : w.strict
      · exact h4.1
      · exact h4.2 hws hs
    · rw [Bool.not_eq_true] at e
      rw [substituteBound_lu h3 hw e] at h4
      unfold Bound.Sat
      rw [e]
      cases hws : w.strict
      · simpa [hws, hs] using h4
      · simpa [hws, hs] using h4

/-- The same for an upper bound substituted into lower bounds. -/
theorem lift_upper {what : Bound} (hw : what.lower = false) {ws : List Bound} (hl : ∀ w ∈ ws, w.lower = true)
    {ρ : Var → Rat} (h : ∀ w ∈ ws, ∃ l, substituteBound what w = some l ∧ l.Holds rmd ρ) :
    ∃ v, what.Sat ρ v ∧ ∀ w ∈ ws, w.Sat ρ v := by
  by_cases hs : what.strict = true
  · obtain ⟨v, h1, h2⟩ := exists_below (what.val.eval ρ) (ws.map fun w => w.val.eval ρ) (by
        intro u hu
        obtain ⟨w, hw', rfl⟩ := List.mem_map.1 hu
        obtain ⟨l, h1, h2⟩ := h w hw'
        rw [substituteBound_ul h1 hw (hl w hw')] at h2
        simpa [hs] using h2)
    refine ⟨v, by simpa [Bound.Sat, hw, hs] using h1, fun w hw' => ?_⟩
    have := h2 (w.val.eval ρ) (List.mem_map.2 ⟨w, hw', rfl⟩)
    unfold Bound.Sat
    rw [hl w hw']
    cases w.strict
    · simp only; linarith
    · simpa only using this
  · rw [Bool.not_eq_true] at hs
    refine ⟨what.val.eval ρ, by simp [Bound.Sat, hw, hs], fun w hw' => ?_⟩
    obtain ⟨l, h3, h4⟩ := h w hw'
    rw [substituteBound_ul h3 hw (hl w hw')] at h4
    unfold Bound.Sat
    rw [hl w hw']
    cases hws : w.strict
    · simpa [hws, hs] using h4
    · simpa [hws, hs] using h4

theorem sat_pair {a b : Bound} (ha : a.lower = true) (hb : b.lower = false) {ρ : Var → Rat} {v : Rat} (h1 : a.Sat ρ v)
    (h2 : b.Sat ρ v) :
    if b.strict || a.strict then a.val.eval ρ < b.val.eval ρ else a.val.eval ρ ≤ b.val.eval ρ := by
  unfold Bound.Sat at h1 h2
  rw [ha] at h1
  rw [hb] at h2
  cases e1 : a.strict <;> cases e2 : b.strict <;> rw [e1] at h1 <;> rw [e2] at h2 <;> simp only at h1 h2 <;>
    simp only [Bool.or_self, Bool.or_true, Bool.or_false, Bool.false_eq_true, if_true, if_false] <;> linarith

theorem pickHighest_spec {ρ : Var → Rat} {v : Rat} {L us : List Bound}
    (hL : ∀ w ∈ L, w.lower = true ∧ w.Sat ρ v) (hu : ∀ u ∈ us, u.lower = false ∧ u.Sat ρ v) :
    ∀ (bs : List Bound) (cur : Bound), cur ∈ L → (∀ b ∈ bs, b ∈ L) → (∀ w ∈ L, w ∈ bs ∨ cur.Dom w ρ) →
      pickHighest ρ us cur bs ∈ L ∧ ∀ w ∈ L, (pickHighest ρ us cur bs).Dom w ρ
  | [], cur, hc, _, hd => ⟨hc, fun w hw => (hd w hw).resolve_left (by simp)⟩
  | b :: bs, cur, hc, hb, hd => by
    unfold pickHighest
    split
    · rename_i h
      refine pickHighest_spec hL hu bs b (hb b (by simp)) (fun b' h' => hb b' (by simp [h'])) fun w hw => ?_
      rcases hd w hw with h' | h'
      · rcases List.mem_cons.1 h' with rfl | h'
        · exact .inr ⟨le_refl _, fun h1 h2 => by rw [h1] at h2; cases h2⟩
        · exact .inl h'
      · refine .inr ⟨?_, fun h1 h2 => ?_⟩
        · have := h'.1
          rcases h with h | h
          · linarith
          · linarith [h.1]
        · rcases h with h | h
          · linarith [h'.1]
          · rw [h.2] at h2; cases h2
    · rename_i h
      rw [not_or] at h
      split
      · rename_i h2
        obtain ⟨u, hu1, hu2⟩ := List.any_eq_true.1 h2.2
        obtain ⟨hb1, hb2⟩ := hL b (hb b (by simp))
        refine ⟨hb b (by simp), fun w hw => ?_⟩
        obtain ⟨hw1, hw2⟩ := hL w hw
        have h3 := sat_pair hb1 (hu u hu1).1 hb2 (hu u hu1).2
        have h4 := sat_pair hw1 (hu u hu1).1 hw2 (hu u hu1).2
        rw [Poly.same_eval hu2] at h3 h4
        have h5 : (u.strict || b.strict) = false := by
          cases e : (u.strict || b.strict)
          · rfl
          · simp [e] at h3
        simp only [Bool.or_eq_false_iff] at h5
        rw [h5.1, Bool.false_or] at h4
        refine ⟨?_, fun h6 _ => ?_⟩
        · split at h4
          · exact h4.le
          · exact h4
        · simpa [h6] using h4
      · refine pickHighest_spec hL hu bs cur hc (fun b' h' => hb b' (by simp [h'])) fun w hw => ?_
        rcases hd w hw with h' | h'
        · rcases List.mem_cons.1 h' with rfl | h'
          · have h1 := not_lt.1 h.1
            refine .inr ⟨h1, fun h3 _ => lt_of_le_of_ne h1 fun e => h.2 ⟨e, h3⟩⟩
          · exact .inl h'
        · exact .inr h'

theorem substituteBounds_spec {what : Bound} {ws : List Bound} {r : List (MLit Rat)}
    (h : substituteBounds what ws = some r) :
    (∀ w ∈ ws, ∃ l, substituteBound what w = some l ∧ ∀ ρ, (∀ l ∈ r, l.Holds rmd ρ) → l.Holds rmd ρ) ∧
    ∀ l ∈ r, ∃ w ∈ ws, substituteBound what w = some l := by
  simp only [substituteBounds, Option.bind_eq_bind, Option.bind_eq_some_iff, Option.pure_def, Option.some.injEq] at h
  obtain ⟨r', hr, rfl⟩ := h
  obtain ⟨h1, h2⟩ := mapM_some hr
  refine ⟨fun w hw => ?_, fun l hl => h2 l (List.mem_filter.1 hl).1⟩
  obtain ⟨l, h3, h4⟩ := h1 w hw
  refine ⟨l, h4, fun ρ hρ => ?_⟩
  by_cases e : l.trivial = true
  · exact MLit.trivial_holds e ρ
  · exact hρ l (List.mem_filter.2 ⟨h3, by simpa using e⟩)

/-- Elimination by bounds. -/
theorem projectBounds_spec {ρ : Var → Rat} {v : Rat} {bounds : List Bound} {rest r : List (MLit Rat)}
    (hb : ∀ b ∈ bounds, b.Sat ρ v) (hr : ∀ l ∈ rest, l.Holds rmd ρ) (h : projectBounds ρ bounds rest = some r) :
    (∀ l ∈ r, l.Holds rmd ρ) ∧
    (∀ l ∈ r, ∀ y, l.Has y → (∃ b ∈ bounds, b.val.coeff y ≠ 0) ∨ ∃ l0 ∈ rest, l0.Has y) ∧
    ∀ ρ', (∀ l ∈ r, l.Holds rmd ρ') → (∀ l ∈ rest, l.Holds rmd ρ') ∧ ∃ v', ∀ b ∈ bounds, b.Sat ρ' v' := by
  unfold projectBounds at h
  simp only at h
  split at h
  · rename_i hl
    cases h
    refine ⟨hr, fun l hl y hy => .inr ⟨l, hl, hy⟩, fun ρ' h' => ⟨h', ?_⟩⟩
    have hall : ∀ b ∈ bounds, b.lower = false := by
      intro b hb'
      cases e : b.lower
      · rfl
      · have : b ∈ bounds.filter (·.lower) := List.mem_filter.2 ⟨hb', e⟩
        rw [hl] at this; cases this
    obtain ⟨v', -, h2⟩ := exists_below ((0 : Rat)) [] (by simp)
    have : ∀ bs : List Bound, (∀ b ∈ bs, b.lower = false) → ∃ v', ∀ b ∈ bs, b.Sat ρ' v' := by
      intro bs hbs
      have : ∀ us : List Rat, ∃ v', ∀ u ∈ us, v' < u := by
        intro us
        induction us with
        | nil => exact ⟨0, by simp⟩
        | cons u us ih =>
          obtain ⟨v', h⟩ := ih
          refine ⟨min v' u - 1, fun u' hu' => ?_⟩
          rcases List.mem_cons.1 hu' with rfl | hu'
          · have := min_le_right v' u'; linarith
          · have := min_le_left v' u; have := h u' hu'; linarith
      obtain ⟨v', h⟩ := this (bs.map fun b => b.val.eval ρ')
      refine ⟨v', fun b hb' => ?_⟩
      have := h _ (List.mem_map.2 ⟨b, hb', rfl⟩)
      unfold Bound.Sat
      rw [hbs b hb']
      cases b.strict <;> simp only <;> linarith
    exact this bounds hall
  · rename_i hu _
    cases h
    refine ⟨hr, fun l hl y hy => .inr ⟨l, hl, hy⟩, fun ρ' h' => ⟨h', ?_⟩⟩
    have hall : ∀ b ∈ bounds, b.lower = true := by
      intro b hb'
      cases e : b.lower
      · have : b ∈ bounds.filter (fun b => !b.lower) := List.mem_filter.2 ⟨hb', by simp [e]⟩
        rw [hu] at this; cases this
      · rfl
    have : ∀ us : List Rat, ∃ v', ∀ u ∈ us, u < v' := by
      intro us
      induction us with
      | nil => exact ⟨0, by simp⟩
      | cons u us ih =>
        obtain ⟨v', h⟩ := ih
        refine ⟨max v' u + 1, fun u' hu' => ?_⟩
        rcases List.mem_cons.1 hu' with rfl | hu'
        · have := le_max_right v' u'; linarith
        · have := le_max_left v' u; have := h u' hu'; linarith
    obtain ⟨v', h⟩ := this (bounds.map fun b => b.val.eval ρ')
    refine ⟨v', fun b hb' => ?_⟩
    have := h _ (List.mem_map.2 ⟨b, hb', rfl⟩)
    unfold Bound.Sat
    rw [hall b hb']
    cases b.strict <;> simp only <;> linarith
  · rename_i l ls' u us' hl hu
    simp only [Option.bind_eq_bind, Option.bind_eq_some_iff, Option.pure_def, Option.some.injEq] at h
    obtain ⟨new, hnew, rfl⟩ := h
    have memL : ∀ b, b ∈ l :: ls' ↔ b ∈ bounds ∧ b.lower = true := by
      intro b; rw [← hl]; simp [List.mem_filter]
    have memU : ∀ b, b ∈ u :: us' ↔ b ∈ bounds ∧ b.lower = false := by
      intro b; rw [← hu]; simp [List.mem_filter]
    -- it suffices to treat the new literals
    have key : (∀ l ∈ new, l.Holds rmd ρ) ∧ (∀ l ∈ new, ∀ y, l.Has y → ∃ b ∈ bounds, b.val.coeff y ≠ 0) ∧
        ∀ ρ', (∀ l ∈ new, l.Holds rmd ρ') → ∃ v', ∀ b ∈ bounds, b.Sat ρ' v' := by
      have vars : ∀ what ∈ bounds, ∀ ws, (∀ w ∈ ws, w ∈ bounds) → substituteBounds what ws = some new →
          ∀ l ∈ new, ∀ y, l.Has y → ∃ b ∈ bounds, b.val.coeff y ≠ 0 := by
        intro what hwhat ws hws hs l hl y hy
        obtain ⟨w, hw, h3⟩ := (substituteBounds_spec hs).2 l hl
        rcases substituteBound_has h3 hy with h | h
        · exact ⟨what, hwhat, h⟩
        · exact ⟨w, hws w hw, h⟩
      have hl0 := (memL l).1 (by simp)
      have hu0 := (memU u).1 (by simp)
      unfold newLiterals at hnew
      split at hnew
      · rename_i he
        rw [List.isEmpty_iff] at he
        subst he
        refine ⟨?_, vars u hu0.1 _ (fun w hw => ((memL w).1 hw).1) hnew, ?_⟩
        · intro l' hl'
          obtain ⟨w, hw, h3⟩ := (substituteBounds_spec hnew).2 l' hl'
          have hw' := (memL w).1 hw
          rw [substituteBound_ul h3 hu0.2 hw'.2]
          have := sat_pair hw'.2 hu0.2 (hb w hw'.1) (hb u hu0.1)
          rw [Bool.or_comm]; exact this
        · intro ρ' h'
          obtain ⟨v', h3, h4⟩ := lift_upper hu0.2 (fun w hw => ((memL w).1 hw).2) (ρ := ρ')
            fun w hw => by
              obtain ⟨l', h5, h6⟩ := (substituteBounds_spec hnew).1 w hw
              exact ⟨l', h5, h6 ρ' h'⟩
          refine ⟨v', fun b hb' => ?_⟩
          cases e : b.lower
          · have := (memU b).2 ⟨hb', e⟩
            simp at this; subst this; exact h3
          · exact h4 b ((memL b).2 ⟨hb', e⟩)
      · split at hnew
        · rename_i he
          rw [List.isEmpty_iff] at he
          subst he
          refine ⟨?_, vars l hl0.1 _ (fun w hw => ((memU w).1 hw).1) hnew, ?_⟩
          · intro l' hl'
            obtain ⟨w, hw, h3⟩ := (substituteBounds_spec hnew).2 l' hl'
            have hw' := (memU w).1 hw
            rw [substituteBound_lu h3 hl0.2 hw'.2]
            exact sat_pair hl0.2 hw'.2 (hb l hl0.1) (hb w hw'.1)
          · intro ρ' h'
            obtain ⟨v', h3, h4⟩ := lift_lower hl0.2 (ws := u :: us') (ρ := ρ')
              fun w hw => by
                obtain ⟨l', h5, h6⟩ := (substituteBounds_spec hnew).1 w hw
                exact ⟨l', h5, h6 ρ' h'⟩
            refine ⟨v', fun b hb' => ?_⟩
            cases e : b.lower
            · exact h4 b ((memU b).2 ⟨hb', e⟩)
            · have := (memL b).2 ⟨hb', e⟩
              simp at this; subst this; exact h3
        · obtain ⟨hp1, hp2⟩ := pickHighest_spec (ρ := ρ) (v := v) (L := l :: ls') (us := u :: us')
            (fun w hw => ⟨((memL w).1 hw).2, hb w ((memL w).1 hw).1⟩)
            (fun w hw => ⟨((memU w).1 hw).2, hb w ((memU w).1 hw).1⟩) ls' l (by simp) (fun b h => by simp [h])
            (fun w hw => by
              rcases List.mem_cons.1 hw with rfl | hw
              · exact .inr ⟨le_refl _, fun h1 h2 => by rw [h1] at h2; cases h2⟩
              · exact .inl hw)
          generalize pickHighest ρ (u :: us') l ls' = g at hp1 hp2 hnew
          have hg := (memL g).1 hp1
          refine ⟨?_, vars g hg.1 _ (fun w hw => hw) hnew, ?_⟩
          · intro l' hl'
            obtain ⟨w, hw, h3⟩ := (substituteBounds_spec hnew).2 l' hl'
            cases e : w.lower
            · rw [substituteBound_lu h3 hg.2 e]
              exact sat_pair hg.2 e (hb g hg.1) (hb w hw)
            · rw [substituteBound_ll h3 hg.2 e]
              exact hp2 w ((memL w).2 ⟨hw, e⟩)
          · intro ρ' h'
            obtain ⟨v', h3, h4⟩ := lift_lower hg.2 (ws := bounds) (ρ := ρ')
              fun w hw => by
                obtain ⟨l', h5, h6⟩ := (substituteBounds_spec hnew).1 w hw
                exact ⟨l', h5, h6 ρ' h'⟩
            exact ⟨v', h4⟩
    obtain ⟨k1, k2, k3⟩ := key
    refine ⟨?_, ?_, ?_⟩
    · rw [MLit.postprocess_holds]
      intro l' hl'
      exact (List.mem_append.1 hl').elim (k1 l') (hr l')
    · intro l' hl' y hy
      obtain ⟨l0, h0, h1⟩ := MLit.postprocess_vars hl' hy
      rcases List.mem_append.1 h0 with h0 | h0
      · exact .inl (k2 l0 h0 y h1)
      · exact .inr ⟨l0, h0, h1⟩
    · intro ρ' h'
      rw [MLit.postprocess_holds] at h'
      exact ⟨fun l' hl' => h' l' (by simp [hl']), k3 ρ' fun l' hl' => h' l' (by simp [hl'])⟩

/-- Elimination of one real variable. -/
theorem projectRealVar_ok {ρ : Var → Rat} {x : Var} {lits r : List (MLit Rat)} (hm : ∀ l ∈ lits, l.Holds rmd ρ)
    (h : projectRealVar ρ x lits = some r) : ProjOk rmd (· = x) ρ lits r := by
  unfold projectRealVar at h
  simp only at h
  have memI : ∀ l, l ∈ lits.filter (MLit.hasVar x) ↔ l ∈ lits ∧ l.Has x := by
    intro l; rw [List.mem_filter, MLit.hasVar_iff]
  have memR : ∀ l, l ∈ lits.filter (fun l => !MLit.hasVar x l) ↔ l ∈ lits ∧ ¬ l.Has x := by
    intro l; rw [List.mem_filter, ← MLit.hasVar_iff]; simp
  have hs := realScan_spec ρ [] (lits.filter (MLit.hasVar x))
  rw [List.nil_append] at hs
  split at h
  · rename_i p all he
    rw [he] at hs
    obtain ⟨hs, hp⟩ := hs
    cases h
    have hx : p.coeff x ≠ 0 := by
      obtain ⟨l0, h0, h1⟩ := hs.vars _ hp
      exact (h1 x).2 ((memI l0).1 h0).2
    have hall := hs.model fun l hl => hm l ((memI l).1 hl).1
    have val : ∀ ρ', p.eval ρ' = 0 → ρ' x = (solveFor x p).eval ρ' := by
      intro ρ' h0
      rw [solveFor_eval hx] at h0
      rcases mul_eq_zero.1 h0 with h0 | h0
      · exact absurd h0 hx
      · linarith
    refine ⟨?_, ?_, ?_⟩
    · intro l hl
      rcases List.mem_append.1 (List.mem_filter.1 hl).1 with h1 | h1
      · obtain ⟨l', h2, rfl⟩ := List.mem_map.1 h1
        rw [MLit.holds_subst]
        have h3 : p.eval ρ = 0 := by simpa [MLit.Holds, MAtom.Holds] using hall _ hp
        have : upd ρ x ((solveFor x p).eval ρ) = ρ := by
          funext y
          by_cases e : y = x
          · simp only [upd, e, if_true]; exact (val ρ h3).symm
          · simp [upd, e]
        rw [this]; exact hall l' h2
      · exact hm l ((memR l).1 h1).1
    · intro l hl y hy
      rcases List.mem_append.1 (List.mem_filter.1 hl).1 with h1 | h1
      · obtain ⟨l', h2, rfl⟩ := List.mem_map.1 h1
        rcases MLit.has_subst hy with h3 | h3
        · obtain ⟨l0, h4, h5⟩ := hs.vars l' h2
          exact ⟨h3.1, l0, ((memI l0).1 h4).1, (h5 y).1 h3.2⟩
        · obtain ⟨h4, h5⟩ := solveFor_coeff h3.2
          obtain ⟨l0, h6, h7⟩ := hs.vars _ hp
          exact ⟨h4, l0, ((memI l0).1 h6).1, (h7 y).1 h5⟩
      · refine ⟨?_, l, ((memR l).1 h1).1, hy⟩
        rintro rfl
        exact ((memR l).1 h1).2 hy
    · intro ρ' h'
      have h'' : ∀ l ∈ all.map (MLit.subst x (solveFor x p)) ++ lits.filter (fun l => !MLit.hasVar x l),
          l.Holds rmd ρ' := by
        intro l hl
        by_cases e : l.trivial = true
        · exact MLit.trivial_holds e ρ'
        · exact h' l (List.mem_filter.2 ⟨hl, by simpa using e⟩)
      refine ⟨upd ρ' x ((solveFor x p).eval ρ'), fun y hy => by simp [upd, hy], fun l hl => ?_⟩
      by_cases e : l.Has x
      · refine hs.imp _ (fun l' h2 => ?_) l ((memI l).2 ⟨hl, e⟩)
        rw [← MLit.holds_subst]
        exact h'' _ (List.mem_append.2 (.inl (List.mem_map.2 ⟨l', h2, rfl⟩)))
      · rw [MLit.holds_upd e]
        exact h'' l (List.mem_append.2 (.inr ((memR l).2 ⟨hl, e⟩)))
  · rename_i ineqs he
    rw [he] at hs
    simp only [Option.bind_eq_bind, Option.bind_eq_some_iff] at h
    obtain ⟨bounds, hbs, h⟩ := h
    obtain ⟨m1, m2⟩ := mapM_some hbs
    have hall := hs.model fun l hl => hm l ((memI l).1 hl).1
    have hasx : ∀ l ∈ ineqs, l.Has x := by
      intro l hl
      obtain ⟨l0, h0, h1⟩ := hs.vars l hl
      exact (h1 x).2 ((memI l0).1 h0).2
    obtain ⟨k1, k2, k3⟩ := projectBounds_spec (v := ρ x) (fun b hb => by
        obtain ⟨l, h1, h2⟩ := m2 b hb
        exact ((toBound_spec h2 (hasx l h1)).1 ρ).1 (hall l h1)) (fun l hl => hm l ((memR l).1 hl).1) h
    refine ⟨k1, fun l hl y hy => ?_, fun ρ' h' => ?_⟩
    · rcases k2 l hl y hy with ⟨b, h1, h2⟩ | ⟨l0, h1, h2⟩
      · obtain ⟨l', h3, h4⟩ := m2 b h1
        obtain ⟨h5, h6⟩ := (toBound_spec h4 (hasx l' h3)).2 y h2
        obtain ⟨l0, h7, h8⟩ := hs.vars l' h3
        exact ⟨h5, l0, ((memI l0).1 h7).1, (h8 y).1 h6⟩
      · refine ⟨?_, l0, ((memR l0).1 h1).1, h2⟩
        rintro rfl
        exact ((memR l0).1 h1).2 h2
    · obtain ⟨h1, v', h2⟩ := k3 ρ' h'
      refine ⟨upd ρ' x v', fun y hy => by simp [upd, hy], fun l hl => ?_⟩
      by_cases e : l.Has x
      · refine hs.imp _ (fun l' h3 => ?_) l ((memI l).2 ⟨hl, e⟩)
        obtain ⟨b, h4, h5⟩ := m1 l' h3
        obtain ⟨h6, h7⟩ := toBound_spec h5 (hasx l' h3)
        rw [h6]
        have h8 := h2 b h4
        have e2 : b.val.eval (upd ρ' x v') = b.val.eval ρ' :=
          Poly.eval_upd_notin (Classical.byContradiction fun hn => (h7 x hn).1 rfl) _ _
        have e3 : upd ρ' x v' x = v' := by simp [upd]
        unfold Bound.Sat at h8 ⊢
        rw [e2, e3]; exact h8
      · rw [MLit.holds_upd e]
        exact h1 l ((memR l).2 ⟨hl, e⟩)

/-- Elimination of real variables. -/
theorem projectRealVars_ok {ρ : Var → Rat} (xs : List Var) {lits r : List (MLit Rat)}
    (hm : ∀ l ∈ lits, l.Holds rmd ρ) (h : projectRealVars ρ xs lits = some r) :
    ProjOk rmd (· ∈ xs) ρ lits r := by
  induction xs generalizing lits with
  | nil =>
    cases h
    exact ⟨hm, fun l hl y hy => ⟨by simp, l, hl, hy⟩, fun ρ' h' => ⟨ρ', fun _ _ => rfl, h'⟩⟩
  | cons x xs ih =>
    simp only [projectRealVars, Option.bind_eq_bind, Option.bind_eq_some_iff] at h
    obtain ⟨r1, h1, h2⟩ := h
    have o1 := projectRealVar_ok hm h1
    have o := o1.trans (ih o1.model h2)
    have e : (fun y => y ∈ x :: xs) = fun y => y = x ∨ y ∈ xs := by funext y; simp
    rw [e]; exact o

end Golem
