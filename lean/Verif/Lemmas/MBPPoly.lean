import Mathlib.Tactic.Ring
import Mathlib.Tactic.Linarith
import Mathlib.Tactic.LinearCombination
import Mathlib.Algebra.BigOperators.Group.List.Basic
import Verif.Model.MBP

/-! Linear terms and literals: evaluation, coefficients, substitution, reading and writing. -/

set_option linter.unusedSectionVars false
set_option linter.unusedSimpArgs false

namespace Golem

/-- Change of one value. -/
def upd {K : Type} (ρ : Var → K) (x : Var) (v : K) : Var → K := fun y => if y = x then v else ρ y

namespace Poly
variable {K : Type} [CommRing K] [DecidableEq K]

theorem eval_split (p : Poly K) (x : Var) (ρ : Var → K) : p.eval ρ = p.coeff x * ρ x + (p.erase x).eval ρ := by
  obtain ⟨cs, k⟩ := p
  simp only [eval, coeff, erase]
  induction cs with
  | nil => simp
  | cons m cs ih =>
    by_cases h : m.1 = x
    · simp only [h, List.filter_cons, decide_true, if_true, List.map_cons, List.sum_cons, ne_eq, not_true_eq_false,
        decide_false, Bool.false_eq_true, if_false] at ih ⊢
      linear_combination ih
    · simp only [h, List.filter_cons, decide_true, if_true, List.map_cons, List.sum_cons, ne_eq, not_false_eq_true,
        decide_false, Bool.false_eq_true, if_false] at ih ⊢
      linear_combination ih

@[simp] theorem eval_add (p q : Poly K) (ρ : Var → K) : (p.add q).eval ρ = p.eval ρ + q.eval ρ := by
  simp only [eval, add, List.map_append, List.sum_append]; ring

@[simp] theorem eval_smul (c : K) (p : Poly K) (ρ : Var → K) : (p.smul c).eval ρ = c * p.eval ρ := by
  obtain ⟨cs, k⟩ := p
  simp only [eval, smul, List.map_map]
  induction cs with
  | nil => simp
  | cons m cs ih => simp only [List.map_cons, List.sum_cons, Function.comp_apply] at ih ⊢; linear_combination ih

@[simp] theorem eval_neg (p : Poly K) (ρ : Var → K) : p.neg.eval ρ = -p.eval ρ := by simp [neg]
@[simp] theorem eval_sub (p q : Poly K) (ρ : Var → K) : (p.sub q).eval ρ = p.eval ρ - q.eval ρ := by
  simp [sub, sub_eq_add_neg]
omit [DecidableEq K] in
@[simp] theorem eval_const (c : K) (ρ : Var → K) : (Poly.const c).eval ρ = c := by simp [eval, const]
omit [DecidableEq K] in
@[simp] theorem eval_ofVar (x : Var) (ρ : Var → K) : (Poly.ofVar x : Poly K).eval ρ = ρ x := by simp [eval, ofVar]

@[simp] theorem coeff_add (p q : Poly K) (x : Var) : (p.add q).coeff x = p.coeff x + q.coeff x := by
  simp [coeff, add]

@[simp] theorem coeff_smul (c : K) (p : Poly K) (x : Var) : (p.smul c).coeff x = c * p.coeff x := by
  obtain ⟨cs, k⟩ := p
  simp only [coeff, smul]
  induction cs with
  | nil => simp
  | cons m cs ih =>
    by_cases h : m.1 = x
    · simp only [h, List.filter_cons, decide_true, if_true, List.map_cons, List.sum_cons] at ih ⊢
      linear_combination ih
    · simp only [h, List.filter_cons, decide_false, Bool.false_eq_true, if_false, List.map_cons] at ih ⊢
      exact ih

@[simp] theorem coeff_neg (p : Poly K) (x : Var) : p.neg.coeff x = -p.coeff x := by simp [neg]
@[simp] theorem coeff_sub (p q : Poly K) (x : Var) : (p.sub q).coeff x = p.coeff x - q.coeff x := by
  simp [sub, sub_eq_add_neg]
omit [DecidableEq K] in
@[simp] theorem coeff_const (c : K) (x : Var) : (Poly.const c).coeff x = 0 := by simp [coeff, const]
omit [DecidableEq K] in
theorem coeff_ofVar (x y : Var) : (Poly.ofVar x : Poly K).coeff y = if x = y then 1 else 0 := by
  by_cases h : x = y <;> simp [coeff, ofVar, h]

theorem coeff_erase (p : Poly K) (x y : Var) : (p.erase x).coeff y = if y = x then 0 else p.coeff y := by
  simp only [coeff, erase, List.filter_filter]
  by_cases h : y = x
  · subst h
    have : (p.cs.filter fun m => decide (m.1 = y) && decide (m.1 ≠ y)) = [] := by
      rw [List.filter_eq_nil_iff]; intro m _; simp
    simp [this]
  · simp only [h, if_false]
    congr 2
    apply List.filter_congr
    intro m _
    by_cases hm : m.1 = y
    · have : m.1 ≠ x := by rw [hm]; exact h
      simp [hm, h]
    · simp [hm]

@[simp] theorem coeff_erase_self (p : Poly K) (x : Var) : (p.erase x).coeff x = 0 := by simp [coeff_erase]

theorem coeff_subst (x : Var) (s p : Poly K) (y : Var) :
    (p.subst x s).coeff y = (if y = x then 0 else p.coeff y) + p.coeff x * s.coeff y := by
  simp [subst, coeff_erase]

theorem hasVar_iff {p : Poly K} {x : Var} : p.hasVar x = true ↔ p.coeff x ≠ 0 := by simp [hasVar]

omit [DecidableEq K] in
theorem coeff_notin {p : Poly K} {x : Var} (h : x ∉ p.cs.map Prod.fst) : p.coeff x = 0 := by
  have : p.cs.filter (fun m => decide (m.1 = x)) = [] := by
    rw [List.filter_eq_nil_iff]
    intro m hm he
    exact h (List.mem_map.2 ⟨m, hm, by simpa using he⟩)
  simp [coeff, this]

theorem mem_vars {p : Poly K} {x : Var} : x ∈ p.vars ↔ p.coeff x ≠ 0 := by
  simp only [vars, List.mem_filter, List.mem_dedup, hasVar_iff]
  constructor
  · exact fun h => h.2
  · intro h
    refine ⟨?_, h⟩
    apply Classical.byContradiction
    intro hn
    exact h (coeff_notin hn)

omit [DecidableEq K] in
theorem coeff_cons (m : Var × K) (cs : List (Var × K)) (k : K) (x : Var) :
    (⟨m :: cs, k⟩ : Poly K).coeff x = (if m.1 = x then m.2 else 0) + (⟨cs, k⟩ : Poly K).coeff x := by
  by_cases h : m.1 = x <;> simp [coeff, List.filter_cons, h]

omit [DecidableEq K] in
theorem sum_ite {V : List Var} (hn : V.Nodup) {x : Var} (hx : x ∈ V) (c : K) (ρ : Var → K) :
    (V.map fun y => (if x = y then c else 0) * ρ y).sum = c * ρ x := by
  have hz : ∀ W : List Var, x ∉ W → (W.map fun y => (if x = y then c else 0) * ρ y).sum = 0 := by
    intro W
    induction W with
    | nil => simp
    | cons y W ih =>
      intro h
      rw [List.mem_cons, not_or] at h
      have := ih h.2
      simp only [List.map_cons, List.sum_cons, h.1, if_false, zero_mul, zero_add]
      exact this
  induction V with
  | nil => cases hx
  | cons y V ih =>
    rw [List.nodup_cons] at hn
    by_cases h : x = y
    · subst h
      simp only [List.map_cons, List.sum_cons, if_true]
      rw [hz V hn.1, add_zero]
    · have := ih hn.2 (by simpa [h] using hx)
      simp only [List.map_cons, List.sum_cons, h, if_false, zero_mul, zero_add]
      exact this

omit [DecidableEq K] in
theorem sum_over (cs : List (Var × K)) (k : K) (ρ : Var → K) {V : List Var} (hn : V.Nodup)
    (hV : ∀ m ∈ cs, m.1 ∈ V) :
    (V.map fun x => (⟨cs, k⟩ : Poly K).coeff x * ρ x).sum = (cs.map fun m => m.2 * ρ m.1).sum := by
  induction cs with
  | nil =>
    have : ∀ V : List Var, (V.map fun x => (⟨[], k⟩ : Poly K).coeff x * ρ x).sum = 0 := by
      intro V
      induction V with
      | nil => rfl
      | cons y V ih => rw [List.map_cons, List.sum_cons, ih]; simp [coeff]
    rw [this]; rfl
  | cons m cs ih =>
    have e : (V.map fun x => (⟨m :: cs, k⟩ : Poly K).coeff x * ρ x) =
        V.map fun x => (if m.1 = x then m.2 else 0) * ρ x + (⟨cs, k⟩ : Poly K).coeff x * ρ x :=
      List.map_congr_left fun x _ => by rw [coeff_cons]; ring
    rw [e, List.sum_map_add, sum_ite hn (hV m (by simp)), ih fun m' h => hV m' (by simp [h])]
    simp

theorem eval_norm (p : Poly K) (ρ : Var → K) : p.norm.eval ρ = p.eval ρ := by
  obtain ⟨cs, k⟩ := p
  have h := sum_over cs k ρ (V := (cs.map Prod.fst).dedup) (List.nodup_dedup _)
    fun m hm => List.mem_dedup.2 (List.mem_map.2 ⟨m, hm, rfl⟩)
  have hf : ∀ W : List Var, ((W.filter fun x => (⟨cs, k⟩ : Poly K).hasVar x).map
      fun x => (⟨cs, k⟩ : Poly K).coeff x * ρ x).sum = (W.map fun x => (⟨cs, k⟩ : Poly K).coeff x * ρ x).sum := by
    intro W
    induction W with
    | nil => rfl
    | cons y W ih =>
      by_cases hy : (⟨cs, k⟩ : Poly K).coeff y = 0
      · simp [List.filter_cons, hasVar, hy] at ih ⊢; exact ih
      · simp [List.filter_cons, hasVar, hy] at ih ⊢; exact ih
  simp only [eval, norm, vars, List.map_map]
  rw [← h, ← hf]
  rfl

theorem vars_nodup (p : Poly K) : p.vars.Nodup := (List.nodup_dedup _).filter _

theorem coeff_norm (p : Poly K) (x : Var) : p.norm.coeff x = p.coeff x := by
  have h1 := eval_split p.norm x (fun y => if y = x then 1 else 0)
  have h2 := eval_split p.norm x (fun _ => 0)
  have h3 := eval_split p x (fun y => if y = x then 1 else 0)
  have h4 := eval_split p x (fun _ => 0)
  rw [eval_norm] at h1 h2
  have e : ∀ q : Poly K, (q.erase x).eval (fun y => if y = x then 1 else 0) = (q.erase x).eval fun _ => 0 := by
    intro q
    simp only [eval, erase]
    congr 2
    apply List.map_congr_left
    intro m hm
    have := (List.mem_filter.1 hm).2
    simp only [decide_eq_true_eq] at this
    simp [this]
  rw [e] at h1 h3
  simp only [if_true, mul_one, mul_zero, zero_add] at h1 h2 h3 h4
  linear_combination h3 - h1 + h2 - h4

theorem eval_congr {p : Poly K} {ρ ρ' : Var → K} (h : ∀ x, p.coeff x ≠ 0 → ρ x = ρ' x) : p.eval ρ = p.eval ρ' := by
  rw [← eval_norm, ← eval_norm p ρ']
  simp only [eval, norm, List.map_map]
  congr 2
  apply List.map_congr_left
  intro x hx
  simp [h x (mem_vars.1 hx)]

theorem eval_upd_notin {p : Poly K} {x : Var} (h : p.coeff x = 0) (ρ : Var → K) (v : K) :
    p.eval (upd ρ x v) = p.eval ρ := by
  apply eval_congr
  intro y hy
  have : y ≠ x := by rintro rfl; exact hy h
  simp [upd, this]

theorem eval_upd (p : Poly K) (x : Var) (ρ : Var → K) (v : K) :
    p.eval (upd ρ x v) = p.coeff x * v + (p.erase x).eval ρ := by
  rw [eval_split p x, eval_upd_notin (coeff_erase_self p x)]
  simp [upd]

theorem eval_subst (x : Var) (s p : Poly K) (ρ : Var → K) :
    (p.subst x s).eval ρ = p.eval (upd ρ x (s.eval ρ)) := by
  rw [eval_upd]; simp [subst, add_comm]

theorem isConst_coeff {p : Poly K} (h : p.isConst = true) (x : Var) : p.coeff x = 0 := by
  apply Classical.byContradiction
  intro hx
  have : x ∈ p.cs.map Prod.fst := Classical.byContradiction fun hn => hx (coeff_notin hn)
  obtain ⟨m, hm, rfl⟩ := List.mem_map.1 this
  have := List.all_eq_true.1 h m hm
  simp [hasVar] at this
  exact hx this

theorem isConst_eval {p : Poly K} (h : p.isConst = true) (ρ : Var → K) : p.eval ρ = p.k := by
  have : p.vars = [] := by
    rw [List.eq_nil_iff_forall_not_mem]
    intro x hx
    exact mem_vars.1 hx (isConst_coeff h x)
  rw [← eval_norm]; simp [eval, norm, this]

theorem same_eval {p q : Poly K} (h : p.same q = true) (ρ : Var → K) : p.eval ρ = q.eval ρ := by
  simp only [same, Bool.and_eq_true, decide_eq_true_eq] at h
  have := isConst_eval h.1 ρ
  rw [eval_sub, h.2] at this
  exact sub_eq_zero.1 this

end Poly

section
variable {K : Type} [CommRing K] [LinearOrder K] [IsStrictOrderedRing K] {md : K → K → K}

theorem Poly.toTm_eval (p : Poly K) (ρ : Var → K) : (p.toTm (md := md)).eval ρ = p.eval ρ := by
  rw [← Poly.eval_norm]
  unfold Poly.toTm Poly.eval
  induction p.norm.cs with
  | nil => simp [Tm.eval, Poly.norm]
  | cons m cs ih =>
    simp only [List.foldr_cons, Tm.eval, List.map_cons, List.sum_cons] at ih ⊢
    rw [ih]; ring

theorem Poly.toTm_vars {p : Poly K} {x : Var} (h : x ∈ (p.toTm (md := md)).vars) : p.coeff x ≠ 0 := by
  unfold Poly.toTm at h
  have : ∀ cs : List (Var × K), x ∈ (cs.foldr (fun m t => (Tm.ap2 ASym.plus (.ap2 ASym.times (.const m.2) (.var m.1)) t))
      (.const p.k) : Tm (laTheory K md)).vars → x ∈ cs.map Prod.fst := by
    intro cs
    induction cs with
    | nil => simp [Tm.vars]
    | cons m cs ih =>
      simp only [List.foldr_cons, Tm.vars, List.nil_append, List.mem_append, List.mem_singleton, List.map_cons,
        List.mem_cons]
      rintro ((h | h) | h)
      · exact .inl h
      · cases h
      · exact .inr (ih h)
  have := this _ h
  simp only [Poly.norm, List.map_map] at this
  obtain ⟨y, hy, rfl⟩ := List.mem_map.1 this
  exact Poly.mem_vars.1 hy

theorem Poly.ofTm_spec {t : Tm (laTheory K md)} {p : Poly K} (h : Poly.ofTm t = some p) :
    (∀ ρ : Var → K, p.eval ρ = t.eval ρ) ∧ ∀ x, p.coeff x ≠ 0 → x ∈ t.vars := by
  induction t generalizing p with
  | var x =>
    cases h
    refine ⟨fun ρ => by simp [Tm.eval], fun y hy => ?_⟩
    rw [Poly.coeff_ofVar] at hy
    by_cases e : x = y
    · simp [Tm.vars, e]
    · simp [e] at hy
  | const c => cases h; exact ⟨fun ρ => by simp [Tm.eval], fun y hy => absurd (Poly.coeff_const c y) hy⟩
  | ap1 f a ih => cases h
  | ap3 f a b c => cases h
  | ap2 f a b iha ihb =>
    cases f with
    | plus =>
      simp only [Poly.ofTm, Option.bind_eq_bind, Option.bind_eq_some_iff, Option.pure_def, Option.some.injEq] at h
      obtain ⟨q, hq, r, hr, rfl⟩ := h
      obtain ⟨h1, h2⟩ := iha hq
      obtain ⟨h3, h4⟩ := ihb hr
      refine ⟨fun ρ => by simp [Tm.eval, h1, h3], fun x hx => ?_⟩
      simp only [Tm.vars, List.mem_append]
      by_cases e : q.coeff x = 0
      · exact .inr (h4 x (by simpa [e] using hx))
      · exact .inl (h2 x e)
    | times =>
      simp only [Poly.ofTm, Option.bind_eq_bind, Option.bind_eq_some_iff, Option.pure_def] at h
      obtain ⟨q, hq, r, hr, h⟩ := h
      obtain ⟨h1, h2⟩ := iha hq
      obtain ⟨h3, h4⟩ := ihb hr
      split at h
      · rename_i hc
        cases h
        refine ⟨fun ρ => by rw [Poly.eval_smul]; simp [Tm.eval, ← h1, ← h3, Poly.isConst_eval hc], fun x hx => ?_⟩
        simp only [Tm.vars, List.mem_append]
        exact .inr (h4 x fun e => hx (by simp [e]))
      · split at h
        · rename_i hc
          cases h
          refine ⟨fun ρ => by rw [Poly.eval_smul]; simp [Tm.eval, ← h1, ← h3, Poly.isConst_eval hc, mul_comm], fun x hx => ?_⟩
          simp only [Tm.vars, List.mem_append]
          exact .inl (h2 x fun e => hx (by simp [e]))
        · cases h
    | leq => cases h
    | mod => cases h

/-! ### Literals -/

/-- Meaning of an atom. -/
def MAtom.Holds (md : K → K → K) (ρ : Var → K) : MAtom K → Prop
  | .leq p => 0 ≤ p.eval ρ
  | .eq p => p.eval ρ = 0
  | .dvd c p => md (p.eval ρ) c = 0

def MLit.Holds (md : K → K → K) (ρ : Var → K) (l : MLit K) : Prop := if l.2 then l.1.Holds md ρ else ¬ l.1.Holds md ρ

/-- The literal contains the variable. -/
def MLit.Has (l : MLit K) (x : Var) : Prop := l.1.poly.coeff x ≠ 0

theorem MLit.hasVar_iff {l : MLit K} {x : Var} : MLit.hasVar x l = true ↔ l.Has x := Poly.hasVar_iff

theorem MAtom.fla_holds (a : MAtom K) (ρ : Var → K) : (a.fla (md := md)).holds ρ ↔ a.Holds md ρ := by
  cases a with
  | leq p =>
    simp only [MAtom.fla, Fla.holds, Tm.eval, MAtom.Holds, Poly.toTm_eval]
    by_cases h : 0 ≤ p.eval ρ <;> simp [h]
  | eq p => simp only [MAtom.fla, Fla.holds, Tm.eval, MAtom.Holds, Poly.toTm_eval]
  | dvd c p => simp only [MAtom.fla, Fla.holds, Tm.eval, MAtom.Holds, Poly.toTm_eval]

theorem MLit.fla_holds (l : MLit K) (ρ : Var → K) : (l.fla (md := md)).holds ρ ↔ l.Holds md ρ := by
  unfold MLit.fla MLit.Holds
  split
  · exact MAtom.fla_holds _ _
  · simp only [Fla.holds]; rw [MAtom.fla_holds]

theorem MLit.fla_vars {l : MLit K} {x : Var} (h : x ∈ (l.fla (md := md)).vars) : l.Has x := by
  have : x ∈ (l.1.fla (md := md)).vars := by
    unfold MLit.fla at h
    split at h <;> exact h
  obtain ⟨a, s⟩ := l
  cases a <;> simp [MAtom.fla, Fla.vars, Tm.vars] at this <;> exact Poly.toTm_vars this

theorem MAtom.parse_spec {f : Fla (laTheory K md)} {a : MAtom K} (h : MAtom.parse f = some a) :
    (∀ ρ : Var → K, a.Holds md ρ ↔ f.holds ρ) ∧ (∀ x, a.poly.coeff x ≠ 0 → x ∈ f.vars) ∧
    ∀ c p, a = .dvd c p → 0 < c := by
  unfold MAtom.parse at h
  split at h
  · rename_i a' b'
    simp only [Option.bind_eq_bind, Option.bind_eq_some_iff, Option.pure_def, Option.some.injEq] at h
    obtain ⟨q, hq, r, hr, rfl⟩ := h
    obtain ⟨h1, h2⟩ := Poly.ofTm_spec hq
    obtain ⟨h3, h4⟩ := Poly.ofTm_spec hr
    refine ⟨fun ρ => ?_, fun x hx => ?_, fun c p h => by cases h⟩
    · have e : (0 ≤ b'.eval ρ - a'.eval ρ) ↔ a'.eval ρ ≤ b'.eval ρ := sub_nonneg
      simp only [MAtom.Holds, Poly.eval_sub, h1, h3, Fla.holds, Tm.eval]
      rw [e]
      by_cases h : a'.eval ρ ≤ b'.eval ρ <;> simp [h]
    · simp only [MAtom.poly, Poly.coeff_sub] at hx
      simp only [Fla.vars, Tm.vars, List.mem_append]
      by_cases e : q.coeff x = 0
      · exact .inl (h4 x (by simpa [e] using hx))
      · exact .inr (h2 x e)
  · split at h
    · rename_i hc
      simp only [Option.bind_eq_bind, Option.bind_eq_some_iff, Option.pure_def, Option.some.injEq] at h
      obtain ⟨q, hq, rfl⟩ := h
      obtain ⟨h1, h2⟩ := Poly.ofTm_spec hq
      refine ⟨fun ρ => ?_, fun x hx => ?_, fun c p h => by cases h; exact hc.1⟩
      · simp only [MAtom.Holds, h1, Fla.holds, Tm.eval, hc.2]
      · simp only [Fla.vars, Tm.vars, List.append_nil]
        exact h2 x hx
    · cases h
  · split at h
    · rename_i hc
      simp only [Option.bind_eq_bind, Option.bind_eq_some_iff, Option.pure_def, Option.some.injEq] at h
      obtain ⟨q, hq, rfl⟩ := h
      obtain ⟨h1, h2⟩ := Poly.ofTm_spec hq
      refine ⟨fun ρ => ?_, fun x hx => ?_, fun c p h => by cases h; exact hc.1⟩
      · simp only [MAtom.Holds, h1, Fla.holds, Tm.eval, hc.2, eq_comm]
      · simp only [Fla.vars, Tm.vars, List.append_nil, List.nil_append]
        exact h2 x hx
    · cases h
  · simp only [Option.bind_eq_bind, Option.bind_eq_some_iff, Option.pure_def, Option.some.injEq] at h
    obtain ⟨q, hq, r, hr, rfl⟩ := h
    obtain ⟨h1, h2⟩ := Poly.ofTm_spec hq
    obtain ⟨h3, h4⟩ := Poly.ofTm_spec hr
    refine ⟨fun ρ => ?_, fun x hx => ?_, fun c p h => by cases h⟩
    · simp only [MAtom.Holds, Poly.eval_sub, h1, h3, sub_eq_zero, Fla.holds]
    · simp only [MAtom.poly, Poly.coeff_sub] at hx
      simp only [Fla.vars, List.mem_append]
      by_cases e : q.coeff x = 0
      · exact .inr (h4 x (by simpa [e] using hx))
      · exact .inl (h2 x e)
  · cases h

theorem MLit.parse_spec {l : Lit (laTheory K md)} {m : MLit K} (h : MLit.parse l = some m) :
    (∀ ρ : Var → K, m.Holds md ρ ↔ l.fla.holds ρ) ∧ (∀ x, m.Has x → x ∈ l.1.vars) ∧
    ∀ c p, m.1 = .dvd c p → 0 < c := by
  simp only [MLit.parse, Option.bind_eq_bind, Option.bind_eq_some_iff, Option.pure_def, Option.some.injEq] at h
  obtain ⟨a, ha, rfl⟩ := h
  obtain ⟨h1, h2, h3⟩ := MAtom.parse_spec ha
  refine ⟨fun ρ => ?_, h2, h3⟩
  unfold MLit.Holds Lit.fla
  simp only
  split
  · exact h1 ρ
  · simp only [Fla.holds, h1]

theorem MLit.holds_congr {l : MLit K} {ρ ρ' : Var → K} (h : ∀ x, l.Has x → ρ x = ρ' x) :
    l.Holds md ρ ↔ l.Holds md ρ' := by
  have e : l.1.poly.eval ρ = l.1.poly.eval ρ' := Poly.eval_congr h
  obtain ⟨a, s⟩ := l
  unfold MLit.Holds
  cases a <;> simp only [MAtom.Holds, MAtom.poly] at e ⊢ <;> rw [e]

theorem MLit.holds_upd {l : MLit K} {x : Var} (h : ¬ l.Has x) (ρ : Var → K) (v : K) :
    l.Holds md (upd ρ x v) ↔ l.Holds md ρ := by
  apply MLit.holds_congr
  intro y hy
  have : y ≠ x := by rintro rfl; exact h hy
  simp [upd, this]

theorem MLit.holds_subst (x : Var) (s : Poly K) (l : MLit K) (ρ : Var → K) :
    (MLit.subst x s l).Holds md ρ ↔ l.Holds md (upd ρ x (s.eval ρ)) := by
  obtain ⟨a, b⟩ := l
  unfold MLit.Holds MLit.subst
  cases a <;> simp only [MAtom.map, MAtom.Holds, Poly.eval_subst]

theorem MLit.has_subst {x : Var} {s : Poly K} {l : MLit K} {y : Var} (h : (MLit.subst x s l).Has y) :
    (y ≠ x ∧ l.Has y) ∨ (l.Has x ∧ s.coeff y ≠ 0) := by
  have h : (l.1.poly.subst x s).coeff y ≠ 0 := by
    obtain ⟨a, b⟩ := l
    cases a <;> exact h
  rw [Poly.coeff_subst] at h
  by_cases e : l.1.poly.coeff x * s.coeff y = 0
  · rw [e, add_zero] at h
    by_cases hy : y = x
    · simp [hy] at h
    · exact .inl ⟨hy, by simp only [hy, if_false] at h; exact h⟩
  · exact .inr ⟨left_ne_zero_of_mul e, right_ne_zero_of_mul e⟩

theorem MLit.trivial_holds {l : MLit K} (h : l.trivial = true) (ρ : Var → K) : l.Holds md ρ := by
  obtain ⟨a, s⟩ := l
  cases a with
  | leq p =>
    simp only [MLit.trivial, Bool.and_eq_true, beq_iff_eq] at h
    unfold MLit.Holds
    simp only [MAtom.Holds, Poly.isConst_eval h.1]
    cases s <;> simpa using h.2
  | eq p =>
    simp only [MLit.trivial, Bool.and_eq_true, beq_iff_eq] at h
    unfold MLit.Holds
    simp only [MAtom.Holds, Poly.isConst_eval h.1]
    cases s <;> simpa using h.2
  | dvd c p => cases h

end

end Golem
