import Mathlib.Tactic.Positivity
import Mathlib.Tactic.Push
import Mathlib.Data.Rat.Cast.Order
import Verif.Lemmas.MBPReal

/-! The projection of integer variables. -/

set_option linter.unusedSimpArgs false

namespace Golem

/-- `mod` of `intTheory`. -/
abbrev imd : Int → Int → Int := fun a b => a % b

namespace IBound

def t : IBound → Poly Int
  | .eq t _ | .lower t _ | .upper t _ => t

def a : IBound → Int
  | .eq _ a | .lower _ a | .upper _ a => a

/-- Meaning of a bound on a value. -/
def Sat (ρ : Var → Int) (v : Int) : IBound → Prop
  | .eq t a => a * v = t.eval ρ
  | .lower t a => t.eval ρ ≤ a * v
  | .upper t a => a * v ≤ t.eval ρ

end IBound

theorem toIBound_spec {ρ : Var → Int} {x : Var} {l : MLit Int} {b : IBound} (h : toIBound ρ x l = some b)
    (hx : l.Has x) (hm : l.Holds imd ρ) :
    b.Sat ρ (ρ x) ∧ (∀ ρ', b.Sat ρ' (ρ' x) → l.Holds imd ρ') ∧ 0 < b.a ∧
      ∀ y, b.t.coeff y ≠ 0 → y ≠ x ∧ l.Has y := by
  have split : ∀ (p : Poly Int) (ρ : Var → Int), p.eval ρ = p.coeff x * ρ x + (p.erase x).eval ρ :=
    fun p ρ => Poly.eval_split p x ρ
  have er : ∀ (p : Poly Int) (y : Var), (p.erase x).coeff y ≠ 0 → y ≠ x ∧ p.coeff y ≠ 0 := by
    intro p y hy
    rw [Poly.coeff_erase] at hy
    by_cases e : y = x
    · simp [e] at hy
    · exact ⟨e, by simpa [e] using hy⟩
  obtain ⟨at', s⟩ := l
  cases at' with
  | dvd c p => cases s <;> cases h
  | leq p =>
    simp only [toIBound, Option.some.injEq] at h
    have hc : p.coeff x ≠ 0 := hx
    cases s with
    | true =>
      simp only [if_true] at h
      have hm' : 0 ≤ p.eval ρ := by simpa [MLit.Holds, MAtom.Holds] using hm
      split at h <;> rename_i hs <;> subst h
      · refine ⟨?_, fun ρ' h' => ?_, hs, fun y hy => ?_⟩
        · simp only [IBound.Sat, Poly.eval_neg]; rw [split p ρ] at hm'; linarith
        · simp only [IBound.Sat, Poly.eval_neg] at h'
          simp only [MLit.Holds, MAtom.Holds, if_true]
          rw [split p ρ']; linarith
        · simp only [IBound.t, Poly.coeff_neg, ne_eq, neg_eq_zero] at hy; exact er p y hy
      · refine ⟨?_, fun ρ' h' => ?_, ?_, fun y hy => ?_⟩
        · simp only [IBound.Sat]; rw [split p ρ] at hm'; linarith
        · simp only [IBound.Sat] at h'
          simp only [MLit.Holds, MAtom.Holds, if_true]
          rw [split p ρ']; linarith
        · simp only [IBound.a]; omega
        · simp only [IBound.t] at hy; exact er p y hy
    | false =>
      simp only [Bool.false_eq_true, if_false, Poly.coeff_sub, Poly.coeff_const, zero_sub] at h
      have hm' : ¬ 0 ≤ p.eval ρ := by simpa [MLit.Holds, MAtom.Holds] using hm
      have split' : ∀ (ρ : Var → Int),
          -1 - p.eval ρ = -p.coeff x * ρ x + (((Poly.const (-1)).sub p).erase x).eval ρ := by
        intro ρ
        have := split ((Poly.const (-1)).sub p) ρ
        simpa using this
      have er' : ∀ y, (((Poly.const (-1)).sub p).erase x).coeff y ≠ 0 → y ≠ x ∧ p.coeff y ≠ 0 := by
        intro y hy
        obtain ⟨h1, h2⟩ := er _ y hy
        exact ⟨h1, by simpa using h2⟩
      have s1 := split' ρ
      split at h <;> rename_i hs <;> subst h
      · refine ⟨?_, fun ρ' h' => ?_, hs, fun y hy => ?_⟩
        · simp only [IBound.Sat, Poly.eval_neg]; linarith [not_le.1 hm']
        · simp only [IBound.Sat, Poly.eval_neg] at h'
          simp only [MLit.Holds, MAtom.Holds, Bool.false_eq_true, if_false, not_le]
          linarith [split' ρ']
        · simp only [IBound.t, Poly.coeff_neg, ne_eq, neg_eq_zero] at hy; exact er' y hy
      · refine ⟨?_, fun ρ' h' => ?_, ?_, fun y hy => ?_⟩
        · simp only [IBound.Sat]; linarith [not_le.1 hm']
        · simp only [IBound.Sat] at h'
          simp only [MLit.Holds, MAtom.Holds, Bool.false_eq_true, if_false, not_le]
          linarith [split' ρ']
        · simp only [IBound.a]; omega
        · simp only [IBound.t] at hy; exact er' y hy
  | eq p =>
    have hc : p.coeff x ≠ 0 := hx
    cases s with
    | true =>
      simp only [toIBound, Option.some.injEq] at h
      have hm' : p.eval ρ = 0 := by simpa [MLit.Holds, MAtom.Holds] using hm
      split at h <;> rename_i hs <;> subst h
      · refine ⟨?_, fun ρ' h' => ?_, ?_, fun y hy => er p y hy⟩
        · simp only [IBound.Sat]; rw [split p ρ] at hm'; linarith
        · simp only [IBound.Sat] at h'
          simp only [MLit.Holds, MAtom.Holds, if_true]
          rw [split p ρ']; linarith
        · simp only [IBound.a]; omega
      · refine ⟨?_, fun ρ' h' => ?_, ?_, fun y hy => ?_⟩
        · simp only [IBound.Sat, Poly.eval_neg]; rw [split p ρ] at hm'; linarith
        · simp only [IBound.Sat, Poly.eval_neg] at h'
          simp only [MLit.Holds, MAtom.Holds, if_true]
          rw [split p ρ']; linarith
        · simp only [IBound.a]; omega
        · simp only [IBound.t, Poly.coeff_neg, ne_eq, neg_eq_zero] at hy; exact er p y hy
    | false =>
      simp only [toIBound, Option.some.injEq] at h
      have hm' : p.eval ρ ≠ 0 := by simpa [MLit.Holds, MAtom.Holds] using hm
      have goal : ∀ ρ', (MLit.Holds imd ρ' ((.eq p, false) : MLit Int)) ↔ p.eval ρ' ≠ 0 := by
        intro ρ'; simp [MLit.Holds, MAtom.Holds]
      have s1 := split p ρ
      split at h <;> rename_i hv <;> split at h <;> rename_i hs <;> subst h
      · refine ⟨?_, fun ρ' h' => ?_, hs, fun y hy => ?_⟩
        · simp only [IBound.Sat, Poly.eval_add, Poly.eval_const, Poly.eval_neg]; linarith
        · simp only [IBound.Sat, Poly.eval_add, Poly.eval_const, Poly.eval_neg] at h'
          rw [goal, split p ρ']; intro e; linarith
        · simp only [IBound.t, Poly.coeff_add, Poly.coeff_const, Poly.coeff_neg, zero_add, ne_eq, neg_eq_zero] at hy
          exact er p y hy
      · refine ⟨?_, fun ρ' h' => ?_, ?_, fun y hy => ?_⟩
        · simp only [IBound.Sat, Poly.eval_add, Poly.eval_const]; linarith
        · simp only [IBound.Sat, Poly.eval_add, Poly.eval_const] at h'
          rw [goal, split p ρ']; intro e; linarith
        · simp only [IBound.a]; omega
        · simp only [IBound.t, Poly.coeff_add, Poly.coeff_const, zero_add] at hy
          exact er p y hy
      · refine ⟨?_, fun ρ' h' => ?_, hs, fun y hy => ?_⟩
        · simp only [IBound.Sat, Poly.eval_add, Poly.eval_const, Poly.eval_neg]
          have := lt_of_le_of_ne (not_lt.1 hv) hm'
          linarith
        · simp only [IBound.Sat, Poly.eval_add, Poly.eval_const, Poly.eval_neg] at h'
          rw [goal, split p ρ']; intro e; linarith
        · simp only [IBound.t, Poly.coeff_add, Poly.coeff_const, Poly.coeff_neg, zero_add, ne_eq, neg_eq_zero] at hy
          exact er p y hy
      · refine ⟨?_, fun ρ' h' => ?_, ?_, fun y hy => ?_⟩
        · simp only [IBound.Sat, Poly.eval_add, Poly.eval_const]
          have := lt_of_le_of_ne (not_lt.1 hv) hm'
          linarith
        · simp only [IBound.Sat, Poly.eval_add, Poly.eval_const] at h'
          rw [goal, split p ρ']; intro e; linarith
        · simp only [IBound.a]; omega
        · simp only [IBound.t, Poly.coeff_add, Poly.coeff_const, zero_add] at hy
          exact er p y hy

theorem mem_lowersOf {bs : List IBound} {q : Poly Int × Int} : q ∈ lowersOf bs ↔ IBound.lower q.1 q.2 ∈ bs := by
  simp only [lowersOf, List.mem_filterMap]
  constructor
  · rintro ⟨b, hb, h⟩
    cases b <;> simp at h
    subst h; exact hb
  · exact fun h => ⟨_, h, rfl⟩

theorem mem_uppersOf {bs : List IBound} {q : Poly Int × Int} : q ∈ uppersOf bs ↔ IBound.upper q.1 q.2 ∈ bs := by
  simp only [uppersOf, List.mem_filterMap]
  constructor
  · rintro ⟨b, hb, h⟩
    cases b <;> simp at h
    subst h; exact hb
  · exact fun h => ⟨_, h, rfl⟩

theorem mem_equalsOf {bs : List IBound} {q : Poly Int × Int} : q ∈ equalsOf bs ↔ IBound.eq q.1 q.2 ∈ bs := by
  simp only [equalsOf, List.mem_filterMap]
  constructor
  · rintro ⟨b, hb, h⟩
    cases b <;> simp at h
    subst h; exact hb
  · exact fun h => ⟨_, h, rfl⟩

theorem iLeq_holds (a b : Poly Int) (ρ : Var → Int) : (∀ l ∈ iLeq a b, l.Holds imd ρ) ↔ a.eval ρ ≤ b.eval ρ := by
  have e : MLit.Holds imd ρ ((.leq (b.sub a), true) : MLit Int) ↔ a.eval ρ ≤ b.eval ρ := by
    simp [MLit.Holds, MAtom.Holds]
  rw [← e]
  unfold iLeq
  by_cases h : MLit.trivial ((.leq (b.sub a), true) : MLit Int) = true
  · simp only [List.filter_cons, h, Bool.not_true, Bool.false_eq_true, if_false, List.filter_nil, List.not_mem_nil,
      false_implies, implies_true, true_iff]
    exact MLit.trivial_holds h ρ
  · simp [List.filter_cons, h]

theorem iEq_holds (a b : Poly Int) (ρ : Var → Int) : (∀ l ∈ iEq a b, l.Holds imd ρ) ↔ a.eval ρ = b.eval ρ := by
  have e : MLit.Holds imd ρ ((.eq (a.sub b), true) : MLit Int) ↔ a.eval ρ = b.eval ρ := by
    simp [MLit.Holds, MAtom.Holds, sub_eq_zero]
  rw [← e]
  unfold iEq
  by_cases h : MLit.trivial ((.eq (a.sub b), true) : MLit Int) = true
  · simp only [List.filter_cons, h, Bool.not_true, Bool.false_eq_true, if_false, List.filter_nil, List.not_mem_nil,
      false_implies, implies_true, true_iff]
    exact MLit.trivial_holds h ρ
  · simp [List.filter_cons, h]

theorem iLeq_has {a b : Poly Int} {l : MLit Int} (h : l ∈ iLeq a b) {y : Var} (hy : l.Has y) :
    a.coeff y ≠ 0 ∨ b.coeff y ≠ 0 := by
  have := (List.mem_filter.1 h).1
  simp only [List.mem_singleton] at this
  subst this
  simp only [MLit.Has, MAtom.poly, Poly.coeff_sub] at hy
  by_cases e : a.coeff y = 0
  · exact .inr fun e' => hy (by rw [e, e', sub_zero])
  · exact .inl e

theorem iEq_has {a b : Poly Int} {l : MLit Int} (h : l ∈ iEq a b) {y : Var} (hy : l.Has y) :
    a.coeff y ≠ 0 ∨ b.coeff y ≠ 0 := by
  have := (List.mem_filter.1 h).1
  simp only [List.mem_singleton] at this
  subst this
  simp only [MLit.Has, MAtom.poly, Poly.coeff_sub] at hy
  by_cases e : a.coeff y = 0
  · exact .inr fun e' => hy (by rw [e, e', sub_zero])
  · exact .inl e

theorem iLeq_nodiv {a b : Poly Int} {l : MLit Int} (h : l ∈ iLeq a b) : ∃ p, l = (.leq p, true) := by
  have := (List.mem_filter.1 h).1
  simp only [List.mem_singleton] at this
  exact ⟨_, this⟩

/-- Divisibility constraints as literals. -/
def DivC.lit (d : DivC) : MLit Int := (.dvd d.c d.p, true)

theorem DivC.lit_holds (d : DivC) (ρ : Var → Int) : d.lit.Holds imd ρ ↔ d.c ∣ d.p.eval ρ := by
  simp only [DivC.lit, MLit.Holds, MAtom.Holds, if_true]
  exact ⟨Int.dvd_of_emod_eq_zero, Int.emod_eq_zero_of_dvd⟩

theorem DivC.lit_has {d : DivC} {y : Var} : d.lit.Has y ↔ d.p.coeff y ≠ 0 := Iff.rfl

theorem resolve_model {ρ : Var → Int} {low up : Poly Int × Int} {v : Int} (hb : 0 < low.2) (ha : 0 < up.2)
    (h1 : low.1.eval ρ ≤ low.2 * v) (h2 : up.2 * v ≤ up.1.eval ρ) :
    (∀ l ∈ (resolve ρ low up).1, l.Holds imd ρ) ∧ ∀ d ∈ (resolve ρ low up).2, d.lit.Holds imd ρ := by
  obtain ⟨s, b⟩ := low
  obtain ⟨t, a⟩ := up
  simp only at h1 h2 hb ha
  have hst : a * s.eval ρ ≤ b * t.eval ρ := by
    have e1 := mul_le_mul_of_nonneg_left h1 ha.le
    have e2 := mul_le_mul_of_nonneg_left h2 hb.le
    nlinarith
  unfold resolve
  simp only
  split
  · rename_i hc
    refine ⟨?_, by simp⟩
    rw [iLeq_holds]
    simp only [Poly.eval_add, Poly.eval_smul, Poly.eval_const]
    linarith
  · split
    · have hd0 := Int.emod_nonneg (-(s.eval ρ)) hb.ne'
      have hdb := Int.emod_lt_of_pos (-(s.eval ρ)) hb
      have hdiv : b ∣ s.eval ρ + -(s.eval ρ) % b := by
        have := Int.emod_add_mul_ediv (-(s.eval ρ)) b
        exact ⟨-(-(s.eval ρ) / b), by linarith⟩
      refine ⟨?_, ?_⟩
      · intro l hl
        rcases List.mem_append.1 hl with hl | hl
        · refine (iLeq_holds _ _ ρ).2 ?_ l hl
          simpa using hst
        · split at hl
          · cases hl
          · refine (iLeq_holds _ _ ρ).2 ?_ l hl
            simp only [Poly.eval_add, Poly.eval_smul, Poly.eval_const]
            obtain ⟨q, hq⟩ := hdiv
            rw [hq]
            have hqv : q ≤ v := by
              have : b * q < b * (v + 1) := by rw [← hq]; linarith
              have := lt_of_mul_lt_mul_left this hb.le
              omega
            have := mul_le_mul_of_nonneg_left hqv ha.le
            nlinarith
      · intro d hd
        simp only [List.mem_singleton] at hd
        subst hd
        rw [DivC.lit_holds]
        simpa using hdiv
    · have hd0 := Int.emod_nonneg (t.eval ρ) ha.ne'
      have hda := Int.emod_lt_of_pos (t.eval ρ) ha
      have hdiv : a ∣ t.eval ρ - t.eval ρ % a := by
        have := Int.emod_add_mul_ediv (t.eval ρ) a
        exact ⟨t.eval ρ / a, by linarith⟩
      refine ⟨?_, ?_⟩
      · intro l hl
        rcases List.mem_append.1 hl with hl | hl
        · refine (iLeq_holds _ _ ρ).2 ?_ l hl
          simpa using hst
        · split at hl
          · cases hl
          · refine (iLeq_holds _ _ ρ).2 ?_ l hl
            simp only [Poly.eval_sub, Poly.eval_smul, Poly.eval_const]
            obtain ⟨q, hq⟩ := hdiv
            rw [hq]
            have hqv : v ≤ q := by
              have : a * v < a * (q + 1) := by rw [mul_add, ← hq]; linarith
              have := lt_of_mul_lt_mul_left this ha.le
              omega
            have e1 := mul_le_mul_of_nonneg_left hqv hb.le
            have e2 := mul_le_mul_of_nonneg_left (h1.trans e1) ha.le
            nlinarith
      · intro d hd
        simp only [List.mem_singleton] at hd
        subst hd
        rw [DivC.lit_holds]
        simpa using hdiv

theorem resolve_pos {ρ : Var → Int} {low up : Poly Int × Int} (hb : 0 < low.2) (ha : 0 < up.2) :
    ∀ d ∈ (resolve ρ low up).2, 0 < d.c := by
  obtain ⟨s, b⟩ := low
  obtain ⟨t, a⟩ := up
  unfold resolve
  simp only
  split
  · simp
  · split <;> simp only [List.mem_singleton, forall_eq] <;> assumption

theorem resolve_has {ρ : Var → Int} {low up : Poly Int × Int} {y : Var} :
    (∀ l ∈ (resolve ρ low up).1, l.Has y → low.1.coeff y ≠ 0 ∨ up.1.coeff y ≠ 0) ∧
    ∀ d ∈ (resolve ρ low up).2, d.p.coeff y ≠ 0 → low.1.coeff y ≠ 0 ∨ up.1.coeff y ≠ 0 := by
  obtain ⟨s, b⟩ := low
  obtain ⟨t, a⟩ := up
  have key : ∀ (c d : Int) (p q : Poly Int), (∀ z, p.coeff z ≠ 0 → s.coeff z ≠ 0 ∨ t.coeff z ≠ 0) →
      (∀ z, q.coeff z ≠ 0 → s.coeff z ≠ 0 ∨ t.coeff z ≠ 0) → ∀ l ∈ iLeq p q, l.Has y →
      s.coeff y ≠ 0 ∨ t.coeff y ≠ 0 := by
    intro c d p q h1 h2 l hl hy
    exact (iLeq_has hl hy).elim (h1 y) (h2 y)
  unfold resolve
  simp only
  split
  · refine ⟨fun l hl hy => ?_, by simp⟩
    refine key 0 0 _ _ ?_ ?_ l hl hy
    · intro z hz; simp at hz; exact .inl hz.2
    · intro z hz; simp at hz; exact .inr hz.2
  · split
    · refine ⟨fun l hl hy => ?_, fun d hd hy => ?_⟩
      · rcases List.mem_append.1 hl with hl | hl
        · refine key 0 0 _ _ ?_ ?_ l hl hy
          · intro z hz; simp at hz; exact .inl hz.2
          · intro z hz; simp at hz; exact .inr hz.2
        · split at hl
          · cases hl
          · refine key 0 0 _ _ ?_ ?_ l hl hy
            · intro z hz; simp at hz; exact .inl hz.2
            · intro z hz; simp at hz; exact .inr hz.2
      · simp only [List.mem_singleton] at hd
        subst hd
        simp at hy; exact .inl hy
    · refine ⟨fun l hl hy => ?_, fun d hd hy => ?_⟩
      · rcases List.mem_append.1 hl with hl | hl
        · refine key 0 0 _ _ ?_ ?_ l hl hy
          · intro z hz; simp at hz; exact .inl hz.2
          · intro z hz; simp at hz; exact .inr hz.2
        · split at hl
          · cases hl
          · refine key 0 0 _ _ ?_ ?_ l hl hy
            · intro z hz; simp at hz; exact .inl hz.2
            · intro z hz; simp at hz; exact .inr hz.2
      · simp only [List.mem_singleton] at hd
        subst hd
        simp at hy; exact .inr hy

/-- The least integer above the lower bound satisfies the upper bound. -/
theorem resolve_lift {ρ ρ' : Var → Int} {low up : Poly Int × Int} (hb : 0 < low.2) (ha : 0 < up.2)
    (h1 : ∀ l ∈ (resolve ρ low up).1, l.Holds imd ρ') (h2 : ∀ d ∈ (resolve ρ low up).2, d.lit.Holds imd ρ')
    {q : Int} (hq2 : low.2 * q ≤ low.1.eval ρ' + low.2 - 1) :
    up.2 * q ≤ up.1.eval ρ' := by
  obtain ⟨s, b⟩ := low
  obtain ⟨t, a⟩ := up
  simp only at hb ha hq2 ⊢
  unfold resolve at h1 h2
  simp only at h1 h2
  split at h1
  · rw [iLeq_holds] at h1
    simp only [Poly.eval_add, Poly.eval_smul, Poly.eval_const] at h1
    have e1 := mul_le_mul_of_nonneg_left hq2 ha.le
    have : b * (a * q) < b * (t.eval ρ' + 1) := by nlinarith
    have := lt_of_mul_lt_mul_left this hb.le
    omega
  · rename_i hc
    simp only [hc, if_false] at h2
    split at h1
    · rename_i hab
      have hab' : b ≤ a := hab
      simp only [hab', ge_iff_le, if_true, List.mem_singleton, forall_eq, DivC.lit_holds, Poly.eval_add,
        Poly.eval_const] at h2
      obtain ⟨k, hk⟩ := h2
      have hd0 := Int.emod_nonneg (-(s.eval ρ)) hb.ne'
      have hle : a * (s.eval ρ' + -(s.eval ρ) % b) ≤ b * t.eval ρ' := by
        by_cases hd : -(s.eval ρ) % b = 0
        · have := (iLeq_holds _ _ ρ').1 fun l hl => h1 l (List.mem_append.2 (.inl hl))
          simpa [hd] using this
        · simp only [hd, if_false] at h1
          have := (iLeq_holds _ _ ρ').1 fun l hl => h1 l (List.mem_append.2 (.inr hl))
          simpa using this
      have hqk : q ≤ k := by
        have : b * q < b * (k + 1) := by rw [mul_add, ← hk]; linarith
        have := lt_of_mul_lt_mul_left this hb.le
        omega
      rw [hk] at hle
      have e1 := mul_le_mul_of_nonneg_left hqk ha.le
      have : b * (a * q) ≤ b * t.eval ρ' := by nlinarith
      exact le_of_mul_le_mul_left this hb
    · rename_i hab
      have hab' : ¬ b ≤ a := hab
      simp only [hab', ge_iff_le, if_false, List.mem_singleton, forall_eq, DivC.lit_holds, Poly.eval_sub,
        Poly.eval_const] at h2
      obtain ⟨k, hk⟩ := h2
      have hd0 := Int.emod_nonneg (t.eval ρ) ha.ne'
      have hle : a * s.eval ρ' ≤ b * (t.eval ρ' - t.eval ρ % a) := by
        by_cases hd : t.eval ρ % a = 0
        · have := (iLeq_holds _ _ ρ').1 fun l hl => h1 l (List.mem_append.2 (.inl hl))
          simpa [hd] using this
        · simp only [hd, if_false] at h1
          have := (iLeq_holds _ _ ρ').1 fun l hl => h1 l (List.mem_append.2 (.inr hl))
          simpa using this
      rw [hk] at hle
      have hsk : s.eval ρ' ≤ b * k := by
        have : a * s.eval ρ' ≤ a * (b * k) := by nlinarith
        exact le_of_mul_le_mul_left this ha
      have hqk : q ≤ k := by
        have : b * q < b * (k + 1) := by rw [mul_add]; linarith
        have := lt_of_mul_lt_mul_left this hb.le
        omega
      have e1 := mul_le_mul_of_nonneg_left hqk ha.le
      linarith

theorem pickGreatest_spec {ρ : Var → Int} {L : List (Poly Int × Int)} (hpos : ∀ q ∈ L, 0 < q.2) :
    ∀ (bs : List (Poly Int × Int)) (cur : Poly Int × Int) (others : List (Poly Int × Int)), cur ∈ L →
      (∀ q ∈ others, q ∈ L ∧ cur.2 * q.1.eval ρ ≤ q.2 * cur.1.eval ρ) → (∀ b ∈ bs, b ∈ L) →
      (pickGreatest ρ cur others bs).1 ∈ L ∧
      (∀ q ∈ (pickGreatest ρ cur others bs).2, q ∈ L ∧
        (pickGreatest ρ cur others bs).1.2 * q.1.eval ρ ≤ q.2 * (pickGreatest ρ cur others bs).1.1.eval ρ) ∧
      ∀ q, q = cur ∨ q ∈ others ∨ q ∈ bs →
        q = (pickGreatest ρ cur others bs).1 ∨ q ∈ (pickGreatest ρ cur others bs).2
  | [], cur, others, hc, ho, _ => ⟨hc, ho, fun q h => h.elim .inl fun h => .inr (h.resolve_right (by simp))⟩
  | b :: bs, cur, others, hc, ho, hb => by
    have hbL := hb b (by simp)
    have pb := hpos b hbL
    have pc := hpos cur hc
    have pb' : (0 : Rat) < b.2 := by exact_mod_cast pb
    have pc' : (0 : Rat) < cur.2 := by exact_mod_cast pc
    unfold pickGreatest
    split
    · rename_i h
      have hlt : b.2 * cur.1.eval ρ < cur.2 * b.1.eval ρ := by
        rw [gt_iff_lt, div_lt_div_iff₀ pc' pb'] at h
        have : cur.1.eval ρ * b.2 < b.1.eval ρ * cur.2 := by exact_mod_cast h
        linarith [mul_comm (cur.1.eval ρ) b.2, mul_comm (b.1.eval ρ) cur.2]
      obtain ⟨k1, k2, k3⟩ := pickGreatest_spec hpos bs b (others ++ [cur]) hbL (by
        intro q hq
        rcases List.mem_append.1 hq with hq | hq
        · obtain ⟨h1, h2⟩ := ho q hq
          refine ⟨h1, ?_⟩
          have pq := hpos q h1
          have e1 := mul_le_mul_of_nonneg_left h2 pb.le
          have e2 := mul_le_mul_of_nonneg_left hlt.le pq.le
          have : cur.2 * (b.2 * q.1.eval ρ) ≤ cur.2 * (q.2 * b.1.eval ρ) := by nlinarith
          exact le_of_mul_le_mul_left this pc
        · simp only [List.mem_singleton] at hq
          subst hq
          exact ⟨hc, hlt.le⟩) fun b' h' => hb b' (by simp [h'])
      refine ⟨k1, k2, fun q hq => k3 q ?_⟩
      rcases hq with rfl | hq | hq
      · exact .inr (.inl (by simp))
      · exact .inr (.inl (by simp [hq]))
      · rcases List.mem_cons.1 hq with rfl | hq
        · exact .inl rfl
        · exact .inr (.inr hq)
    · rename_i h
      have hle : cur.2 * b.1.eval ρ ≤ b.2 * cur.1.eval ρ := by
        rw [not_lt, div_le_div_iff₀ pb' pc'] at h
        have : b.1.eval ρ * cur.2 ≤ cur.1.eval ρ * b.2 := by exact_mod_cast h
        linarith [mul_comm (cur.1.eval ρ) b.2, mul_comm (b.1.eval ρ) cur.2]
      obtain ⟨k1, k2, k3⟩ := pickGreatest_spec hpos bs cur (others ++ [b]) hc (by
        intro q hq
        rcases List.mem_append.1 hq with hq | hq
        · exact ho q hq
        · simp only [List.mem_singleton] at hq
          subst hq
          exact ⟨hbL, hle⟩) fun b' h' => hb b' (by simp [h'])
      refine ⟨k1, k2, fun q hq => k3 q ?_⟩
      rcases hq with rfl | hq | hq
      · exact .inl rfl
      · exact .inr (.inl (by simp [hq]))
      · rcases List.mem_cons.1 hq with rfl | hq
        · exact .inr (.inl (by simp))
        · exact .inr (.inr hq)

theorem exists_small {α : Type} (t a : α → Int) : ∀ us : List α, (∀ u ∈ us, 0 < a u) → ∃ v, ∀ u ∈ us, a u * v ≤ t u
  | [], _ => ⟨0, by simp⟩
  | u :: us, h => by
    obtain ⟨v, hv⟩ := exists_small t a us fun u' h' => h u' (by simp [h'])
    have ha := h u (by simp)
    refine ⟨min v (-|t u|), fun u' hu' => ?_⟩
    rcases List.mem_cons.1 hu' with rfl | hu'
    · have h1 := mul_le_mul_of_nonneg_left (min_le_right v (-|t u'|)) ha.le
      have h2 : |t u'| ≤ a u' * |t u'| := by
        have := abs_nonneg (t u'); nlinarith
      have h3 := neg_abs_le (t u')
      linarith
    · have h1 := mul_le_mul_of_nonneg_left (min_le_left v (-|t u|)) (h u' (by simp [hu'])).le
      linarith [hv u' hu']

theorem exists_big {α : Type} (t a : α → Int) (us : List α) (h : ∀ u ∈ us, 0 < a u) :
    ∃ v, ∀ u ∈ us, t u ≤ a u * v := by
  obtain ⟨v, hv⟩ := exists_small (fun u => -t u) a us h
  refine ⟨-v, fun u hu => ?_⟩
  have := hv u hu
  linarith

/-- The heart of the elimination of one integer variable. -/
theorem eliminateBounds_spec {ρ : Var → Int} {v : Int} {bs : List IBound} (hs : ∀ b ∈ bs, b.Sat ρ v)
    (hpos : ∀ b ∈ bs, 0 < b.a) :
    (∀ l ∈ (eliminateBounds ρ bs).2, l.Holds imd ρ) ∧ (∀ d ∈ (eliminateBounds ρ bs).1, d.lit.Holds imd ρ ∧ 0 < d.c) ∧
    (∀ y, ((∃ l ∈ (eliminateBounds ρ bs).2, l.Has y) ∨ ∃ d ∈ (eliminateBounds ρ bs).1, d.p.coeff y ≠ 0) →
      ∃ b ∈ bs, b.t.coeff y ≠ 0) ∧
    ∀ ρ', (∀ l ∈ (eliminateBounds ρ bs).2, l.Holds imd ρ') → (∀ d ∈ (eliminateBounds ρ bs).1, d.lit.Holds imd ρ') →
      ∃ v', ∀ b ∈ bs, b.Sat ρ' v' := by
  have hL : ∀ q ∈ lowersOf bs, q.1.eval ρ ≤ q.2 * v ∧ 0 < q.2 :=
    fun q hq => ⟨hs _ (mem_lowersOf.1 hq), hpos _ (mem_lowersOf.1 hq)⟩
  have hU : ∀ q ∈ uppersOf bs, q.2 * v ≤ q.1.eval ρ ∧ 0 < q.2 :=
    fun q hq => ⟨hs _ (mem_uppersOf.1 hq), hpos _ (mem_uppersOf.1 hq)⟩
  have hE : ∀ q ∈ equalsOf bs, q.2 * v = q.1.eval ρ ∧ 0 < q.2 :=
    fun q hq => ⟨hs _ (mem_equalsOf.1 hq), hpos _ (mem_equalsOf.1 hq)⟩
  have vL : ∀ q ∈ lowersOf bs, ∀ y, q.1.coeff y ≠ 0 → ∃ b ∈ bs, b.t.coeff y ≠ 0 :=
    fun q hq y hy => ⟨_, mem_lowersOf.1 hq, hy⟩
  have vU : ∀ q ∈ uppersOf bs, ∀ y, q.1.coeff y ≠ 0 → ∃ b ∈ bs, b.t.coeff y ≠ 0 :=
    fun q hq y hy => ⟨_, mem_uppersOf.1 hq, hy⟩
  have vE : ∀ q ∈ equalsOf bs, ∀ y, q.1.coeff y ≠ 0 → ∃ b ∈ bs, b.t.coeff y ≠ 0 :=
    fun q hq y hy => ⟨_, mem_equalsOf.1 hq, hy⟩
  have sat : ∀ ρ' v', (∀ q ∈ lowersOf bs, q.1.eval ρ' ≤ q.2 * v') → (∀ q ∈ uppersOf bs, q.2 * v' ≤ q.1.eval ρ') →
      (∀ q ∈ equalsOf bs, q.2 * v' = q.1.eval ρ') → ∀ b ∈ bs, b.Sat ρ' v' := by
    intro ρ' v' h1 h2 h3 b hb
    cases b with
    | eq t a => exact h3 (t, a) (mem_equalsOf.2 hb)
    | lower t a => exact h1 (t, a) (mem_lowersOf.2 hb)
    | upper t a => exact h2 (t, a) (mem_uppersOf.2 hb)
  unfold eliminateBounds
  split
  · rename_i he
    rw [he] at sat
    split
    · rename_i hl
      refine ⟨by simp, by simp, by simp, fun ρ' _ _ => ?_⟩
      obtain ⟨v', hv⟩ := exists_small (fun q : Poly Int × Int => q.1.eval ρ') (fun q => q.2) (uppersOf bs)
        fun q hq => (hU q hq).2
      exact ⟨v', sat ρ' v' (by rw [hl]; simp) hv (by simp)⟩
    · rename_i hu _
      refine ⟨by simp, by simp, by simp, fun ρ' _ _ => ?_⟩
      obtain ⟨v', hv⟩ := exists_big (fun q : Poly Int × Int => q.1.eval ρ') (fun q => q.2) (lowersOf bs)
        fun q hq => (hL q hq).2
      exact ⟨v', sat ρ' v' hv (by rw [hu]; simp) (by simp)⟩
    · rename_i l ls hl _
      simp only
      obtain ⟨g1, g2, g3⟩ := pickGreatest_spec (ρ := ρ) (L := lowersOf bs) (fun q hq => (hL q hq).2) ls l []
        (by rw [hl]; simp) (by simp) (fun b hb => by rw [hl]; simp [hb])
      generalize pickGreatest ρ l [] ls = g at g1 g2 g3
      obtain ⟨hg1, hg2⟩ := hL g.1 g1
      refine ⟨?_, ?_, ?_, ?_⟩
      · intro l' hl'
        rcases List.mem_append.1 hl' with h | h
        · obtain ⟨b, hb, h⟩ := List.mem_flatMap.1 h
          refine (iLeq_holds _ _ ρ).2 ?_ l' h
          simpa using (g2 b hb).2
        · obtain ⟨u, hu, h⟩ := List.mem_flatMap.1 h
          obtain ⟨h1, h2⟩ := hU u hu
          exact (resolve_model hg2 h2 hg1 h1).1 l' h
      · intro d hd
        obtain ⟨u, hu, h⟩ := List.mem_flatMap.1 hd
        obtain ⟨h1, h2⟩ := hU u hu
        exact ⟨(resolve_model hg2 h2 hg1 h1).2 d h, resolve_pos hg2 h2 d h⟩
      · rintro y (⟨l', hl', hy⟩ | ⟨d, hd, hy⟩)
        · rcases List.mem_append.1 hl' with h | h
          · obtain ⟨b, hb, h⟩ := List.mem_flatMap.1 h
            rcases iLeq_has h hy with h | h
            · exact vL b (g2 b hb).1 y (by simp at h; exact h.2)
            · exact vL g.1 g1 y (by simp at h; exact h.2)
          · obtain ⟨u, hu, h⟩ := List.mem_flatMap.1 h
            exact (resolve_has.1 l' h hy).elim (vL g.1 g1 y) (vU u hu y)
        · obtain ⟨u, hu, h⟩ := List.mem_flatMap.1 hd
          exact (resolve_has.2 d h hy).elim (vL g.1 g1 y) (vU u hu y)
      · intro ρ' h1 h2
        have e := Int.emod_add_mul_ediv (-(g.1.1.eval ρ')) g.1.2
        have e0 := Int.emod_nonneg (-(g.1.1.eval ρ')) hg2.ne'
        have e1 := Int.emod_lt_of_pos (-(g.1.1.eval ρ')) hg2
        have q1 : g.1.1.eval ρ' ≤ g.1.2 * -(-(g.1.1.eval ρ') / g.1.2) := by linarith
        have q2 : g.1.2 * -(-(g.1.1.eval ρ') / g.1.2) ≤ g.1.1.eval ρ' + g.1.2 - 1 := by
          have : g.1.2 * -(-(g.1.1.eval ρ') / g.1.2) < g.1.1.eval ρ' + g.1.2 := by linarith
          omega
        generalize -(-(g.1.1.eval ρ') / g.1.2) = q at q1 q2
        refine ⟨q, sat ρ' q ?_ ?_ (by simp)⟩
        · intro b hb
          rw [hl] at hb
          rcases g3 b (by rcases List.mem_cons.1 hb with h | h; exacts [.inl h, .inr (.inr h)]) with rfl | h
          · exact q1
          · have := (iLeq_holds _ _ ρ').1 fun l' hl' =>
              h1 l' (List.mem_append.2 (.inl (List.mem_flatMap.2 ⟨b, h, hl'⟩)))
            simp only [Poly.eval_smul] at this
            have pb := (hL b (g2 b h).1).2
            have e3 := mul_le_mul_of_nonneg_left q1 pb.le
            have : g.1.2 * b.1.eval ρ' ≤ g.1.2 * (b.2 * q) := by nlinarith
            exact le_of_mul_le_mul_left this hg2
        · intro u hu
          exact resolve_lift hg2 (hU u hu).2
            (fun l' hl' => h1 l' (List.mem_append.2 (.inr (List.mem_flatMap.2 ⟨u, hu, hl'⟩))))
            (fun d hd => h2 d (List.mem_flatMap.2 ⟨u, hu, hd⟩)) q2
  · rename_i t a eqs he
    simp only
    obtain ⟨h0, ha⟩ := hE (t, a) (by rw [he]; simp)
    simp only at h0 ha
    have hE' : ∀ q ∈ eqs, q ∈ equalsOf bs := fun q hq => by rw [he]; simp [hq]
    have vt : ∀ y, t.coeff y ≠ 0 → ∃ b ∈ bs, b.t.coeff y ≠ 0 := vE (t, a) (by rw [he]; simp)
    refine ⟨?_, ?_, ?_, ?_⟩
    · intro l' hl'
      simp only [List.mem_append, List.mem_flatMap] at hl'
      rcases hl' with (⟨b, hb, h⟩ | ⟨b, hb, h⟩) | ⟨b, hb, h⟩
      · refine (iEq_holds _ _ ρ).2 ?_ l' h
        simp only [Poly.eval_smul]
        have := (hE b (hE' b hb)).1
        rw [← this, ← h0]; ring
      · refine (iLeq_holds _ _ ρ).2 ?_ l' h
        simp only [Poly.eval_smul]
        have := mul_le_mul_of_nonneg_left (hL b hb).1 ha.le
        rw [← h0]; nlinarith
      · refine (iLeq_holds _ _ ρ).2 ?_ l' h
        simp only [Poly.eval_smul]
        have := mul_le_mul_of_nonneg_left (hU b hb).1 ha.le
        rw [← h0]; nlinarith
    · intro d hd
      split at hd
      · cases hd
      · simp only [List.mem_singleton] at hd
        subst hd
        exact ⟨(DivC.lit_holds _ ρ).2 ⟨v, h0.symm⟩, ha⟩
    · rintro y (⟨l', hl', hy⟩ | ⟨d, hd, hy⟩)
      · simp only [List.mem_append, List.mem_flatMap] at hl'
        rcases hl' with (⟨b, hb, h⟩ | ⟨b, hb, h⟩) | ⟨b, hb, h⟩
        · rcases iEq_has h hy with h | h
          · exact vE b (hE' b hb) y (by simp at h; exact h.2)
          · exact vt y (by simp at h; exact h.2)
        · rcases iLeq_has h hy with h | h
          · exact vL b hb y (by simp at h; exact h.2)
          · exact vt y (by simp at h; exact h.2)
        · rcases iLeq_has h hy with h | h
          · exact vt y (by simp at h; exact h.2)
          · exact vU b hb y (by simp at h; exact h.2)
      · split at hd
        · cases hd
        · simp only [List.mem_singleton] at hd
          subst hd
          exact vt y hy
    · intro ρ' h1 h2
      have hdiv : a ∣ t.eval ρ' := by
        by_cases e : a = 1
        · rw [e]; exact one_dvd _
        · exact (DivC.lit_holds ⟨a, t⟩ ρ').1 (h2 _ (by simp [e]))
      obtain ⟨v', hv⟩ := hdiv
      refine ⟨v', sat ρ' v' ?_ ?_ ?_⟩
      · intro b hb
        have := (iLeq_holds _ _ ρ').1 fun l' hl' => h1 l' (by
          simp only [List.mem_append, List.mem_flatMap]; exact .inl (.inr ⟨b, hb, hl'⟩))
        simp only [Poly.eval_smul, hv] at this
        have : a * b.1.eval ρ' ≤ a * (b.2 * v') := by linarith [mul_left_comm b.2 a v']
        exact le_of_mul_le_mul_left this ha
      · intro b hb
        have := (iLeq_holds _ _ ρ').1 fun l' hl' => h1 l' (by
          simp only [List.mem_append, List.mem_flatMap]; exact .inr ⟨b, hb, hl'⟩)
        simp only [Poly.eval_smul, hv] at this
        have : a * (b.2 * v') ≤ a * b.1.eval ρ' := by linarith [mul_left_comm b.2 a v']
        exact le_of_mul_le_mul_left this ha
      · intro b hb
        rw [he] at hb
        rcases List.mem_cons.1 hb with rfl | hb
        · exact hv.symm
        · have := (iEq_holds _ _ ρ').1 fun l' hl' => h1 l' (by
            simp only [List.mem_append, List.mem_flatMap]; exact .inl (.inl ⟨b, hb, hl'⟩))
          simp only [Poly.eval_smul, hv] at this
          have : a * (b.2 * v') = a * b.1.eval ρ' := by linarith [mul_left_comm b.2 a v']
          exact mul_left_cancel₀ ha.ne' this

/-- All constraints of a state of the integer projection. -/
def allLits (divs : List DivC) (lits : List (MLit Int)) : List (MLit Int) := lits ++ divs.map DivC.lit

theorem mem_allLits {divs : List DivC} {lits : List (MLit Int)} {l : MLit Int} :
    l ∈ allLits divs lits ↔ l ∈ lits ∨ ∃ d ∈ divs, d.lit = l := by
  simp [allLits]

theorem processClassic_ok {ρ : Var → Int} {x : Var} {divs : List DivC} {lits : List (MLit Int)}
    {r : List DivC × List (MLit Int)} (hm : ∀ l ∈ allLits divs lits, l.Holds imd ρ)
    (hx : ∀ d ∈ divs, d.p.coeff x = 0) (hpos : ∀ d ∈ divs, 0 < d.c) (h : processClassic ρ x divs lits = some r) :
    ProjOk imd (· = x) ρ (allLits divs lits) (allLits r.1 r.2) ∧ ∀ d ∈ r.1, 0 < d.c := by
  unfold processClassic at h
  simp only [Option.bind_eq_bind, Option.bind_eq_some_iff, Option.pure_def, Option.some.injEq] at h
  obtain ⟨bs, hbs, rfl⟩ := h
  obtain ⟨m1, m2⟩ := mapM_some hbs
  have memI : ∀ l, l ∈ lits.filter (MLit.hasVar x) ↔ l ∈ lits ∧ l.Has x := by
    intro l; rw [List.mem_filter, MLit.hasVar_iff]
  have memR : ∀ l, l ∈ lits.filter (fun l => !MLit.hasVar x l) ↔ l ∈ lits ∧ ¬ l.Has x := by
    intro l; rw [List.mem_filter, ← MLit.hasVar_iff]; simp
  have hml : ∀ l ∈ lits, l.Holds imd ρ := fun l hl => hm l (mem_allLits.2 (.inl hl))
  have hmd : ∀ d ∈ divs, d.lit.Holds imd ρ := fun d hd => hm _ (mem_allLits.2 (.inr ⟨d, hd, rfl⟩))
  have sp : ∀ b ∈ bs, ∃ l ∈ lits, l.Has x ∧ toIBound ρ x l = some b := by
    intro b hb
    obtain ⟨l, h1, h2⟩ := m2 b hb
    exact ⟨l, ((memI l).1 h1).1, ((memI l).1 h1).2, h2⟩
  obtain ⟨k1, k2, k3, k4⟩ := eliminateBounds_spec (ρ := ρ) (v := ρ x) (bs := bs)
    (fun b hb => by obtain ⟨l, h1, h2, h3⟩ := sp b hb; exact (toIBound_spec h3 h2 (hml l h1)).1)
    (fun b hb => by obtain ⟨l, h1, h2, h3⟩ := sp b hb; exact (toIBound_spec h3 h2 (hml l h1)).2.2.1)
  have vars : ∀ b ∈ bs, ∀ y, b.t.coeff y ≠ 0 → y ≠ x ∧ ∃ l0 ∈ allLits divs lits, l0.Has y := by
    intro b hb y hy
    obtain ⟨l, h1, h2, h3⟩ := sp b hb
    obtain ⟨h4, h5⟩ := (toIBound_spec h3 h2 (hml l h1)).2.2.2 y hy
    exact ⟨h4, l, mem_allLits.2 (.inl h1), h5⟩
  refine ⟨⟨?_, ?_, ?_⟩, ?_⟩
  · intro l hl
    rcases mem_allLits.1 hl with hl | ⟨d, hd, rfl⟩
    · rcases List.mem_append.1 hl with hl | hl
      · exact k1 l hl
      · exact hml l ((memR l).1 hl).1
    · rcases List.mem_append.1 hd with hd | hd
      · exact hmd d hd
      · exact (k2 d hd).1
  · intro l hl y hy
    rcases mem_allLits.1 hl with hl | ⟨d, hd, rfl⟩
    · rcases List.mem_append.1 hl with hl | hl
      · obtain ⟨b, hb, h⟩ := k3 y (.inl ⟨l, hl, hy⟩)
        exact vars b hb y h
      · refine ⟨?_, l, mem_allLits.2 (.inl ((memR l).1 hl).1), hy⟩
        rintro rfl
        exact ((memR l).1 hl).2 hy
    · rcases List.mem_append.1 hd with hd' | hd
      · refine ⟨?_, d.lit, mem_allLits.2 (.inr ⟨d, hd', rfl⟩), hy⟩
        rintro rfl
        exact hy (hx d hd')
      · obtain ⟨b, hb, h⟩ := k3 y (.inr ⟨d, hd, hy⟩)
        exact vars b hb y h
  · intro ρ' h'
    obtain ⟨v', hv⟩ := k4 ρ' (fun l hl => h' l (mem_allLits.2 (.inl (List.mem_append.2 (.inl hl)))))
      (fun d hd => h' _ (mem_allLits.2 (.inr ⟨d, List.mem_append.2 (.inr hd), rfl⟩)))
    refine ⟨upd ρ' x v', fun y hy => by simp [upd, hy], fun l hl => ?_⟩
    rcases mem_allLits.1 hl with hl | ⟨d, hd, rfl⟩
    · by_cases e : l.Has x
      · obtain ⟨b, h1, h2⟩ := m1 l ((memI l).2 ⟨hl, e⟩)
        obtain ⟨_, h4, _, h6⟩ := toIBound_spec h2 e (hml l hl)
        refine h4 _ ?_
        have h7 := hv b h1
        have e2 : b.t.eval (upd ρ' x v') = b.t.eval ρ' :=
          Poly.eval_upd_notin (Classical.byContradiction fun hn => (h6 x hn).1 rfl) _ _
        have e3 : upd ρ' x v' x = v' := by simp [upd]
        rw [e3]
        cases b <;> simp only [IBound.Sat, IBound.t] at h7 e2 ⊢ <;> rw [e2] <;> exact h7
      · rw [MLit.holds_upd e]
        exact h' l (mem_allLits.2 (.inl (List.mem_append.2 (.inr ((memR l).2 ⟨hl, e⟩)))))
    · rw [MLit.holds_upd (l := d.lit) (x := x) fun e => e (hx d hd)]
      exact h' _ (mem_allLits.2 (.inr ⟨d, List.mem_append.2 (.inl hd), rfl⟩))
  · intro d hd
    rcases List.mem_append.1 hd with hd | hd
    · exact hpos d hd
    · exact (k2 d hd).2

theorem foldl_lcm {ds : List DivC} (acc : Int) (ha : 0 < acc) (hpos : ∀ d ∈ ds, 0 < d.c) :
    0 < ds.foldl (fun acc e => (Int.lcm acc e.c : Int)) acc ∧
    acc ∣ ds.foldl (fun acc e => (Int.lcm acc e.c : Int)) acc ∧
    ∀ d ∈ ds, d.c ∣ ds.foldl (fun acc e => (Int.lcm acc e.c : Int)) acc := by
  induction ds generalizing acc with
  | nil => exact ⟨ha, dvd_refl _, by simp⟩
  | cons d ds ih =>
    have hd := hpos d (by simp)
    have hl : (0 : Int) < Int.lcm acc d.c := by
      exact_mod_cast Int.lcm_pos ha.ne' hd.ne'
    obtain ⟨h1, h2, h3⟩ := ih _ hl fun d' h' => hpos d' (by simp [h'])
    refine ⟨h1, (Int.dvd_lcm_left acc d.c).trans h2, fun d' h' => ?_⟩
    rcases List.mem_cons.1 h' with rfl | h'
    · exact (Int.dvd_lcm_right acc d'.c).trans h2
    · exact h3 d' h'

theorem dvd_shift {c d : Int} (h : c ∣ d) (p : Poly Int) (x : Var) (ρ : Var → Int) (u k : Int) :
    c ∣ p.eval (upd ρ x (u + d * k)) ↔ c ∣ p.eval (upd ρ x u) := by
  rw [Poly.eval_upd, Poly.eval_upd]
  obtain ⟨e, rfl⟩ := h
  have : p.coeff x * (u + c * e * k) + (p.erase x).eval ρ =
      c * (p.coeff x * e * k) + (p.coeff x * u + (p.erase x).eval ρ) := by ring
  rw [this, dvd_add_right (dvd_mul_right _ _)]

theorem processDiv_ok {ρ : Var → Int} {x : Var} {divs : List DivC} {lits : List (MLit Int)}
    {r : List DivC × List (MLit Int)} (hm : ∀ l ∈ allLits divs lits, l.Holds imd ρ)
    (htmp : ∀ l ∈ allLits divs lits, ¬ l.Has mbpTmp) (hxt : x ≠ mbpTmp) (hpos : ∀ d ∈ divs, 0 < d.c)
    (h : processDiv ρ x divs lits = some r) :
    ProjOk imd (· = x) ρ (allLits divs lits) (allLits r.1 r.2) ∧ ∀ d ∈ r.1, 0 < d.c := by
  unfold processDiv at h
  simp only at h
  split at h
  · rename_i hn
    refine processClassic_ok hm (fun d hd => ?_) hpos h
    apply Classical.byContradiction
    intro hc
    have : d ∈ divs.filter fun d => d.p.hasVar x := List.mem_filter.2 ⟨hd, Poly.hasVar_iff.2 hc⟩
    rw [hn] at this; cases this
  · rename_i d0 ds hn
    have memI : ∀ e, e ∈ d0 :: ds ↔ e ∈ divs ∧ e.p.coeff x ≠ 0 := by
      intro e; rw [← hn, List.mem_filter, Poly.hasVar_iff]
    have memR : ∀ e, e ∈ divs.filter (fun d => !d.p.hasVar x) ↔ e ∈ divs ∧ e.p.coeff x = 0 := by
      intro e; rw [List.mem_filter]; simp [Poly.hasVar]
    have hd0 := ((memI d0).1 (by simp)).1
    obtain ⟨dpos, dv1, dv2⟩ := foldl_lcm d0.c (hpos d0 hd0) (ds := ds)
      fun d hd => hpos d ((memI d).1 (by simp [hd])).1
    generalize ds.foldl (fun acc e => (Int.lcm acc e.c : Int)) d0.c = d at h dpos dv1 dv2
    have dv : ∀ e ∈ d0 :: ds, e.c ∣ d := by
      intro e he
      rcases List.mem_cons.1 he with rfl | he
      · exact dv1
      · exact dv2 e he
    rw [hn] at h
    generalize hu : ρ x % d = u at h
    have hqd : ρ x = u + d * ((ρ x - u) / d) := by
      have := Int.emod_add_mul_ediv (ρ x) d
      rw [hu] at this
      have h1 : ρ x - u = d * (ρ x / d) := by linarith
      rw [h1, Int.mul_ediv_cancel_left _ dpos.ne']
      exact this.symm
    generalize (ρ x - u) / d = k0 at h hqd
    have es : ∀ ρ' : Var → Int, ((Poly.const u).add (Poly.smul d (Poly.ofVar mbpTmp))).eval ρ' = u + d * ρ' mbpTmp := by
      intro ρ'; simp
    have hdivs : ∀ e, (e ∈ (d0 :: ds).map (fun e => (⟨e.c, e.p.subst x (.const u)⟩ : DivC)) ++
        divs.filter (fun d => !d.p.hasVar x)) → (∃ e' ∈ divs, e'.p.coeff x ≠ 0 ∧ e = ⟨e'.c, e'.p.subst x (.const u)⟩) ∨
          (e ∈ divs ∧ e.p.coeff x = 0) := by
      intro e he
      rcases List.mem_append.1 he with he | he
      · obtain ⟨e', h1, rfl⟩ := List.mem_map.1 he
        exact .inl ⟨e', ((memI e').1 h1).1, ((memI e').1 h1).2, rfl⟩
      · exact .inr ((memR e).1 he)
    have tdiv : ∀ e ∈ divs, e.p.coeff mbpTmp = 0 := by
      intro e he
      apply Classical.byContradiction
      exact fun hc => htmp e.lit (mem_allLits.2 (.inr ⟨e, he, rfl⟩)) hc
    have tlit : ∀ l ∈ lits, ¬ l.Has mbpTmp := fun l hl => htmp l (mem_allLits.2 (.inl hl))
    -- the model extended with the value of the temporary variable
    have eρ1 : (fun y => if y = mbpTmp then k0 else ρ y) = upd ρ mbpTmp k0 := rfl
    rw [eρ1] at h
    have back : ∀ (ρ' : Var → Int) (k : Int), upd (upd ρ' mbpTmp k) x (u + d * k) =
        upd (upd ρ' x (u + d * k)) mbpTmp k := by
      intro ρ' k
      funext y
      by_cases h1 : y = x
      · simp [upd, h1, hxt]
      · simp [upd, h1]
    have same : upd ρ x (u + d * k0) = ρ := by
      funext y
      by_cases h1 : y = x
      · simp only [upd, h1, if_true]; exact hqd.symm
      · simp [upd, h1]
    obtain ⟨ok, pos'⟩ := processClassic_ok (ρ := upd ρ mbpTmp k0) (x := mbpTmp)
      (by
        intro l hl
        rcases mem_allLits.1 hl with hl | ⟨e, he, rfl⟩
        · obtain ⟨l', hl', rfl⟩ := List.mem_map.1 hl
          rw [MLit.holds_subst, es]
          have : upd ρ mbpTmp k0 mbpTmp = k0 := by simp [upd]
          rw [this, back, same, MLit.holds_upd (tlit l' hl')]
          exact hm l' (mem_allLits.2 (.inl hl'))
        · rcases hdivs e he with ⟨e', h1, h2, rfl⟩ | ⟨h1, h2⟩
          · rw [DivC.lit_holds]
            simp only [Poly.eval_subst, Poly.eval_const]
            have hc := (DivC.lit_holds e' ρ).1 (hm _ (mem_allLits.2 (.inr ⟨e', h1, rfl⟩)))
            have e1 : e'.p.eval (upd (upd ρ mbpTmp k0) x u) = e'.p.eval (upd ρ x u) := by
              apply Poly.eval_congr
              intro y hy
              have : y ≠ mbpTmp := by rintro rfl; exact hy (tdiv e' h1)
              by_cases h3 : y = x <;> simp [upd, h3, this]
            rw [e1, ← dvd_shift (dv e' ((memI e').2 ⟨h1, h2⟩)) e'.p x ρ u k0, same]
            exact hc
          · rw [MLit.holds_upd (l := e.lit) (x := mbpTmp) (fun hc => hc (tdiv e h1))]
            exact hm _ (mem_allLits.2 (.inr ⟨e, h1, rfl⟩)))
      (by
        intro e he
        rcases hdivs e he with ⟨e', h1, h2, rfl⟩ | ⟨h1, h2⟩
        · simp only [Poly.coeff_subst, Poly.coeff_const, mul_zero, add_zero]
          rw [if_neg (Ne.symm hxt)]
          exact tdiv e' h1
        · exact tdiv e h1)
      (by
        intro e he
        rcases hdivs e he with ⟨e', h1, h2, rfl⟩ | ⟨h1, h2⟩
        · exact hpos e' h1
        · exact hpos e h1) h
    have noTmp : ∀ l ∈ allLits r.1 r.2, ¬ l.Has mbpTmp := fun l hl hy => (ok.vars l hl _ hy).1 rfl
    refine ⟨⟨?_, ?_, ?_⟩, pos'⟩
    · intro l hl
      rw [← MLit.holds_upd (noTmp l hl) ρ k0]
      exact ok.model l hl
    · intro l hl y hy
      obtain ⟨h1, l0, h2, h3⟩ := ok.vars l hl y hy
      rcases mem_allLits.1 h2 with h2 | ⟨e, he, rfl⟩
      · obtain ⟨l', hl', rfl⟩ := List.mem_map.1 h2
        rcases MLit.has_subst h3 with ⟨h4, h5⟩ | ⟨h4, h5⟩
        · exact ⟨h4, l', mem_allLits.2 (.inl hl'), h5⟩
        · exfalso
          simp only [Poly.coeff_add, Poly.coeff_const, Poly.coeff_smul, Poly.coeff_ofVar, zero_add] at h5
          by_cases e : mbpTmp = y
          · exact h1 e.symm
          · simp [e] at h5
      · rcases hdivs e he with ⟨e', h4, h5, rfl⟩ | ⟨h4, h5⟩
        · have h3 : (e'.p.subst x (.const u)).coeff y ≠ 0 := h3
          simp only [Poly.coeff_subst, Poly.coeff_const, mul_zero, add_zero] at h3
          by_cases e : y = x
          · simp [e] at h3
          · refine ⟨e, e'.lit, mem_allLits.2 (.inr ⟨e', h4, rfl⟩), ?_⟩
            simp only [e, if_false] at h3
            exact h3
        · refine ⟨?_, e.lit, mem_allLits.2 (.inr ⟨e, h4, rfl⟩), h3⟩
          rintro rfl
          exact h3 h5
    · intro ρ' h'
      obtain ⟨ρ2, h1, h2⟩ := ok.lift ρ' h'
      have e2 : ρ2 = upd ρ' mbpTmp (ρ2 mbpTmp) := by
        funext y
        by_cases e : y = mbpTmp
        · simp [upd, e]
        · simp only [upd, e, if_false]; exact h1 y e
      generalize ρ2 mbpTmp = k at e2
      refine ⟨upd ρ' x (u + d * k), fun y hy => by simp [upd, hy], fun l hl => ?_⟩
      rw [← MLit.holds_upd (htmp l hl) _ k, ← back, ← e2]
      have ek : ρ2 mbpTmp = k := by rw [e2]; simp [upd]
      rcases mem_allLits.1 hl with hl | ⟨e, he, rfl⟩
      · have := h2 (MLit.subst x ((Poly.const u).add (Poly.smul d (Poly.ofVar mbpTmp))) l)
          (mem_allLits.2 (.inl (List.mem_map.2 ⟨l, hl, rfl⟩)))
        rw [MLit.holds_subst, es, ek] at this
        exact this
      · by_cases hc : e.p.coeff x = 0
        · rw [MLit.holds_upd (l := e.lit) (x := x) (fun h => h hc)]
          exact h2 _ (mem_allLits.2 (.inr ⟨e, List.mem_append.2 (.inr ((memR e).2 ⟨he, hc⟩)), rfl⟩))
        · have hmem : (⟨e.c, e.p.subst x (.const u)⟩ : DivC) ∈
              (d0 :: ds).map (fun e => (⟨e.c, e.p.subst x (.const u)⟩ : DivC)) ++
                divs.filter (fun d => !d.p.hasVar x) :=
            List.mem_append.2 (.inl (List.mem_map.2 ⟨e, (memI e).2 ⟨he, hc⟩, rfl⟩))
          have := h2 _ (mem_allLits.2 (.inr ⟨_, hmem, rfl⟩))
          rw [DivC.lit_holds] at this ⊢
          simp only [Poly.eval_subst, Poly.eval_const] at this
          rw [dvd_shift (dv e ((memI e).2 ⟨he, hc⟩))]
          exact this

theorem projectIntLoop_ok {ρ : Var → Int} (xs : List Var) (hxs : mbpTmp ∉ xs) {divs : List DivC}
    {lits : List (MLit Int)} {r : List DivC × List (MLit Int)} (hm : ∀ l ∈ allLits divs lits, l.Holds imd ρ)
    (htmp : ∀ l ∈ allLits divs lits, ¬ l.Has mbpTmp) (hpos : ∀ d ∈ divs, 0 < d.c)
    (h : projectIntLoop ρ xs divs lits = some r) :
    ProjOk imd (· ∈ xs) ρ (allLits divs lits) (allLits r.1 r.2) := by
  induction xs generalizing divs lits with
  | nil =>
    cases h
    exact ⟨hm, fun l hl y hy => ⟨by simp, l, hl, hy⟩, fun ρ' h' => ⟨ρ', fun _ _ => rfl, h'⟩⟩
  | cons x xs ih =>
    simp only [projectIntLoop, Option.bind_eq_bind, Option.bind_eq_some_iff] at h
    obtain ⟨⟨divs', lits'⟩, h1, h2⟩ := h
    simp only [List.mem_cons, not_or] at hxs
    have o : ProjOk imd (· = x) ρ (allLits divs lits) (allLits divs' lits') ∧ ∀ d ∈ divs', 0 < d.c := by
      unfold projectIntVar at h1
      split at h1
      · rename_i hd
        have hd := List.isEmpty_iff.1 hd
        subst hd
        exact processClassic_ok hm (by simp) (by simp) h1
      · exact processDiv_ok hm htmp (Ne.symm hxs.1) hpos h1
    have htmp' : ∀ l ∈ allLits divs' lits', ¬ l.Has mbpTmp := by
      intro l hl hy
      obtain ⟨_, l0, h3, h4⟩ := o.1.vars l hl _ hy
      exact htmp l0 h3 h4
    have := o.1.trans (ih hxs.2 o.1.model htmp' o.2 h2)
    have e : (fun y => y ∈ x :: xs) = fun y => y = x ∨ y ∈ xs := by funext y; simp
    rw [e]; exact this

/-- Elimination of integer variables. -/
theorem projectIntVars_ok {ρ : Var → Int} (xs : List Var) (hxs : mbpTmp ∉ xs) {lits r : List (MLit Int)}
    (hm : ∀ l ∈ lits, l.Holds imd ρ) (htmp : ∀ l ∈ lits, ¬ l.Has mbpTmp)
    (hpos : ∀ l ∈ lits, ∀ c p, l.1 = .dvd c p → 0 < c) (h : projectIntVars ρ xs lits = some r) :
    ProjOk imd (· ∈ xs) ρ lits r := by
  simp only [projectIntVars, Option.bind_eq_bind, Option.bind_eq_some_iff, Option.pure_def, Option.some.injEq] at h
  obtain ⟨⟨divs', lits'⟩, h1, rfl⟩ := h
  have toDiv : ∀ (l : MLit Int) (d : DivC), l.toDiv = some d → d.lit = l := by
    intro l d hd
    obtain ⟨a, s⟩ := l
    cases a <;> cases s <;> simp [MLit.toDiv] at hd
    subst hd; rfl
  have mem : ∀ l, l ∈ allLits (lits.filterMap MLit.toDiv) (lits.filter fun l => l.toDiv.isNone) ↔ l ∈ lits := by
    intro l
    rw [mem_allLits, List.mem_filter]
    constructor
    · rintro (h | ⟨d, hd, rfl⟩)
      · exact h.1
      · obtain ⟨l, hl, h⟩ := List.mem_filterMap.1 hd
        rw [toDiv l d h]; exact hl
    · intro hl
      cases e : l.toDiv with
      | none => exact .inl ⟨hl, by simp⟩
      | some d => exact .inr ⟨d, List.mem_filterMap.2 ⟨l, hl, e⟩, toDiv l d e⟩
  have ok := projectIntLoop_ok xs hxs (fun l hl => hm l ((mem l).1 hl)) (fun l hl => htmp l ((mem l).1 hl))
    (fun d hd => by
      obtain ⟨l, hl, h⟩ := List.mem_filterMap.1 hd
      have := toDiv l d h
      exact hpos l hl d.c d.p (by rw [← this]; rfl)) h1
  have er : (lits' ++ divs'.map fun d => ((.dvd d.c d.p, true) : MLit Int)) = allLits divs' lits' := rfl
  rw [er]
  refine ⟨ok.model, fun l hl y hy => ?_, fun ρ' h' => ?_⟩
  · obtain ⟨h1, l0, h2, h3⟩ := ok.vars l hl y hy
    exact ⟨h1, l0, (mem l0).1 h2, h3⟩
  · obtain ⟨ρ2, h2, h3⟩ := ok.lift ρ' h'
    exact ⟨ρ2, h2, fun l hl => h3 l ((mem l).2 hl)⟩

end Golem
