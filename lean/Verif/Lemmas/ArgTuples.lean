import Verif.Model.Engines.ArgBased

/-! The loop over all tuples of instances visits every tuple. -/

namespace Golem
variable {T : Theory}

/-- A tuple with one element of each list. -/
def InLists : List Nat → List (List Nat) → Prop
  | [], [] => True
  | a :: as, l :: ls => a ∈ l ∧ InLists as ls
  | _, _ => False

/-- Indices within the lists. -/
def IdxOk : List Nat → List (List Nat) → Prop
  | [], [] => True
  | i :: is, l :: ls => i < l.length ∧ IdxOk is ls
  | _, _ => False

/-- The number of tuples. -/
def tupleCount (ls : List (List Nat)) : Nat := (ls.map List.length).foldr (· * ·) 1

/-- The position of a tuple of indices in the order of visits. -/
def idxVal : List Nat → List (List Nat) → Nat
  | i :: is, _ :: ls => i * tupleCount ls + idxVal is ls
  | _, _ => 0

theorem tupleCount_cons (l : List Nat) (ls : List (List Nat)) : tupleCount (l :: ls) = l.length * tupleCount ls := by
  simp [tupleCount]

theorem idxVal_lt : ∀ {is : List Nat} {ls : List (List Nat)}, IdxOk is ls → idxVal is ls < tupleCount ls := by
  intro is
  induction is with
  | nil => intro ls h; cases ls with
    | nil => simp [idxVal, tupleCount]
    | cons => exact h.elim
  | cons i is ih =>
    intro ls h
    cases ls with
    | nil => exact h.elim
    | cons l ls =>
      have h1 := ih h.2
      have h2 : (i + 1) * tupleCount ls ≤ l.length * tupleCount ls := Nat.mul_le_mul_right _ h.1
      rw [tupleCount_cons, idxVal]
      rw [Nat.add_mul] at h2
      omega

theorem idxVal_inj : ∀ {is js : List Nat} {ls : List (List Nat)}, IdxOk is ls → IdxOk js ls → idxVal is ls = idxVal js ls → is = js := by
  intro is
  induction is with
  | nil => intro js ls h h' _; cases ls with
    | nil => cases js with
      | nil => rfl
      | cons => exact h'.elim
    | cons => exact h.elim
  | cons i is ih =>
    intro js ls h h' e
    cases ls with
    | nil => exact h.elim
    | cons l ls =>
      cases js with
      | nil => exact h'.elim
      | cons j js =>
        simp only [idxVal] at e
        have a1 := idxVal_lt h.2
        have a2 := idxVal_lt h'.2
        have hij : i = j := by
          rcases Nat.lt_trichotomy i j with hlt | rfl | hlt
          · have : (i + 1) * tupleCount ls ≤ j * tupleCount ls := Nat.mul_le_mul_right _ hlt
            rw [Nat.add_mul] at this; omega
          · rfl
          · have : (j + 1) * tupleCount ls ≤ i * tupleCount ls := Nat.mul_le_mul_right _ hlt
            rw [Nat.add_mul] at this; omega
        subst hij
        rw [ih h.2 h'.2 (by omega)]

theorem paCarry_spec : ∀ {is : List Nat} {ls : List (List Nat)}, IdxOk is ls →
    ((paCarry is ls).2 = true → IdxOk (paCarry is ls).1 ls ∧ idxVal (paCarry is ls).1 ls = 0 ∧ idxVal is ls + 1 = tupleCount ls) ∧
    ((paCarry is ls).2 = false → IdxOk (paCarry is ls).1 ls ∧ idxVal (paCarry is ls).1 ls = idxVal is ls + 1) := by
  intro is
  induction is with
  | nil => intro ls h; cases ls with
    | nil => simp [paCarry, IdxOk, idxVal, tupleCount]
    | cons => exact h.elim
  | cons i is ih =>
    intro ls h
    cases ls with
    | nil => exact h.elim
    | cons l ls =>
      obtain ⟨h1, h2⟩ := ih h.2
      obtain ⟨hi, _⟩ := h
      simp only [paCarry]
      cases hc : (paCarry is ls).2 with
      | false =>
        obtain ⟨b1, b2⟩ := h2 hc
        simp only [Bool.false_eq_true, if_false, false_imp_iff, true_and, true_imp_iff]
        exact ⟨⟨hi, b1⟩, by simp only [idxVal, b2]; omega⟩
      | true =>
        obtain ⟨b1, b2, b3⟩ := h1 hc
        simp only [if_true]
        by_cases he : i + 1 = l.length
        · simp only [he, if_true, true_imp_iff, Bool.true_eq_false, false_imp_iff, and_true]
          refine ⟨⟨by omega, b1⟩, by simp [idxVal, b2], ?_⟩
          rw [tupleCount_cons, ← he, Nat.add_mul]
          simp only [idxVal]; omega
        · simp only [he, if_false, Bool.false_eq_true, false_imp_iff, true_and, true_imp_iff]
          refine ⟨⟨by omega, b1⟩, ?_⟩
          simp only [idxVal, b2, Nat.add_mul]; omega

theorem paPick_mem : ∀ {is : List Nat} {ls : List (List Nat)}, IdxOk is ls → InLists (paPick is ls) ls := by
  intro is
  induction is with
  | nil => intro ls h; cases ls with
    | nil => simp [paPick, InLists]
    | cons => exact h.elim
  | cons i is ih =>
    intro ls h
    cases ls with
    | nil => exact h.elim
    | cons l ls =>
      refine ⟨?_, ih h.2⟩
      have : l.getD i 0 = l[i]'h.1 := by simp [h.1]
      show l.getD i 0 ∈ l
      rw [this]
      exact List.getElem_mem _

theorem exists_idx : ∀ {t : List Nat} {ls : List (List Nat)}, InLists t ls → ∃ is, IdxOk is ls ∧ paPick is ls = t := by
  intro t
  induction t with
  | nil => intro ls h; cases ls with
    | nil => exact ⟨[], trivial, rfl⟩
    | cons => exact h.elim
  | cons a t ih =>
    intro ls h
    cases ls with
    | nil => exact h.elim
    | cons l ls =>
      obtain ⟨is, h1, h2⟩ := ih h.2
      obtain ⟨i, hi, e⟩ := List.getElem_of_mem h.1
      refine ⟨i :: is, ⟨hi, h1⟩, ?_⟩
      simp only [paPick, List.zipWith_cons_cons, List.cons.injEq]
      exact ⟨by simpa [hi] using e, h2⟩

theorem tupleLoop_mem {l : List Nat} {ls : List (List Nat)} : ∀ (fuel : Nat) (i : Nat) (is : List Nat), i ≤ l.length → IdxOk is ls →
    (∀ t ∈ paTupleLoop (l :: ls) fuel (i :: is), InLists t (l :: ls)) ∧
    ∀ js, IdxOk js (l :: ls) → idxVal (i :: is) (l :: ls) ≤ idxVal js (l :: ls) →
      tupleCount (l :: ls) ≤ idxVal (i :: is) (l :: ls) + fuel → paPick js (l :: ls) ∈ paTupleLoop (l :: ls) fuel (i :: is) := by
  intro fuel
  induction fuel with
  | zero =>
    intro i is _ _
    refine ⟨by simp [paTupleLoop], fun js h1 h2 h3 => ?_⟩
    have := idxVal_lt h1
    omega
  | succ fuel ih =>
    intro i is hi his
    rw [paTupleLoop]
    simp only [List.head?_cons, Option.map_some, Option.some.injEq]
    by_cases he : i = l.length
    · simp only [he, if_true]
      refine ⟨by simp, fun js h1 h2 h3 => ?_⟩
      have := idxVal_lt h1
      rw [tupleCount_cons] at this
      simp only [idxVal] at h2 ⊢
      omega
    · have hlt : i < l.length := by omega
      rw [if_neg he]
      obtain ⟨c1, c2⟩ := paCarry_spec his
      have hinc : ∃ i' is', paIncrement (i :: is) (l :: ls) = i' :: is' ∧ i' ≤ l.length ∧ IdxOk is' ls ∧
          idxVal (i' :: is') (l :: ls) = idxVal (i :: is) (l :: ls) + 1 := by
        cases hc : (paCarry is ls).2 with
        | true =>
          obtain ⟨b1, b2, b3⟩ := c1 hc
          refine ⟨i + 1, (paCarry is ls).1, by simp [paIncrement, hc], hlt, b1, ?_⟩
          simp only [idxVal, b2, Nat.add_mul]; omega
        | false =>
          obtain ⟨b1, b2⟩ := c2 hc
          refine ⟨i, (paCarry is ls).1, by simp [paIncrement, hc], hi, b1, ?_⟩
          simp only [idxVal, b2]; omega
      obtain ⟨i', is', e, h1, h2, h3⟩ := hinc
      rw [e]
      obtain ⟨g1, g2⟩ := ih i' is' h1 h2
      constructor
      · intro t ht
        rcases List.mem_cons.1 ht with rfl | ht
        · exact paPick_mem (is := i :: is) (ls := l :: ls) ⟨hlt, his⟩
        · exact g1 t ht
      · intro js k1 k2 k3
        by_cases heq : idxVal (i :: is) (l :: ls) = idxVal js (l :: ls)
        · rw [← idxVal_inj (is := i :: is) (ls := l :: ls) ⟨hlt, his⟩ k1 heq]; exact List.mem_cons_self
        · exact List.mem_cons_of_mem _ (g2 js k1 (by omega) (by omega))

/-- The loop visits exactly the tuples with one element of each list. -/
theorem paTuples_mem {ls : List (List Nat)} (hne : ls ≠ []) {t : List Nat} : t ∈ paTuples ls ↔ InLists t ls := by
  unfold paTuples
  by_cases hany : (ls.any fun l => l.isEmpty) = true
  · rw [if_pos hany]
    simp only [List.not_mem_nil, false_iff]
    rw [List.any_eq_true] at hany
    obtain ⟨l, hl, he⟩ := hany
    rw [List.isEmpty_iff] at he
    subst he
    clear hne
    induction ls generalizing t with
    | nil => simp at hl
    | cons l ls ih =>
      intro h
      cases t with
      | nil => exact h
      | cons a t =>
        rcases List.mem_cons.1 hl with rfl | hl
        · exact absurd h.1 (by simp)
        · exact ih hl h.2
  · rw [if_neg hany]
    cases ls with
    | nil => exact absurd rfl hne
    | cons l ls =>
      have h0 : ∀ ls : List (List Nat), (ls.any fun l => l.isEmpty) ≠ true → IdxOk (ls.map fun _ => 0) ls ∧ idxVal (ls.map fun _ => 0) ls = 0 := by
        intro ls
        induction ls with
        | nil => intro _; exact ⟨trivial, rfl⟩
        | cons l ls ih =>
          intro h
          simp only [List.any_cons, ne_eq, Bool.or_eq_true, not_or] at h
          obtain ⟨a, b⟩ := ih h.2
          have : l ≠ [] := by simpa using h.1
          exact ⟨⟨List.length_pos_iff.2 this, a⟩, by simp [idxVal, b]⟩
      obtain ⟨a, b⟩ := h0 _ hany
      obtain ⟨c1, c2⟩ := tupleLoop_mem ((List.map List.length (l :: ls)).foldr (· * ·) 1 + 1) 0 (ls.map fun _ => 0) (Nat.zero_le l.length) a.2
      simp only [List.map_cons] at b c1 c2 ⊢
      constructor
      · exact c1 t
      · intro h
        obtain ⟨js, d1, d2⟩ := exists_idx h
        rw [← d2]
        refine c2 js d1 (by omega) ?_
        rw [b]
        simp only [tupleCount, List.map_cons]
        omega

end Golem
