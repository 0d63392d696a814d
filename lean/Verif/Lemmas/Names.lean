import Verif.Model.Names
/-! Facts about the string layer of variable names (no model definitions here). -/

namespace Golem
namespace Names

theorem digit_toNat {d : Nat} (h : d < 10) : (digit d).toNat = 48 + d := by
  match d, h with
  | 0, _ => rfl | 1, _ => rfl | 2, _ => rfl | 3, _ => rfl | 4, _ => rfl
  | 5, _ => rfl | 6, _ => rfl | 7, _ => rfl | 8, _ => rfl | 9, _ => rfl

theorem isDigit_digit {d : Nat} (h : d < 10) : isDigit (digit d) = true := by
  unfold isDigit; rw [digit_toNat h]; simp; omega

theorem showNat_digits (n : Nat) : ∀ c ∈ showNat n, isDigit c = true := by
  induction n using Nat.strongRecOn with
  | _ n ih =>
    intro c hc
    rw [showNat] at hc
    split at hc
    · rename_i h
      simp only [List.mem_singleton] at hc
      subst hc; exact isDigit_digit h
    · rw [List.mem_append] at hc
      rcases hc with hc | hc
      · exact ih (n / 10) (by omega) c hc
      · simp only [List.mem_singleton] at hc
        subst hc; exact isDigit_digit (Nat.mod_lt _ (by omega))

theorem showNat_ne_nil (n : Nat) : showNat n ≠ [] := by
  rw [showNat]; split <;> simp

theorem showNat_not {c : Char} (h : isDigit c = false) (n : Nat) : c ∉ showNat n := by
  intro hc
  have := showNat_digits n c hc
  rw [h] at this; cases this

theorem foldl_showNat (n : Nat) :
    (showNat n).foldl (fun n c => 10 * n + (c.toNat - 48)) 0 = n := by
  induction n using Nat.strongRecOn with
  | _ n ih =>
    rw [showNat]
    split
    · rename_i h
      simp only [List.foldl_cons, List.foldl_nil, digit_toNat h]; omega
    · rw [List.foldl_append, ih (n / 10) (by omega)]
      simp only [List.foldl_cons, List.foldl_nil, digit_toNat (Nat.mod_lt n (by omega : 0 < 10))]
      omega

theorem readNat_showNat (n : Nat) : readNat (showNat n) = some n := by
  unfold readNat
  have h : (showNat n).takeWhile isDigit = showNat n := by
    have h := showNat_digits n
    revert h
    generalize showNat n = l
    intro h
    induction l with
    | nil => rfl
    | cons c l ih =>
      rw [List.takeWhile_cons, h c List.mem_cons_self]
      simp only [ite_true]
      rw [ih fun d hd => h d (List.mem_cons_of_mem _ hd)]
  rw [h]
  have hn := showNat_ne_nil n
  have hf := foldl_showNat n
  split
  · rename_i h2; exact absurd h2 hn
  · rw [hf]

theorem showNat_inj {m n : Nat} (h : showNat m = showNat n) : m = n := by
  have := congrArg readNat h
  rw [readNat_showNat, readNat_showNat] at this
  exact Option.some.inj this

theorem isSpace_of_isDigit {c : Char} (h : isDigit c = true) : isSpace c = false := by
  unfold isDigit at h; unfold isSpace
  simp only [Bool.and_eq_true, decide_eq_true_eq] at h
  simp; omega

theorem showNat_head (n : Nat) : ∃ c r, showNat n = c :: r ∧ isDigit c = true := by
  have h := showNat_ne_nil n
  have hd := showNat_digits n
  cases hs : showNat n with
  | nil => exact absurd hs h
  | cons c r => exact ⟨c, r, rfl, hd c (by rw [hs]; simp)⟩

theorem stoi_showInt (k : Int) (h : -2147483648 ≤ k ∧ k < 2147483648) : stoi (showInt k) = some k := by
  cases k with
  | ofNat n =>
    obtain ⟨c, r, hs, hc⟩ := showNat_head n
    have hd : (showNat n).dropWhile isSpace = showNat n := by
      rw [hs, List.dropWhile_cons, isSpace_of_isDigit hc]; rfl
    have h1 : c ≠ '-' := by intro he; subst he; revert hc; decide
    have h2 : c ≠ '+' := by intro he; subst he; revert hc; decide
    have hr := readNat_showNat n
    have e : readSigned (showNat n) = some (Int.ofNat n) := by
      rw [hs] at hr ⊢
      rw [readSigned, if_neg h1, if_neg h2, hr]; rfl
    unfold stoi
    simp only [showInt, hd, e]
    exact if_pos h
  | negSucc n =>
    have hd : (showInt (.negSucc n)).dropWhile isSpace = '-' :: showNat (n + 1) := by
      show (('-' :: showNat (n + 1)).dropWhile isSpace) = _
      rw [List.dropWhile_cons]; rfl
    have e : readSigned ('-' :: showNat (n + 1)) = some (Int.negSucc n) := by
      rw [readSigned, if_pos rfl, readNat_showNat]; rfl
    unfold stoi
    simp only [hd, e]
    exact if_pos h

theorem showInt_chars (k : Int) : ∀ c ∈ showInt k, isDigit c = true ∨ c = '-' := by
  cases k with
  | ofNat n => exact fun c hc => Or.inl (showNat_digits n c hc)
  | negSucc n =>
    intro c hc
    rcases List.mem_cons.1 hc with rfl | hc
    · exact Or.inr rfl
    · exact Or.inl (showNat_digits _ c hc)

theorem showInt_not_hash (k : Int) : '#' ∉ showInt k := by
  intro h; rcases showInt_chars k _ h with h | h
  · revert h; decide
  · revert h; decide

theorem showInt_not_under (k : Int) : '_' ∉ showInt k := by
  intro h; rcases showInt_chars k _ h with h | h
  · revert h; decide
  · revert h; decide

theorem showInt_inj {a b : Int} (h : showInt a = showInt b) : a = b := by
  have hd : ∀ n, '-' ∉ showNat n := showNat_not (by decide)
  cases a with
  | ofNat m =>
    cases b with
    | ofNat n => exact congrArg _ (showNat_inj h)
    | negSucc n =>
      exfalso; apply hd m
      have h' : showNat m = '-' :: showNat (n + 1) := h
      rw [h']; simp
  | negSucc m =>
    cases b with
    | ofNat n =>
      exfalso; apply hd n
      have h' : '-' :: showNat (m + 1) = showNat n := h
      rw [← h']; simp
    | negSucc n =>
      have h' : '-' :: showNat (m + 1) = '-' :: showNat (n + 1) := h
      have := showNat_inj (List.cons.inj h').2
      have e : m = n := by omega
      rw [e]

/-! ### rfind -/

theorem rfind_not_mem {c : Char} {s : Str} (h : c ∉ s) : rfind [c, c] s = none := by
  induction s with
  | nil => rfl
  | cons d s ih =>
    have h1 : c ∉ s := fun hc => h (List.mem_cons_of_mem _ hc)
    have h2 : c ≠ d := fun hc => h (by rw [hc]; exact List.mem_cons_self)
    simp only [rfind, ih h1]
    have : List.isPrefixOf [c, c] (d :: s) = false := by
      simp [List.isPrefixOf, h2]
    rw [this]; rfl

/-- The last separator is found when nothing after it contains its character. -/
theorem rfind_last {c : Char} (n : Str) {r : Str} (h : c ∉ r) : rfind [c, c] (n ++ c :: c :: r) = some n.length := by
  induction n with
  | nil =>
    have h1 : rfind [c, c] (c :: r) = none := by
      simp only [rfind, rfind_not_mem h]
      have : List.isPrefixOf [c, c] (c :: r) = false := by
        cases r with
        | nil => simp [List.isPrefixOf]
        | cons d r =>
          have : c ≠ d := fun hc => h (by rw [hc]; exact List.mem_cons_self)
          simp [List.isPrefixOf, this]
      rw [this]; rfl
    show rfind [c, c] (c :: c :: r) = some 0
    rw [rfind, h1]
    simp [List.isPrefixOf]
  | cons d n ih =>
    show rfind [c, c] (d :: (n ++ c :: c :: r)) = _
    rw [rfind, ih]; rfl

theorem rfind_cons_none {c d : Char} {s : Str} :
    rfind [c, c] (d :: s) = none ↔ rfind [c, c] s = none ∧ ¬ (d = c ∧ s.head? = some c) := by
  rw [rfind]
  cases h : rfind [c, c] s with
  | some p => simp
  | none =>
    simp only [true_and]
    cases s with
    | nil => simp [List.isPrefixOf]
    | cons e s =>
      simp only [List.isPrefixOf, List.head?_cons, Option.some.injEq]
      by_cases h1 : d = c
      · by_cases h2 : e = c
        · simp [h1, h2]
        · have : c ≠ e := fun h => h2 h.symm
          simp [h1, h2, this]
      · have : c ≠ d := fun h => h1 h.symm
        simp [h1, this]

theorem rfind_append_none {c : Char} {a b : Str} (ha : rfind [c, c] a = none) (hb : rfind [c, c] b = none)
    (h : a.getLast? ≠ some c ∨ b.head? ≠ some c) : rfind [c, c] (a ++ b) = none := by
  induction a with
  | nil => exact hb
  | cons d a ih =>
    rw [rfind_cons_none] at ha
    show rfind [c, c] (d :: (a ++ b)) = none
    rw [rfind_cons_none]
    cases a with
    | nil =>
      refine ⟨hb, ?_⟩
      rintro ⟨h1, h2⟩
      rcases h with h | h
      · apply h; rw [h1]; rfl
      · exact h h2
    | cons e a =>
      refine ⟨ih ha.1 ?_, ?_⟩
      · rcases h with h | h
        · left; rw [List.getLast?_cons_cons] at h; exact h
        · exact Or.inr h
      · intro h1; exact ha.2 ⟨h1.1, h1.2⟩

theorem head_not_mem {c : Char} {s : Str} (h : c ∉ s) : s.head? ≠ some c := by
  intro he
  cases s with
  | nil => cases he
  | cons d s => simp at he; subst he; exact h List.mem_cons_self

theorem last_not_mem {c : Char} {s : Str} (h : c ∉ s) : s.getLast? ≠ some c := fun he =>
  h (List.mem_of_getLast? he)

theorem rfind_append_not {c : Char} {a b : Str} (ha : rfind [c, c] a = none) (hb : c ∉ b) :
    rfind [c, c] (a ++ b) = none :=
  rfind_append_none ha (rfind_not_mem hb) (Or.inr (head_not_mem hb))

/-- `rfind` fails exactly if the separator does not occur. -/
theorem rfind_none_iff {c : Char} {s : Str} : rfind [c, c] s = none ↔ ¬ [c, c] <:+: s := by
  induction s with
  | nil => simp [rfind, List.isPrefixOf]
  | cons d s ih =>
    rw [rfind_cons_none, ih, List.infix_cons_iff]
    constructor
    · rintro ⟨h1, h2⟩ (h | h)
      · rw [List.prefix_iff_eq_append] at h
        apply h2
        cases s with
        | nil => simp at h
        | cons e s => simp at h; simp [h.1, h.2.symm]
      · exact h1 h
    · intro h
      refine ⟨fun h1 => h (Or.inr h1), ?_⟩
      rintro ⟨rfl, h2⟩
      apply h
      left
      cases s with
      | nil => cases h2
      | cons e s => simp at h2; subst h2; exact ⟨s, rfl⟩

theorem split_inj {c : Char} {a a' b b' : Str} (ha : c ∉ a) (ha' : c ∉ a') (h : a ++ c :: b = a' ++ c :: b') :
    a = a' ∧ b = b' := by
  induction a generalizing a' with
  | nil =>
    cases a' with
    | nil => exact ⟨rfl, (List.cons.inj h).2⟩
    | cons d a' => exfalso; apply ha'; rw [(List.cons.inj h).1]; simp
  | cons d a ih =>
    cases a' with
    | nil => exfalso; apply ha; rw [← (List.cons.inj h).1]; simp
    | cons e a' =>
      obtain ⟨h1, h2⟩ := List.cons.inj h
      obtain ⟨h3, h4⟩ := ih (fun hc => ha (List.mem_cons_of_mem _ hc)) (fun hc => ha' (List.mem_cons_of_mem _ hc)) h2
      exact ⟨by rw [h1, h3], h4⟩

end Names
end Golem
