import Mathlib.Data.List.Forall2
import Verif.Model.NormalForms
import Verif.Lemmas.Smt

/-!
C29 (NNF), C30 (DNF), C31 (top-level juncts).
-/

namespace Golem
variable {T : Theory}

/-! ### Specification -/

/-- Two formulas have the same truth value under every valuation. -/
def Fla.Equiv (f g : Fla T) : Prop := ∀ ρ : Valuation T, f.holds ρ ↔ g.holds ρ

/-- Atoms and negated atoms. -/
inductive IsLiteral : Fla T → Prop
  | pos {f : Fla T} (h : f.isAtom = true) : IsLiteral f
  | neg {f : Fla T} (h : f.isAtom = true) : IsLiteral (.not f)

/-- Negation normal form: built from literals by conjunction and disjunction only (so no Boolean equality, and negation
only in front of atoms). -/
inductive IsNNF : Fla T → Prop
  | lit {f : Fla T} (h : IsLiteral f) : IsNNF f
  | and {f g : Fla T} (hf : IsNNF f) (hg : IsNNF g) : IsNNF (.and f g)
  | or {f g : Fla T} (hf : IsNNF f) (hg : IsNNF g) : IsNNF (.or f g)

/-- Disjunctive normal form: a disjunction of conjunctions of literals. -/
def IsDNF (f : Fla T) : Prop :=
  ∃ cs : List (List (Fla T)), (∀ c ∈ cs, ∀ l ∈ c, IsLiteral l) ∧ f = Fla.disj (cs.map Fla.conj)

/-! ### NNF -/

theorem nnfNegate_spec {f : Fla T} (h : IsNNF f) :
    ∃ g, nnfNegate f = some g ∧ IsNNF g ∧ ∀ ρ, g.holds ρ ↔ ¬ f.holds ρ := by
  induction h with
  | @lit f h =>
    cases h with
    | pos h =>
      cases f <;> simp [Fla.isAtom] at h <;>
        exact ⟨_, rfl, .lit (.neg rfl), fun ρ => Iff.rfl⟩
    | @neg f h => exact ⟨f, rfl, .lit (.pos h), fun ρ => by simp [Fla.holds]⟩
  | and _ _ ihf ihg =>
    obtain ⟨f', h1, h2, h3⟩ := ihf
    obtain ⟨g', k1, k2, k3⟩ := ihg
    exact ⟨.or f' g', by simp [nnfNegate, h1, k1], .or h2 k2, fun ρ => by
      simp only [Fla.holds, h3, k3]; exact (Decidable.not_and_iff_not_or_not).symm⟩
  | or _ _ ihf ihg =>
    obtain ⟨f', h1, h2, h3⟩ := ihf
    obtain ⟨g', k1, k2, k3⟩ := ihg
    exact ⟨.and f' g', by simp [nnfNegate, h1, k1], .and h2 k2, fun ρ => by
      simp only [Fla.holds, h3, k3, not_or]⟩

/-- C29. `toNNF` always succeeds, the result is in negation normal form and equivalent to the input. -/
theorem C29_nnf (f : Fla T) : ∃ g, toNNF f = some g ∧ IsNNF g ∧ g.Equiv f := by
  unfold toNNF
  induction f with
  | tt => exact ⟨_, rfl, .lit (.pos rfl), fun _ => Iff.rfl⟩
  | ff => exact ⟨_, rfl, .lit (.pos rfl), fun _ => Iff.rfl⟩
  | atom t => exact ⟨_, rfl, .lit (.pos rfl), fun _ => Iff.rfl⟩
  | eq a b => exact ⟨_, rfl, .lit (.pos rfl), fun _ => Iff.rfl⟩
  | not f ih =>
    obtain ⟨f', h1, h2, h3⟩ := ih
    obtain ⟨g, k1, k2, k3⟩ := nnfNegate_spec h2
    exact ⟨g, by simp [nnfTransform, h1, k1], k2, fun ρ => by rw [k3, h3]; exact Iff.rfl⟩
  | and f g ihf ihg =>
    obtain ⟨f', h1, h2, h3⟩ := ihf
    obtain ⟨g', k1, k2, k3⟩ := ihg
    exact ⟨.and f' g', by simp [nnfTransform, h1, k1], .and h2 k2, fun ρ => by simp only [Fla.holds, h3 ρ, k3 ρ]⟩
  | or f g ihf ihg =>
    obtain ⟨f', h1, h2, h3⟩ := ihf
    obtain ⟨g', k1, k2, k3⟩ := ihg
    exact ⟨.or f' g', by simp [nnfTransform, h1, k1], .or h2 k2, fun ρ => by simp only [Fla.holds, h3 ρ, k3 ρ]⟩
  | iff f g ihf ihg =>
    obtain ⟨f', h1, h2, h3⟩ := ihf
    obtain ⟨g', k1, k2, k3⟩ := ihg
    obtain ⟨nf, m1, m2, m3⟩ := nnfNegate_spec h2
    obtain ⟨ng, n1, n2, n3⟩ := nnfNegate_spec k2
    refine ⟨.and (.or nf g') (.or ng f'), by simp [nnfTransform, h1, k1, m1, n1], .and (.or m2 k2) (.or n2 h2), ?_⟩
    intro ρ
    simp only [Fla.holds, m3, n3, h3 ρ, k3 ρ]
    constructor
    · rintro ⟨a, b⟩
      exact ⟨fun h => a.resolve_left (fun h' => h' h), fun h => b.resolve_left (fun h' => h' h)⟩
    · intro h
      by_cases hf : f.holds ρ
      · exact ⟨.inr (h.1 hf), .inr hf⟩
      · exact ⟨.inl hf, .inl (fun hg => hf (h.2 hg))⟩

/-! ### DNF -/

theorem conflict_mem {l : Cube T} (h : hasAdjacentConflict l = true) : ∃ a, (a, true) ∈ l ∧ (a, false) ∈ l := by
  induction l with
  | nil => simp [hasAdjacentConflict] at h
  | cons x l ih =>
    cases l with
    | nil => simp [hasAdjacentConflict] at h
    | cons y l =>
      simp only [hasAdjacentConflict, Bool.or_eq_true, Bool.and_eq_true, decide_eq_true_eq] at h
      rcases h with ⟨h1, h2⟩ | h
      · obtain ⟨a, s⟩ := x
        obtain ⟨b, t⟩ := y
        simp only at h1 h2
        subst h1
        refine ⟨a, ?_⟩
        cases s <;> cases t <;> simp at h2 ⊢
      · obtain ⟨a, h1, h2⟩ := ih h
        exact ⟨a, by simp [h1], by simp [h2]⟩

theorem mem_conflict {ord : Fla T → Nat} (hinj : ∀ a b, ord a = ord b → a = b) {l : Cube T}
    (hs : l.Pairwise fun a b => ord a.1 ≤ ord b.1) {a : Fla T} (h1 : (a, true) ∈ l) (h2 : (a, false) ∈ l) :
    hasAdjacentConflict l = true := by
  induction l with
  | nil => simp at h1
  | cons x l ih =>
    cases l with
    | nil => simp at h1 h2; rw [← h1] at h2; simp at h2
    | cons y l =>
      simp only [hasAdjacentConflict, Bool.or_eq_true, Bool.and_eq_true, decide_eq_true_eq]
      have hs' := List.pairwise_cons.1 hs
      by_cases hboth : (a, true) ∈ y :: l ∧ (a, false) ∈ y :: l
      · exact .inr (ih hs'.2 hboth.1 hboth.2)
      · have hx : x.1 = a ∧ (a, !x.2) ∈ y :: l := by
          rcases List.mem_cons.1 h1 with e1 | e1 <;> rcases List.mem_cons.1 h2 with e2 | e2
          · rw [← e1] at e2; simp at e2
          · rw [← e1]; exact ⟨rfl, e2⟩
          · rw [← e2]; exact ⟨rfl, e1⟩
          · exact absurd ⟨e1, e2⟩ hboth
        obtain ⟨hx1, hx2⟩ := hx
        have hy : y.1 = a := by
          apply hinj
          have h3 := hs'.1 y (by simp)
          rw [hx1] at h3
          rcases List.mem_cons.1 hx2 with e | e
          · rw [← e]
          · have := (List.pairwise_cons.1 hs'.2).1 _ e
            simp only at this; omega
        by_cases hsgn : x.2 = y.2
        · exfalso
          apply hboth
          have hym : (a, x.2) ∈ y :: l := by rw [hsgn, ← hy]; simp
          cases hxs : x.2 <;> rw [hxs] at hx2 hym
          · exact ⟨hx2, hym⟩
          · exact ⟨hym, hx2⟩
        · exact .inl ⟨by rw [hx1, hy], hsgn⟩

theorem litLe_trans (ord : Fla T → Nat) : ∀ a b c : Lit T, litLe ord a b = true → litLe ord b c = true →
    litLe ord a c = true := by
  intro a b c h1 h2
  simp only [litLe, decide_eq_true_eq] at *
  rcases h1 with h1 | ⟨h1, h1'⟩ <;> rcases h2 with h2 | ⟨h2, h2'⟩
  · left; omega
  · left; omega
  · left; omega
  · right; refine ⟨by omega, ?_⟩
    rcases h1' with h | h
    · exact .inl h
    · rw [h] at h2'; simp at h2'; exact .inr h2'

theorem litLe_total (ord : Fla T → Nat) : ∀ a b : Lit T, (litLe ord a b || litLe ord b a) = true := by
  intro a b
  simp only [litLe, Bool.or_eq_true, decide_eq_true_eq]
  rcases Nat.lt_trichotomy (ord a.1) (ord b.1) with h | h | h
  · exact .inl (.inl h)
  · cases ha : a.2 <;> cases hb : b.2 <;> simp [h]
  · exact .inr (.inl h)

theorem sorted_lits (ord : Fla T → Nat) (c : Cube T) :
    (c.mergeSort (litLe ord)).Pairwise fun a b => ord a.1 ≤ ord b.1 := by
  refine (List.pairwise_mergeSort (litLe_trans ord) (litLe_total ord) c).imp ?_
  intro a b h
  simp only [litLe, decide_eq_true_eq] at h
  omega

theorem mem_conjunctionDfs {ord : Fla T → Nat} (hinj : ∀ a b, ord a = ord b → a = b) {css : List (List (Cube T))}
    {acc c : Cube T} :
    c ∈ conjunctionDfs ord css acc ↔ ∃ pick : List (Cube T), List.Forall₂ (· ∈ ·) pick css ∧
      c = (acc ++ pick.flatten).mergeSort (litLe ord) ∧ ¬ ∃ a, (a, true) ∈ c ∧ (a, false) ∈ c := by
  induction css generalizing acc with
  | nil =>
    simp only [conjunctionDfs]
    have hd : (∃ pick : List (Cube T), List.Forall₂ (· ∈ ·) pick ([] : List (List (Cube T))) ∧
        c = (acc ++ pick.flatten).mergeSort (litLe ord) ∧ ¬ ∃ a, (a, true) ∈ c ∧ (a, false) ∈ c) ↔
        (c = acc.mergeSort (litLe ord) ∧ ¬ ∃ a, (a, true) ∈ c ∧ (a, false) ∈ c) := by
      constructor
      · rintro ⟨pick, hp, h1, h2⟩; cases hp; simp at h1; exact ⟨h1, h2⟩
      · rintro ⟨h1, h2⟩; exact ⟨[], .nil, by simpa using h1, h2⟩
    rw [hd]
    split
    · rename_i hc
      constructor
      · intro h; simp at h
      · rintro ⟨rfl, h2⟩; exact absurd (conflict_mem hc) h2
    · rename_i hc
      rw [List.mem_singleton]
      constructor
      · rintro rfl; exact ⟨rfl, fun ⟨a, h1, h2⟩ => hc (mem_conflict hinj (sorted_lits ord acc) h1 h2)⟩
      · exact fun h => h.1
  | cons cs rest ih =>
    simp only [conjunctionDfs, List.mem_flatMap]
    constructor
    · rintro ⟨c0, h0, h⟩
      obtain ⟨pick, hp, h1, h2⟩ := ih.1 h
      exact ⟨c0 :: pick, .cons h0 hp, by simpa using h1, h2⟩
    · rintro ⟨pick, hp, h1, h2⟩
      cases hp with
      | @cons c0 _ pick _ h0 hp => exact ⟨c0, h0, ih.2 ⟨pick, hp, by simpa using h1, h2⟩⟩

/-- C30. The combination step keeps exactly the combinations (one cube from each argument) that do not contain an atom
both positively and negatively: contradictory cubes, and only those, are dropped. -/
theorem C30_dropped_cubes_are_contradictory (ord : Fla T → Nat) (hinj : ∀ a b, ord a = ord b → a = b)
    (css : List (List (Cube T))) (c : Cube T) :
    c ∈ conjunctionAsCubes ord css ↔ ∃ pick : List (Cube T), List.Forall₂ (· ∈ ·) pick css ∧
      c = pick.flatten.mergeSort (litLe ord) ∧ ¬ ∃ a, (a, true) ∈ c ∧ (a, false) ∈ c := by
  simpa [conjunctionAsCubes] using mem_conjunctionDfs (acc := []) hinj

theorem cubesToFla_holds {ρ : Valuation T} {cs : List (Cube T)} :
    (cubesToFla cs).holds ρ ↔ ∃ c ∈ cs, ∀ l ∈ c, (Lit.fla l).holds ρ := by
  simp only [cubesToFla, Fla.holds_disj, List.mem_map]
  constructor
  · rintro ⟨_, ⟨c, hc, rfl⟩, h⟩
    refine ⟨c, hc, fun l hl => ?_⟩
    exact Fla.holds_conj.1 h _ (List.mem_map_of_mem hl)
  · rintro ⟨c, hc, h⟩
    refine ⟨_, ⟨c, hc, rfl⟩, Fla.holds_conj.2 ?_⟩
    intro f hf
    obtain ⟨l, hl, rfl⟩ := List.mem_map.1 hf
    exact h l hl

theorem dnfRun_spec {ord : Fla T → Nat} (hinj : ∀ a b, ord a = ord b → a = b) {f : Fla T} (h : IsNNF f) :
    ∃ cs, dnfRun ord f = some cs ∧ (∀ c ∈ cs, ∀ l ∈ c, l.1.isAtom = true) ∧
      ∀ ρ, (cubesToFla cs).holds ρ ↔ f.holds ρ := by
  induction h with
  | @lit f h =>
    cases h with
    | pos h =>
      refine ⟨[[(f, true)]], ?_, by simpa using h, fun ρ => by simp [cubesToFla_holds, Lit.fla]⟩
      cases f <;> simp [Fla.isAtom] at h <;> rfl
    | @neg f h =>
      exact ⟨[[(f, false)]], rfl, by simpa using h, fun ρ => by simp [cubesToFla_holds, Lit.fla]⟩
  | @or f g _ _ ihf ihg =>
    obtain ⟨cf, h1, h2, h3⟩ := ihf
    obtain ⟨cg, k1, k2, k3⟩ := ihg
    refine ⟨cf ++ cg, by simp [dnfRun, h1, k1, unite], ?_, ?_⟩
    · intro c hc
      rcases List.mem_append.1 hc with hc | hc
      · exact h2 c hc
      · exact k2 c hc
    · intro ρ
      rw [cubesToFla_holds]
      simp only [Fla.holds, ← h3, ← k3, cubesToFla_holds, List.mem_append]
      constructor
      · rintro ⟨c, hc | hc, h⟩
        · exact .inl ⟨c, hc, h⟩
        · exact .inr ⟨c, hc, h⟩
      · rintro (⟨c, hc, h⟩ | ⟨c, hc, h⟩)
        · exact ⟨c, .inl hc, h⟩
        · exact ⟨c, .inr hc, h⟩
  | @and f g _ _ ihf ihg =>
    obtain ⟨cf, h1, h2, h3⟩ := ihf
    obtain ⟨cg, k1, k2, k3⟩ := ihg
    refine ⟨conjunctionAsCubes ord [cf, cg], by simp [dnfRun, h1, k1], ?_, ?_⟩
    · intro c hc l hl
      obtain ⟨pick, hp, rfl, _⟩ := (C30_dropped_cubes_are_contradictory ord hinj _ _).1 hc
      rw [List.mem_mergeSort, List.mem_flatten] at hl
      obtain ⟨c', hc', hl⟩ := hl
      cases hp with
      | cons a hp => cases hp with
        | cons b hp => cases hp with
          | nil =>
            simp at hc'
            rcases hc' with rfl | rfl
            · exact h2 _ a l hl
            · exact k2 _ b l hl
    · intro ρ
      rw [cubesToFla_holds]
      simp only [Fla.holds, ← h3, ← k3, cubesToFla_holds]
      constructor
      · rintro ⟨c, hc, h⟩
        obtain ⟨pick, hp, rfl, _⟩ := (C30_dropped_cubes_are_contradictory ord hinj _ _).1 hc
        simp only [List.mem_mergeSort] at h
        cases hp with
        | cons a hp => cases hp with
          | cons b hp => cases hp with
            | nil =>
              simp only [List.flatten_cons, List.flatten_nil, List.append_nil, List.mem_append] at h
              exact ⟨⟨_, a, fun l hl => h _ (.inl hl)⟩, ⟨_, b, fun l hl => h _ (.inr hl)⟩⟩
      · rintro ⟨⟨c, hc, h⟩, ⟨c', hc', h'⟩⟩
        have hall : ∀ l ∈ (([c, c'] : List (Cube T)).flatten).mergeSort (litLe ord), (Lit.fla l).holds ρ := by
          intro l hl
          simp only [List.mem_mergeSort] at hl
          simp at hl
          rcases hl with hl | hl
          · exact h l hl
          · exact h' l hl
        refine ⟨_, (C30_dropped_cubes_are_contradictory ord hinj _ _).2
          ⟨[c, c'], .cons hc (.cons hc' .nil), rfl, ?_⟩, hall⟩
        rintro ⟨a, ha, hb⟩
        have h1 := hall _ ha
        have h2 := hall _ hb
        simp [Lit.fla, Fla.holds] at h1 h2
        exact h2 h1

/-- C30. `toDNF` always succeeds, the result is a disjunction of conjunctions of literals and equivalent to the input
(`ord`: numeric ids of hash-consed terms, one per term). -/
theorem C30_dnf (ord : Fla T → Nat) (hinj : ∀ a b, ord a = ord b → a = b) (f : Fla T) :
    ∃ g, toDNF ord f = some g ∧ IsDNF g ∧ g.Equiv f := by
  obtain ⟨n, h1, h2, h3⟩ := C29_nnf f
  obtain ⟨cs, k1, k2, k3⟩ := dnfRun_spec hinj h2
  refine ⟨cubesToFla cs, by simp [toDNF, h1, k1], ⟨cs.map (List.map Lit.fla), ?_, ?_⟩, fun ρ => (k3 ρ).trans (h3 ρ)⟩
  · intro c hc l hl
    obtain ⟨c, hc', rfl⟩ := List.mem_map.1 hc
    obtain ⟨l, hl', rfl⟩ := List.mem_map.1 hl
    have := k2 c hc' l hl'
    unfold Lit.fla
    split
    · exact .pos this
    · exact .neg this
  · simp [cubesToFla, List.map_map]; rfl

/-! ### Top-level juncts -/

theorem purify_holds (f : Fla T) (ρ : Valuation T) : (Lit.fla (purify f)).holds ρ ↔ f.holds ρ := by
  induction f with
  | not f ih =>
    simp only [purify]
    rw [Fla.holds, ← ih]
    obtain ⟨g, s⟩ := purify f
    cases s <;> simp [Lit.fla, Fla.holds]
  | _ => simp [purify, Lit.fla]

/-- Meaning of a list of formulas joined by `J`. -/
def Junction.holds (J : Junction) (ρ : Valuation T) (fs : List (Fla T)) : Prop :=
  match J with
  | .conj => ∀ f ∈ fs, f.holds ρ
  | .disj => ∃ f ∈ fs, f.holds ρ

theorem flip_holds (f : Fla T) (ρ : Valuation T) :
    (Lit.fla ((purify f).1, !(purify f).2)).holds ρ ↔ ¬ f.holds ρ := by
  rw [← purify_holds f ρ]
  cases h : (purify f).2 <;> simp [Lit.fla, h, Fla.holds]

theorem junctArgs_holds {J : Junction} {l : Lit T} {args : List (Lit T)} (h : junctArgs J l = some args)
    (ρ : Valuation T) : J.holds ρ (args.map Lit.fla) ↔ (Lit.fla l).holds ρ := by
  unfold junctArgs at h
  split at h <;> simp only [Option.some.injEq, reduceCtorEq] at h <;> subst h
  · simp only [Junction.holds, List.map_cons, List.map_nil, List.mem_cons, List.not_mem_nil, or_false, forall_eq_or_imp,
      forall_eq, purify_holds]
    simp [Lit.fla, Fla.holds]
  · simp only [Junction.holds, List.map_cons, List.map_nil, List.mem_cons, List.not_mem_nil, or_false, forall_eq_or_imp,
      forall_eq, flip_holds]
    simp [Lit.fla, Fla.holds]
  · simp only [Junction.holds, List.map_cons, List.map_nil, List.mem_cons, List.not_mem_nil, or_false, exists_eq_or_imp,
      exists_eq_left, purify_holds]
    simp [Lit.fla, Fla.holds]
  · simp only [Junction.holds, List.map_cons, List.map_nil, List.mem_cons, List.not_mem_nil, or_false, exists_eq_or_imp,
      exists_eq_left, flip_holds]
    simp only [Lit.fla, Fla.holds, Bool.false_eq_true, if_false]
    exact (Decidable.not_and_iff_not_or_not).symm

theorem Junction.holds_append (J : Junction) (ρ : Valuation T) (a b : List (Fla T)) :
    J.holds ρ (a ++ b) ↔ (match J with | .conj => J.holds ρ a ∧ J.holds ρ b | .disj => J.holds ρ a ∨ J.holds ρ b) := by
  cases J
  · simp only [Junction.holds, List.mem_append]
    exact ⟨fun h => ⟨fun f hf => h f (.inl hf), fun f hf => h f (.inr hf)⟩,
      fun h f hf => hf.elim (h.1 f) (h.2 f)⟩
  · simp only [Junction.holds, List.mem_append]
    constructor
    · rintro ⟨f, hf | hf, h⟩
      · exact .inl ⟨f, hf, h⟩
      · exact .inr ⟨f, hf, h⟩
    · rintro (⟨f, hf, h⟩ | ⟨f, hf, h⟩)
      · exact ⟨f, .inl hf, h⟩
      · exact ⟨f, .inr hf, h⟩

theorem Junction.holds_perm {J : Junction} {ρ : Valuation T} {a b : List (Fla T)} (h : ∀ f, f ∈ a ↔ f ∈ b) :
    J.holds ρ a ↔ J.holds ρ b := by
  cases J <;> simp [Junction.holds, h]

/-- Every expanded element is a result or has its arguments among the expanded and the waiting ones. -/
def JunctInv (J : Junction) (queue dup : List (Lit T)) (res : List (Fla T)) : Prop :=
  ∀ d ∈ dup, (junctArgs J d = none ∧ Lit.fla d ∈ res) ∨
    ∃ args, junctArgs J d = some args ∧ ∀ a ∈ args, a ∈ dup ∨ a ∈ queue

/-- `x` is entailed by (conjunction) or entails (disjunction) `root`. -/
def Below (J : Junction) (ρ : Valuation T) (root x : Fla T) : Prop :=
  match J with
  | .conj => root.holds ρ → x.holds ρ
  | .disj => x.holds ρ → root.holds ρ

theorem Below.args {J : Junction} {ρ : Valuation T} {root : Fla T} {l : Lit T} {args : List (Lit T)}
    (h : junctArgs J l = some args) (hb : Below J ρ root (Lit.fla l)) : ∀ a ∈ args, Below J ρ root (Lit.fla a) := by
  intro a ha
  have hh := junctArgs_holds h ρ
  cases J
  · intro hr; exact hh.2 (hb hr) _ (List.mem_map_of_mem ha)
  · intro hr; exact hb (hh.1 ⟨_, List.mem_map_of_mem ha, hr⟩)

theorem junctLoop_below {J : Junction} {ρ : Valuation T} {root : Fla T} (queue dup : List (Lit T)) (res : List (Fla T))
    (hq : ∀ l ∈ queue, Below J ρ root (Lit.fla l)) (hr : ∀ f ∈ res, Below J ρ root f) :
    ∀ f ∈ junctLoop J (fun _ => true) queue dup res, Below J ρ root f := by
  induction queue, dup, res using junctLoop.induct J (fun _ => true) with
  | case1 dup res => rw [junctLoop]; exact hr
  | case2 l q dup res hmem ih =>
    rw [junctLoop, if_pos hmem]; exact ih (fun l hl => hq l (by simp [hl])) hr
  | case3 l q dup res hmem args hargs ih =>
    rw [junctLoop, if_neg hmem]
    split
    · rename_i args' h
      rw [hargs] at h; cases h
      refine ih ?_ hr
      intro x hx
      rcases List.mem_append.1 hx with hx | hx
      · exact Below.args hargs (hq l (by simp)) x (List.mem_reverse.1 hx)
      · exact hq x (by simp [hx])
    · rename_i h; rw [hargs] at h; cases h
  | case4 l q dup res hmem hargs ih =>
    rw [junctLoop, if_neg hmem]
    split
    · rename_i h; rw [hargs] at h; cases h
    · refine ih (fun l hl => hq l (by simp [hl])) ?_
      intro f hf
      simp at hf
      rcases hf with hf | rfl
      · exact hr f hf
      · exact hq l (by simp)

/-- At the end every element ever queued is covered by the results. -/
theorem junctLoop_cover {J : Junction} (queue dup : List (Lit T)) (res : List (Fla T)) (hI : JunctInv J queue dup res)
    (r : Lit T) (hr : r ∈ dup ∨ r ∈ queue) :
    ∃ dup', JunctInv J [] dup' (junctLoop J (fun _ => true) queue dup res) ∧ r ∈ dup' := by
  induction queue, dup, res using junctLoop.induct J (fun _ => true) with
  | case1 dup res => rw [junctLoop]; exact ⟨dup, hI, by simpa using hr⟩
  | case2 l q dup res hmem ih =>
    rw [junctLoop, if_pos hmem]
    refine ih ?_ ?_
    · intro d hd
      rcases hI d hd with h | ⟨args, h1, h2⟩
      · exact .inl h
      · refine .inr ⟨args, h1, fun a ha => ?_⟩
        rcases h2 a ha with h | h
        · exact .inl h
        · rcases List.mem_cons.1 h with rfl | h
          · exact .inl hmem
          · exact .inr h
    · rcases hr with h | h
      · exact .inl h
      · rcases List.mem_cons.1 h with rfl | h
        · exact .inl hmem
        · exact .inr h
  | case3 l q dup res hmem args hargs ih =>
    rw [junctLoop, if_neg hmem]
    split
    · rename_i args' h
      rw [hargs] at h; cases h
      refine ih ?_ ?_
      · intro d hd
        rcases List.mem_cons.1 hd with rfl | hd
        · exact .inr ⟨args, hargs, fun a ha => .inr (by simp [ha])⟩
        · rcases hI d hd with h | ⟨args', h1, h2⟩
          · exact .inl h
          · refine .inr ⟨args', h1, fun a ha => ?_⟩
            rcases h2 a ha with h | h
            · exact .inl (by simp [h])
            · rcases List.mem_cons.1 h with rfl | h
              · exact .inl (by simp)
              · exact .inr (by simp [h])
      · rcases hr with h | h
        · exact .inl (by simp [h])
        · rcases List.mem_cons.1 h with rfl | h
          · exact .inl (by simp)
          · exact .inr (by simp [h])
    · rename_i h; rw [hargs] at h; cases h
  | case4 l q dup res hmem hargs ih =>
    rw [junctLoop, if_neg hmem]
    split
    · rename_i h; rw [hargs] at h; cases h
    · refine ih ?_ ?_
      · intro d hd
        rcases List.mem_cons.1 hd with rfl | hd
        · exact .inl ⟨hargs, by simp⟩
        · rcases hI d hd with h | ⟨args', h1, h2⟩
          · exact .inl ⟨h.1, by simp [h.2]⟩
          · refine .inr ⟨args', h1, fun a ha => ?_⟩
            rcases h2 a ha with h | h
            · exact .inl (by simp [h])
            · rcases List.mem_cons.1 h with rfl | h
              · exact .inl (by simp)
              · exact .inr h
      · rcases hr with h | h
        · exact .inl (by simp [h])
        · rcases List.mem_cons.1 h with rfl | h
          · exact .inl (by simp)
          · exact .inr h

theorem le_sum_of_mem {l : List Nat} {n : Nat} (h : n ∈ l) : n ≤ l.sum := by
  induction l with
  | nil => simp at h
  | cons a l ih =>
    rw [List.sum_cons]
    rcases List.mem_cons.1 h with rfl | h
    · omega
    · have := ih h; omega

theorem covered {J : Junction} {ρ : Valuation T} {dup : List (Lit T)} {res : List (Fla T)} (hI : JunctInv J [] dup res) :
    ∀ (n : Nat) (d : Lit T), d.1.size < n → d ∈ dup →
      (match J with
        | .conj => J.holds ρ res → (Lit.fla d).holds ρ
        | .disj => (Lit.fla d).holds ρ → J.holds ρ res) := by
  intro n
  induction n with
  | zero => intro d h; omega
  | succ n ih =>
    intro d hn hd
    rcases hI d hd with ⟨_, h⟩ | ⟨args, h1, h2⟩
    · cases J
      · exact fun hr => hr _ h
      · exact fun hr => ⟨_, h, hr⟩
    · have hs := junctArgs_size h1
      have hsz : ∀ a ∈ args, a.1.size < n := by
        intro a ha
        have : a.1.size ≤ queueSize args := by
          unfold queueSize
          exact le_sum_of_mem (List.mem_map_of_mem ha)
        omega
      have hh := junctArgs_holds h1 ρ
      have hin : ∀ a ∈ args, a ∈ dup := fun a ha => (h2 a ha).resolve_right (by simp)
      cases J
      · intro hr
        refine hh.1 ?_
        intro f hf
        obtain ⟨a, ha, rfl⟩ := List.mem_map.1 hf
        exact ih a (hsz a ha) (hin a ha) hr
      · intro hr
        obtain ⟨f, hf, hfh⟩ := hh.2 hr
        obtain ⟨a, ha, rfl⟩ := List.mem_map.1 hf
        exact ih a (hsz a ha) (hin a ha) hfh

theorem junctLoop_filter {J : Junction} (pred : Fla T → Bool) (queue dup : List (Lit T)) (res : List (Fla T)) :
    junctLoop J pred queue dup (res.filter pred) = (junctLoop J (fun _ => true) queue dup res).filter pred := by
  induction queue, dup, res using junctLoop.induct J (fun _ => true) with
  | case1 dup res => rw [junctLoop, junctLoop]
  | case2 l q dup res hmem ih => rw [junctLoop, if_pos hmem, ih]; conv_rhs => rw [junctLoop, if_pos hmem]
  | case3 l q dup res hmem args hargs ih =>
    rw [junctLoop, if_neg hmem]; conv_rhs => rw [junctLoop, if_neg hmem]
    split <;> rename_i h <;> rw [hargs] at h <;> cases h
    exact ih
  | case4 l q dup res hmem hargs ih =>
    rw [junctLoop, if_neg hmem]; conv_rhs => rw [junctLoop, if_neg hmem]
    split <;> rename_i h
    · rw [hargs] at h; cases h
    · simp only [dite_true, if_true] at ih ⊢
      rw [← ih]
      congr 1
      by_cases hp : pred (Lit.fla l) <;> simp [List.filter_append, hp]

/-- C31. The conjunction of the top-level conjuncts, or the disjunction of the top-level disjuncts, is equivalent to the
formula. -/
theorem C31_juncts_recompose (J : Junction) (root : Fla T) (ρ : Valuation T) :
    J.holds ρ (getTopLevelJuncts J root (fun _ => true)) ↔ root.holds ρ := by
  unfold getTopLevelJuncts
  have hb := junctLoop_below (J := J) (ρ := ρ) (root := root) [purify root] [] [] (by
    intro l hl; simp at hl; subst hl
    cases J
    · exact fun h => (purify_holds root ρ).2 h
    · exact fun h => (purify_holds root ρ).1 h) (by simp)
  obtain ⟨dup, hI, hd⟩ := junctLoop_cover (J := J) [purify root] [] [] (by intro d hd; simp at hd) (purify root) (by simp)
  have hc := covered (ρ := ρ) hI _ _ (Nat.lt_succ_self _) hd
  cases J
  · exact ⟨fun h => (purify_holds root ρ).1 (hc h), fun h f hf => hb f hf h⟩
  · exact ⟨fun ⟨f, hf, h⟩ => hb f hf h, fun h => hc ((purify_holds root ρ).2 h)⟩

/-- C31. With a filter, exactly the juncts satisfying it are returned. -/
theorem C31_juncts_filter (J : Junction) (root : Fla T) (pred : Fla T → Bool) :
    getTopLevelJuncts J root pred = (getTopLevelJuncts J root fun _ => true).filter pred := by
  unfold getTopLevelJuncts
  rw [← junctLoop_filter]; rfl

/-- C31. `conjoin(what, to)` is the conjunction of its arguments. -/
theorem C31_conjoin (what f : Fla T) (ρ : Valuation T) : (conjoin what f).holds ρ ↔ what.holds ρ ∧ f.holds ρ := by
  have := C31_juncts_recompose .conj f ρ
  simp only [Junction.holds] at this
  unfold conjoin
  rw [Fla.holds_conj]
  simp only [List.mem_append, List.mem_singleton]
  constructor
  · exact fun h => ⟨h _ (.inr rfl), this.1 fun f hf => h f (.inl hf)⟩
  · rintro ⟨h1, h2⟩ f (hf | rfl)
    · exact this.2 h2 f hf
    · exact h1

/-- C31. No returned conjunct is itself a conjunction or a negated disjunction (juncts are top-level atoms of the
junction). -/
theorem C31_juncts_irreducible (J : Junction) (root : Fla T) :
    ∀ f ∈ getTopLevelJuncts J root (fun _ => true), ∃ l : Lit T, f = Lit.fla l ∧ junctArgs J l = none := by
  unfold getTopLevelJuncts
  suffices h : ∀ (queue dup : List (Lit T)) (res : List (Fla T)),
      (∀ f ∈ res, ∃ l : Lit T, f = Lit.fla l ∧ junctArgs J l = none) →
      ∀ f ∈ junctLoop J (fun _ => true) queue dup res, ∃ l : Lit T, f = Lit.fla l ∧ junctArgs J l = none from
    h _ _ _ (by simp)
  intro queue dup res hr
  induction queue, dup, res using junctLoop.induct J (fun _ => true) with
  | case1 dup res => rw [junctLoop]; exact hr
  | case2 l q dup res hmem ih => rw [junctLoop, if_pos hmem]; exact ih hr
  | case3 l q dup res hmem args hargs ih =>
    rw [junctLoop, if_neg hmem]
    split <;> rename_i h <;> rw [hargs] at h <;> cases h
    exact ih hr
  | case4 l q dup res hmem hargs ih =>
    rw [junctLoop, if_neg hmem]
    split <;> rename_i h
    · rw [hargs] at h; cases h
    · refine ih ?_
      intro f hf
      simp at hf
      rcases hf with hf | rfl
      · exact hr f hf
      · exact ⟨l, rfl, hargs⟩

/-! ### Concrete instances -/

namespace NormalFormEx
def v (s : String) : Fla propTheory := .atom (.var (.base (.user s)))

/-- A Boolean equality under a negation: the NNF has no `iff` and negation at atoms only. -/
example : toNNF (.not (.iff (v "a") (.not (v "b")))) =
    some (.or (.and (v "a") (v "b")) (.and (.not (v "b")) (.not (v "a")))) := by decide +kernel

/-- Duplicates and nested negations are handled. -/
example : getTopLevelJuncts .conj (.and (.not (.or (v "a") (.not (v "b")))) (.and (v "b") (v "c"))) (fun _ => true) =
    [v "c", v "b", .not (v "a")] := by decide +kernel
end NormalFormEx

end Golem
