import Verif.Spec.HornTerm
import Verif.Props.FrontParse

/-! C70: an asserted term is taken as a Horn clause with the same meaning, or rejected. -/

namespace Golem
namespace Front
variable {T : Theory} {I : Interp T} {ρ : String → Srt → T.Val}

theorem truth_ofB (b : Bool) : T.truth (ofB b : T.Val) = b := by cases b <;> simp [ofB, T.truth_vT, T.truth_vF]

theorem holds_not {t : PT T} : (PT.not t).Holds I ρ ↔ ¬ t.Holds I ρ := by simp [PT.Holds, PT.eval, truth_ofB]

theorem holds_tt : (PT.tt : PT T).Holds I ρ := by simp [PT.Holds, PT.eval, T.truth_vT]

theorem not_holds_ff : ¬ (PT.ff : PT T).Holds I ρ := by simp [PT.Holds, PT.eval, T.truth_vF]

theorem holds_or {ts : List (PT T)} : (PT.or ts).Holds I ρ ↔ ∃ t ∈ ts, t.Holds I ρ := by
  simp [PT.Holds, PT.eval, truth_ofB, evals_map]

theorem holds_and {ts : List (PT T)} : (PT.and ts).Holds I ρ ↔ ∀ t ∈ ts, t.Holds I ρ := by
  simp [PT.Holds, PT.eval, truth_ofB, evals_map]

theorem holds_mkNot {t : PT T} : (mkNot t).Holds I ρ ↔ ¬ t.Holds I ρ := by
  unfold mkNot
  split
  · simp [holds_not]
  · simp [not_holds_ff, holds_tt]
  · simp [not_holds_ff, holds_tt]
  · exact holds_not

theorem exists_map {α β : Type} {f : α → β} {l : List α} {P : β → Prop} : (∃ b ∈ l.map f, P b) ↔ ∃ a ∈ l, P (f a) :=
  ⟨fun ⟨b, hb, h⟩ => by obtain ⟨a, ha, rfl⟩ := List.mem_map.1 hb; exact ⟨a, ha, h⟩,
    fun ⟨a, ha, h⟩ => ⟨f a, List.mem_map.2 ⟨a, ha, rfl⟩, h⟩⟩

/-- A signed term holds. -/
def SLit.Holds (I : Interp T) (ρ : String → Srt → T.Val) (l : SLit T) : Prop := if l.2 then l.1.Holds I ρ else ¬ l.1.Holds I ρ

theorem SLit.holds_term {l : SLit T} : l.term.Holds I ρ ↔ SLit.Holds I ρ l := by
  unfold SLit.term SLit.Holds
  split
  · rfl
  · exact holds_mkNot

theorem SLit.holds_flip {l : SLit T} : SLit.Holds I ρ (l.1, !l.2) ↔ ¬ SLit.Holds I ρ l := by
  obtain ⟨t, s⟩ := l
  cases s <;> simp [SLit.Holds]

theorem holds_ppurify : ∀ t : PT T, SLit.Holds I ρ (ppurify t) ↔ t.Holds I ρ
  | .not t => by rw [ppurify, SLit.holds_flip, holds_ppurify t, holds_not]
  | .var _ _ | .const _ | .ap1 _ _ | .ap2 _ _ _ | .ap3 _ _ _ _ | .pred _ _ | .tt | .ff | .eq _ _ | .and _ | .or _ => by
    simp [ppurify, SLit.Holds]

theorem disjArgs_holds {l : SLit T} {args : List (SLit T)} (h : disjArgs l = some args) :
    SLit.Holds I ρ l ↔ ∃ a ∈ args, SLit.Holds I ρ a := by
  unfold disjArgs at h
  split at h <;> simp only [Option.some.injEq, reduceCtorEq] at h <;> subst h
  · rename_i ts
    rw [exists_map]
    simp only [holds_ppurify]
    simp [SLit.Holds, holds_or]
  · rename_i ts
    rw [exists_map]
    simp only [SLit.holds_flip, holds_ppurify]
    simp [SLit.Holds, holds_and]

mutual
theorem beq_eq : ∀ {a b : PT T}, a.beq b = true → a = b
  | .var _ _, b, h => by cases b <;> simp_all [PT.beq]
  | .const _, b, h => by cases b <;> simp_all [PT.beq]
  | .ap1 _ a, b, h => by
    cases b <;> simp only [PT.beq, Bool.and_eq_true, decide_eq_true_eq, Bool.false_eq_true] at h
    rw [h.1, beq_eq h.2]
  | .ap2 _ a c, b, h => by
    cases b <;> simp only [PT.beq, Bool.and_eq_true, decide_eq_true_eq, Bool.false_eq_true] at h
    rw [h.1.1, beq_eq h.1.2, beq_eq h.2]
  | .ap3 _ a c d, b, h => by
    cases b <;> simp only [PT.beq, Bool.and_eq_true, decide_eq_true_eq, Bool.false_eq_true] at h
    rw [h.1.1.1, beq_eq h.1.1.2, beq_eq h.1.2, beq_eq h.2]
  | .pred _ as, b, h => by
    cases b <;> simp only [PT.beq, Bool.and_eq_true, beq_iff_eq, Bool.false_eq_true] at h
    rw [h.1, beqL_eq h.2]
  | .tt, b, h => by cases b <;> simp_all [PT.beq]
  | .ff, b, h => by cases b <;> simp_all [PT.beq]
  | .eq a c, b, h => by
    cases b <;> simp only [PT.beq, Bool.and_eq_true, Bool.false_eq_true] at h
    rw [beq_eq h.1, beq_eq h.2]
  | .not a, b, h => by
    cases b <;> simp only [PT.beq, Bool.false_eq_true] at h
    rw [beq_eq h]
  | .and as, b, h => by
    cases b <;> simp only [PT.beq, Bool.false_eq_true] at h
    rw [beqL_eq h]
  | .or as, b, h => by
    cases b <;> simp only [PT.beq, Bool.false_eq_true] at h
    rw [beqL_eq h]

theorem beqL_eq : ∀ {as bs : List (PT T)}, PT.beqL as bs = true → as = bs
  | [], bs, h => by cases bs <;> simp_all [PT.beqL]
  | a :: as, bs, h => by
    cases bs <;> simp only [PT.beqL, Bool.and_eq_true, Bool.false_eq_true] at h
    rw [beq_eq h.1, beqL_eq h.2]
end

mutual
theorem beq_refl : ∀ a : PT T, a.beq a = true
  | .var _ _ | .const _ | .tt | .ff => by simp [PT.beq]
  | .ap1 _ a => by simp [PT.beq, beq_refl a]
  | .ap2 _ a b => by simp [PT.beq, beq_refl a, beq_refl b]
  | .ap3 _ a b c => by simp [PT.beq, beq_refl a, beq_refl b, beq_refl c]
  | .pred _ as => by simp [PT.beq, beqL_refl as]
  | .eq a b => by simp [PT.beq, beq_refl a, beq_refl b]
  | .not a => by simp [PT.beq, beq_refl a]
  | .and as => by simp [PT.beq, beqL_refl as]
  | .or as => by simp [PT.beq, beqL_refl as]

theorem beqL_refl : ∀ as : List (PT T), PT.beqL as as = true
  | [] => rfl
  | a :: as => by simp [PT.beqL, beq_refl a, beqL_refl as]
end

theorem dup_iff {dup : List (SLit T)} {l : SLit T} :
    dup.any (fun d => d.1.beq l.1 && d.2 == l.2) = true ↔ l ∈ dup := by
  rw [List.any_eq_true]
  constructor
  · rintro ⟨d, hd, h⟩
    rw [Bool.and_eq_true, beq_iff_eq] at h
    have : d = l := Prod.ext (beq_eq h.1) h.2
    exact this ▸ hd
  · intro h
    exact ⟨l, h, by rw [beq_refl]; simp⟩

/-! ### The disjuncts -/

/-- The term is no negation. -/
def NoNot (t : PT T) : Prop := ∀ u, t ≠ .not u

theorem ppurify_noNot : ∀ t : PT T, NoNot (ppurify t).1
  | .not t => ppurify_noNot t
  | .var _ _ | .const _ | .ap1 _ _ | .ap2 _ _ _ | .ap3 _ _ _ _ | .pred _ _ | .tt | .ff | .eq _ _ | .and _ | .or _ => by
    intro u h; cases h

theorem disjunct_not {s s' : Bool} {t d : PT T} : Disjunct s (.not t) s' d ↔ Disjunct (!s) t s' d := by
  constructor
  · intro h
    cases h with
    | not h => exact h
    | atom h1 _ _ => exact absurd rfl (h1 t)
  · exact .not

theorem disjunct_ppurify : ∀ (t : PT T) (s s' : Bool) (d : PT T),
    Disjunct (s == (ppurify t).2) (ppurify t).1 s' d ↔ Disjunct s t s' d
  | .not t, s, s', d => by
    rw [disjunct_not, ← disjunct_ppurify t (!s) s' d, ppurify]
    cases s <;> cases (ppurify t).2 <;> exact Iff.rfl
  | .var _ _, s, _, _ | .const _, s, _, _ | .ap1 _ _, s, _, _ | .ap2 _ _ _, s, _, _ | .ap3 _ _ _ _, s, _, _
  | .pred _ _, s, _, _ | .tt, s, _, _ | .ff, s, _, _ | .eq _ _, s, _, _ | .and _, s, _, _ | .or _, s, _, _ => by
    simp only [ppurify, beq_true]

theorem disjunct_true (t : PT T) {s' : Bool} {d : PT T} :
    Disjunct (ppurify t).2 (ppurify t).1 s' d ↔ Disjunct true t s' d := by
  have := disjunct_ppurify t true s' d
  simpa using this

theorem disjunct_false (t : PT T) {s' : Bool} {d : PT T} :
    Disjunct (!(ppurify t).2) (ppurify t).1 s' d ↔ Disjunct false t s' d := by
  have := disjunct_ppurify t false s' d
  simpa using this

theorem disjArgs_disjunct {l : SLit T} {args : List (SLit T)} (h : disjArgs l = some args) {s' : Bool} {d : PT T} :
    Disjunct l.2 l.1 s' d ↔ ∃ a ∈ args, Disjunct a.2 a.1 s' d := by
  unfold disjArgs at h
  split at h <;> simp only [Option.some.injEq, reduceCtorEq] at h <;> subst h
  · rename_i ts
    rw [exists_map]
    simp only [disjunct_true]
    constructor
    · intro h
      cases h with
      | or ht h => exact ⟨_, ht, h⟩
      | atom _ h2 _ => exact absurd rfl (h2 ts rfl)
    · rintro ⟨t, ht, h⟩; exact .or ht h
  · rename_i ts
    rw [exists_map]
    simp only [disjunct_false]
    constructor
    · intro h
      cases h with
      | and ht h => exact ⟨_, ht, h⟩
      | atom _ _ h3 => exact absurd rfl (h3 ts rfl)
    · rintro ⟨t, ht, h⟩; exact .and ht h

theorem disjArgs_noNot {l : SLit T} {args : List (SLit T)} (h : disjArgs l = some args) : ∀ a ∈ args, NoNot a.1 := by
  unfold disjArgs at h
  split at h <;> simp only [Option.some.injEq, reduceCtorEq] at h <;> subst h <;> intro a ha <;>
    obtain ⟨t, -, rfl⟩ := List.mem_map.1 ha <;> exact ppurify_noNot t

theorem disjArgs_none {l : SLit T} (hn : NoNot l.1) (h : disjArgs l = none) {s' : Bool} {d : PT T} :
    Disjunct l.2 l.1 s' d ↔ (d, s') = l := by
  obtain ⟨t, s⟩ := l
  have ho : ∀ us, s = true → t ≠ .or us := by rintro us rfl rfl; simp [disjArgs] at h
  have ha : ∀ us, s = false → t ≠ .and us := by rintro us rfl rfl; simp [disjArgs] at h
  constructor
  · intro hd
    cases hd with
    | not => exact absurd rfl (hn _)
    | or => exact absurd rfl (ho _ rfl)
    | and => exact absurd rfl (ha _ rfl)
    | atom => rfl
  · intro e; cases e; exact .atom hn ho ha

/-- A disjunct is itself a disjunct. -/
theorem Disjunct.leaf {s s' : Bool} {t d : PT T} (h : Disjunct s t s' d) : NoNot d ∧ disjArgs (d, s') = none := by
  induction h with
  | not _ ih => exact ih
  | or _ _ ih => exact ih
  | and _ _ ih => exact ih
  | @atom s t h1 h2 h3 =>
    refine ⟨h1, ?_⟩
    unfold disjArgs
    split
    · rename_i e; cases e; exact absurd rfl (h2 _ rfl)
    · rename_i e; cases e; exact absurd rfl (h3 _ rfl)
    · rfl

/-- What the loop keeps: a processed element is a collected disjunct, or its parts are processed or waiting; the collected
terms are disjuncts of the processed elements; the collected predicates are pairwise different. -/
structure DisjInv (root : PT T) (queue dup : List (SLit T)) (res : List (PT T)) : Prop where
  cover : ∀ l ∈ dup, (disjArgs l = none ∧ l.term ∈ res) ∨ ∃ args, disjArgs l = some args ∧ ∀ a ∈ args, a ∈ dup ∨ a ∈ queue
  noNot : ∀ l, l ∈ dup ∨ l ∈ queue → NoNot l.1
  below : ∀ l ∈ queue, ∀ s' d, Disjunct l.2 l.1 s' d → Disjunct true root s' d
  found : ∀ r ∈ res, ∃ s' d, Disjunct true root s' d ∧ r = SLit.term (d, s') ∧ (d, s') ∈ dup
  once : (res.filter isPositive).Pairwise (fun a b => ∀ p as, a = .pred p as → a ≠ b)

theorem term_pred {l : SLit T} (hn : NoNot l.1) {p : Nat} {as : List (PT T)} (h : l.term = .pred p as) : l = (.pred p as, true) := by
  obtain ⟨t, s⟩ := l
  cases s with
  | true => simp only [SLit.term, if_true] at h; rw [h]
  | false =>
    simp only [SLit.term, Bool.false_eq_true, if_false] at h
    unfold mkNot at h
    split at h <;> try cases h
    exact absurd rfl (hn _)

theorem disjLoop_inv {root : PT T} (queue dup : List (SLit T)) (res : List (PT T)) (h : DisjInv root queue dup res)
    (l0 : SLit T) (h0 : l0 ∈ dup ∨ l0 ∈ queue) :
    ∃ dup', DisjInv root [] dup' (disjLoop queue dup res) ∧ l0 ∈ dup' := by
  induction queue, dup, res using disjLoop.induct with
  | case1 dup res => rw [disjLoop]; exact ⟨dup, h, by simpa using h0⟩
  | case2 l q dup res hm ih =>
    rw [disjLoop, if_pos hm]
    have hl := dup_iff.1 hm
    have hmv : ∀ a : SLit T, a ∈ dup ∨ a ∈ l :: q → a ∈ dup ∨ a ∈ q := by
      intro a ha
      rcases ha with ha | ha
      · exact .inl ha
      · rcases List.mem_cons.1 ha with rfl | ha
        · exact .inl hl
        · exact .inr ha
    refine ih ⟨fun l' hl' => ?_, fun l' hl' => h.noNot l' (hl'.imp_right (List.mem_cons_of_mem _)),
      fun l' hl' => h.below l' (List.mem_cons_of_mem _ hl'), h.found, h.once⟩ (hmv _ h0)
    rcases h.cover l' hl' with hc | ⟨args, h1, h2⟩
    · exact .inl hc
    · exact .inr ⟨args, h1, fun a ha => hmv a (h2 a ha)⟩
  | case3 l q dup res hm args hargs ih =>
    rw [disjLoop, if_neg hm]
    split
    · rename_i args' he
      rw [hargs] at he; cases he
      have hmv : ∀ a : SLit T, a ∈ dup ∨ a ∈ l :: q → a ∈ l :: dup ∨ a ∈ args.reverse ++ q := by
        intro a ha
        rcases ha with ha | ha
        · exact .inl (List.mem_cons_of_mem _ ha)
        · rcases List.mem_cons.1 ha with rfl | ha
          · exact .inl List.mem_cons_self
          · exact .inr (List.mem_append_right _ ha)
      refine ih ⟨fun l' hl' => ?_, fun l' hl' => ?_, fun l' hl' s' d hd => ?_, fun r hr => ?_, h.once⟩ (hmv _ h0)
      · rcases List.mem_cons.1 hl' with rfl | hl'
        · exact .inr ⟨args, hargs, fun a ha => .inr (List.mem_append_left _ (List.mem_reverse.2 ha))⟩
        · rcases h.cover l' hl' with hc | ⟨args, h1, h2⟩
          · exact .inl hc
          · exact .inr ⟨args, h1, fun a ha => hmv a (h2 a ha)⟩
      · rcases hl' with hl' | hl'
        · rcases List.mem_cons.1 hl' with rfl | hl'
          · exact h.noNot _ (.inr List.mem_cons_self)
          · exact h.noNot _ (.inl hl')
        · rcases List.mem_append.1 hl' with hl' | hl'
          · exact disjArgs_noNot hargs _ (List.mem_reverse.1 hl')
          · exact h.noNot _ (.inr (List.mem_cons_of_mem _ hl'))
      · rcases List.mem_append.1 hl' with hl' | hl'
        · exact h.below l List.mem_cons_self s' d ((disjArgs_disjunct hargs).2 ⟨l', List.mem_reverse.1 hl', hd⟩)
        · exact h.below l' (List.mem_cons_of_mem _ hl') s' d hd
      · obtain ⟨s', d, h1, h2, h3⟩ := h.found r hr
        exact ⟨s', d, h1, h2, List.mem_cons_of_mem _ h3⟩
    · rename_i he; rw [hargs] at he; cases he
  | case4 l q dup res hm hargs ih =>
    rw [disjLoop, if_neg hm]
    split
    · rename_i he; rw [hargs] at he; cases he
    · have hln : NoNot l.1 := h.noNot _ (.inr List.mem_cons_self)
      have hmv : ∀ a : SLit T, a ∈ dup ∨ a ∈ l :: q → a ∈ l :: dup ∨ a ∈ q := by
        intro a ha
        rcases ha with ha | ha
        · exact .inl (List.mem_cons_of_mem _ ha)
        · rcases List.mem_cons.1 ha with rfl | ha
          · exact .inl List.mem_cons_self
          · exact .inr ha
      refine ih ⟨fun l' hl' => ?_, fun l' hl' => ?_, fun l' hl' => h.below l' (List.mem_cons_of_mem _ hl'), fun r hr => ?_, ?_⟩
        (hmv _ h0)
      · rcases List.mem_cons.1 hl' with rfl | hl'
        · exact .inl ⟨hargs, by simp⟩
        · rcases h.cover l' hl' with ⟨hc, hc'⟩ | ⟨args, h1, h2⟩
          · exact .inl ⟨hc, by simp [hc']⟩
          · exact .inr ⟨args, h1, fun a ha => hmv a (h2 a ha)⟩
      · rcases hl' with hl' | hl'
        · rcases List.mem_cons.1 hl' with rfl | hl'
          · exact hln
          · exact h.noNot _ (.inl hl')
        · exact h.noNot _ (.inr (List.mem_cons_of_mem _ hl'))
      · rcases List.mem_append.1 hr with hr | hr
        · obtain ⟨s', d, h1, h2, h3⟩ := h.found r hr
          exact ⟨s', d, h1, h2, List.mem_cons_of_mem _ h3⟩
        · rw [List.mem_singleton] at hr
          subst hr
          have := (disjArgs_none hln hargs (s' := l.2) (d := l.1)).2 rfl
          exact ⟨l.2, l.1, h.below l List.mem_cons_self _ _ this, rfl, List.mem_cons_self⟩
      · rw [List.filter_append, List.pairwise_append]
        refine ⟨h.once, ?_, fun a ha b hb p as hp e => ?_⟩
        · by_cases hb : isPositive l.term = true <;> simp [hb]
        · have hb1 := (List.mem_filter.1 hb).1
          rw [List.mem_singleton] at hb1
          obtain ⟨s', d, h1, h2, h3⟩ := h.found a (List.mem_filter.1 ha).1
          have e1 : (d, s') = (.pred p as, true) := term_pred h1.leaf.1 (h2 ▸ hp)
          have e2 : l = (.pred p as, true) := term_pred hln (hb1 ▸ e ▸ hp)
          rw [e1, ← e2] at h3
          exact hm (dup_iff.2 h3)

/-- The disjuncts found are the disjuncts of the term, and no predicate is found twice. -/
theorem topDisjuncts_spec (t : PT T) :
    (∀ s d, Disjunct true t s d → SLit.term (d, s) ∈ topDisjuncts t) ∧
    (∀ r ∈ topDisjuncts t, ∃ s d, Disjunct true t s d ∧ r = SLit.term (d, s)) ∧
    ((topDisjuncts t).filter isPositive).Pairwise (fun a b => ∀ p as, a = .pred p as → a ≠ b) := by
  have h0 : DisjInv t [ppurify t] [] [] := by
    refine ⟨by simp, fun l hl => ?_, fun l hl s' d hd => ?_, by simp, by simp⟩
    · simp only [List.not_mem_nil, List.mem_singleton, false_or] at hl
      subst hl; exact ppurify_noNot t
    · rw [List.mem_singleton] at hl
      subst hl
      exact (disjunct_true t).1 hd
  obtain ⟨dup, h, hm⟩ := disjLoop_inv _ _ _ h0 (ppurify t) (.inr (List.mem_singleton.2 rfl))
  refine ⟨fun s d hd => ?_, fun r hr => ?_, h.once⟩
  · have key : ∀ n : Nat, ∀ l : SLit T, l.1.size ≤ n → l ∈ dup → Disjunct l.2 l.1 s d → SLit.term (d, s) ∈ topDisjuncts t := by
      intro n
      induction n with
      | zero => intro l hl; have := PT.size_pos l.1; omega
      | succ n ih =>
        intro l hl hld hdj
        rcases h.cover l hld with ⟨h1, h2⟩ | ⟨args, h1, h2⟩
        · rw [(disjArgs_none (h.noNot l (.inl hld)) h1).1 hdj]; exact h2
        · obtain ⟨a, ha, hda⟩ := (disjArgs_disjunct h1).1 hdj
          refine ih a ?_ ((h2 a ha).elim id (by simp)) hda
          have hs := disjArgs_size h1
          have : a.1.size ≤ slitsSize args := by
            clear hs h1 h2 hda
            induction args with
            | nil => simp at ha
            | cons b bs ihb =>
              simp only [slitsSize, List.map_cons, List.sum_cons] at ihb ⊢
              rcases List.mem_cons.1 ha with rfl | ha
              · omega
              · have := ihb ha; omega
          omega
    exact key _ (ppurify t) (Nat.le_refl _) hm ((disjunct_true t).2 hd)
  · obtain ⟨s, d, h1, h2, -⟩ := h.found r hr
    exact ⟨s, d, h1, h2⟩

/-- A signed term holds exactly if one of its disjuncts does. -/
theorem disjunct_holds : ∀ (n : Nat) (l : SLit T), l.1.size ≤ n →
    (SLit.Holds I ρ l ↔ ∃ s d, Disjunct l.2 l.1 s d ∧ SLit.Holds I ρ (d, s))
  | 0, l, h => by have := PT.size_pos l.1; omega
  | n + 1, l, h => by
    by_cases hn : ∃ u, l.1 = .not u
    · obtain ⟨u, hu⟩ := hn
      obtain ⟨t, s⟩ := l
      simp only at hu h
      subst hu
      simp only [PT.size] at h
      have := disjunct_holds n (u, !s) (by simp only; omega)
      simp only [disjunct_not]
      rw [← this]
      cases s <;> simp [SLit.Holds, holds_not]
    · have hnn : NoNot l.1 := fun u hu => hn ⟨u, hu⟩
      cases ha : disjArgs l with
      | none =>
        simp only [disjArgs_none hnn ha]
        exact ⟨fun h => ⟨l.2, l.1, rfl, h⟩, fun ⟨s, d, e, h⟩ => e ▸ h⟩
      | some args =>
        rw [disjArgs_holds ha]
        simp only [disjArgs_disjunct ha]
        have hs := disjArgs_size ha
        have hle : ∀ a ∈ args, a.1.size ≤ n := by
          intro a ha'
          have : a.1.size ≤ slitsSize args := by
            clear hs ha
            induction args with
            | nil => simp at ha'
            | cons b bs ihb =>
              simp only [slitsSize, List.map_cons, List.sum_cons] at ihb ⊢
              rcases List.mem_cons.1 ha' with rfl | ha'
              · omega
              · have := ihb ha'; omega
          omega
        constructor
        · rintro ⟨a, ha', h'⟩
          obtain ⟨s, d, h1, h2⟩ := (disjunct_holds n a (hle a ha')).1 h'
          exact ⟨s, d, ⟨a, ha', h1⟩, h2⟩
        · rintro ⟨s, d, ⟨a, ha', h1⟩, h2⟩
          exact ⟨a, ha', (disjunct_holds n a (hle a ha')).2 ⟨s, d, h1, h2⟩⟩

theorem topDisjuncts_holds (t : PT T) : t.Holds I ρ ↔ ∃ d ∈ topDisjuncts t, d.Holds I ρ := by
  have h := disjunct_holds (I := I) (ρ := ρ) _ (t, true) (Nat.le_refl _)
  simp only [SLit.Holds, if_true] at h
  rw [h]
  obtain ⟨h1, h2, -⟩ := topDisjuncts_spec t
  constructor
  · rintro ⟨s, d, hd, hh⟩; exact ⟨_, h1 s d hd, SLit.holds_term.2 hh⟩
  · rintro ⟨r, hr, hh⟩
    obtain ⟨s, d, hd, rfl⟩ := h2 r hr
    exact ⟨s, d, hd, SLit.holds_term.1 hh⟩

/-! ### The clause -/

theorem isPred_iff {known : List Nat} {t : PT T} : isPred known t = true ↔ t.Declared known := by
  cases t <;> simp [isPred, PT.Declared]

theorem isPredLit_iff {known : List Nat} {t : PT T} :
    isPredLit known t = true ↔ t.Declared known ∨ ∃ u, t = .not u ∧ u.Declared known := by
  cases t with
  | not u => simp [isPredLit, isPred_iff]; exact ⟨fun h => h.elim .inr (fun h => .inl h), fun h => h.elim .inr .inl⟩
  | _ => simp [isPredLit, isPred_iff]

theorem Declared.notNot {known : List Nat} {u : PT T} (h : PT.Declared known (.not u)) : False := by
  obtain ⟨_, _, h, _⟩ := h; cases h

mutual
theorem mentions_iff (known : List Nat) : ∀ t : PT T, t.mentions known = true ↔ ∃ q ∈ t.preds, q.1 ∈ known
  | .pred p args => by simp [PT.mentions, PT.preds, mentionsL_iff known args]
  | .var _ _ | .const _ | .tt | .ff => by simp [PT.mentions, PT.preds]
  | .ap1 _ a | .not a => by simp [PT.mentions, PT.preds, mentions_iff known a]
  | .ap2 _ a b | .eq a b => by
    simp only [PT.mentions, PT.preds, Bool.or_eq_true, mentions_iff known a, mentions_iff known b, List.mem_append,
      or_and_right, exists_or]
  | .ap3 _ a b c => by
    simp only [PT.mentions, PT.preds, Bool.or_eq_true, mentions_iff known a, mentions_iff known b, mentions_iff known c,
      List.mem_append, or_and_right, exists_or]
  | .and ts | .or ts => by simp [PT.mentions, PT.preds, mentionsL_iff known ts]

theorem mentionsL_iff (known : List Nat) : ∀ ts : List (PT T), PT.mentionsL known ts = true ↔ ∃ q ∈ PT.predsL ts, q.1 ∈ known
  | [] => by simp [PT.mentionsL, PT.predsL]
  | t :: ts => by
    simp only [PT.mentionsL, PT.predsL, Bool.or_eq_true, mentions_iff known t, mentionsL_iff known ts, List.mem_append,
      or_and_right, exists_or]
end

variable {L : Logic T} {M : Sem T} {known : List Nat}

theorem mem_lits {ds : List (PT T)} {d : PT T} :
    d ∈ (ds.filter (isPredLit known)).filter isPositive ↔ d ∈ ds ∧ d.Declared known := by
  simp only [List.mem_filter, isPredLit_iff]
  constructor
  · rintro ⟨⟨h1, h2⟩, h3⟩
    rcases h2 with h2 | ⟨u, rfl, -⟩
    · exact ⟨h1, h2⟩
    · simp [isPositive] at h3
  · rintro ⟨h1, h2⟩
    refine ⟨⟨h1, .inl h2⟩, ?_⟩
    obtain ⟨p, as, rfl, -⟩ := h2
    rfl

theorem mem_neg {ds : List (PT T)} {b : PT T} :
    b ∈ ((ds.filter (isPredLit known)).filter fun d => !isPositive d).map mkNot ↔ .not b ∈ ds ∧ b.Declared known := by
  simp only [List.mem_map, List.mem_filter, isPredLit_iff]
  constructor
  · rintro ⟨d, ⟨⟨h1, h2⟩, h3⟩, rfl⟩
    rcases h2 with h2 | ⟨u, rfl, h2⟩
    · obtain ⟨p, as, rfl, -⟩ := h2
      simp [isPositive] at h3
    · exact ⟨h1, h2⟩
  · rintro ⟨h1, h2⟩
    exact ⟨.not b, ⟨⟨h1, .inr ⟨b, rfl, h2⟩⟩, rfl⟩, rfl⟩

theorem clauseOfDisjuncts_holds (hL : L.Ok M) {ds : List (PT T)} {c : PClause T}
    (h : clauseOfDisjuncts L known ds = some c) : (∃ d ∈ ds, d.Holds I ρ) ↔ c.Holds I ρ := by
  unfold clauseOfDisjuncts at h
  simp only at h
  split at h
  · cases h
  · rename_i hlen
    split at h
    · cases h
    · injection h with h
      subst h
      have hhead : (((ds.filter (isPredLit known)).filter isPositive).headD .ff).Holds I ρ ↔
          ∃ d ∈ ds, d.Declared known ∧ d.Holds I ρ := by
        have hm := fun d => mem_lits (known := known) (ds := ds) (d := d)
        generalize (ds.filter (isPredLit known)).filter isPositive = l at hm hlen
        match l, hlen with
        | [], _ =>
          simp only [List.headD_nil, not_holds_ff, false_iff]
          rintro ⟨d, h1, h2, -⟩
          exact absurd ((hm d).2 ⟨h1, h2⟩) (by simp)
        | [d], _ =>
          simp only [List.headD_cons]
          constructor
          · intro hd; obtain ⟨h1, h2⟩ := (hm d).1 (by simp); exact ⟨d, h1, h2, hd⟩
          · rintro ⟨d', h1, h2, h3⟩
            have := (hm d').2 ⟨h1, h2⟩
            rw [List.mem_singleton] at this
            exact this ▸ h3
        | _ :: _ :: _, hlen => simp at hlen
      simp only [PClause.Holds, hhead, hL.mkAnd]
      constructor
      · rintro ⟨d, hd, hh⟩ hb hc
        by_cases h1 : d.Declared known
        · exact ⟨d, hd, h1, hh⟩
        · by_cases h2 : ∃ u, d = .not u ∧ u.Declared known
          · obtain ⟨u, rfl, hu⟩ := h2
            exact absurd (hb u (mem_neg.2 ⟨hd, hu⟩)) (holds_not.1 hh)
          · have hno : isPredLit known d = false := by
              rw [← Bool.not_eq_true, isPredLit_iff]; rintro (h | h)
              · exact h1 h
              · exact h2 h
            have := hc (mkNot d) (List.mem_map.2 ⟨d, List.mem_filter.2 ⟨hd, by simp [hno]⟩, rfl⟩)
            exact absurd hh (holds_mkNot.1 this)
      · intro h
        refine Classical.byContradiction fun hn => ?_
        have hn' : ∀ d ∈ ds, ¬ d.Holds I ρ := fun d hd hh => hn ⟨d, hd, hh⟩
        obtain ⟨d, hd, -, hh⟩ := h
          (fun b hb => Classical.byContradiction fun hc => hn' _ (mem_neg.1 hb).1 (holds_not.2 hc))
          (fun t ht => by
            obtain ⟨d, hd, rfl⟩ := List.mem_map.1 ht
            exact holds_mkNot.2 (hn' d (List.mem_filter.1 hd).1))
        exact hn' d hd hh

theorem asDisjunction_holds (hL : L.Ok M) {t d : PT T} (h : asDisjunction L t = some d) : d.Holds I ρ ↔ t.Holds I ρ := by
  unfold asDisjunction at h
  split at h
  · cases h; rfl
  · rename_i ts
    split at h
    · rename_i us hus
      injection h with h
      subst h
      rw [← hus, hL.mkOr, holds_not, holds_and]
      rw [exists_map]
      simp only [holds_mkNot]
      simp
    · cases h
  · cases h

theorem chclause_cases {t : PT T} {c : PClause T} (h : chclause L known t = some c) :
    (t.Declared known ∧ c = ⟨t, .tt, []⟩) ∨ (∃ u, t = .not u ∧ u.Declared known ∧ c = ⟨.ff, .tt, [u]⟩) ∨
    ∃ d, asDisjunction L t = some d ∧ clauseOfDisjuncts L known (topDisjuncts d) = some c := by
  unfold chclause at h
  split at h
  · rename_i p args
    split at h
    · rename_i hk
      injection h with h
      exact .inl ⟨⟨p, args, rfl, by simpa using hk⟩, h.symm⟩
    · cases h
  · rename_i p args
    split at h
    · rename_i hk
      injection h with h
      exact .inr (.inl ⟨_, rfl, ⟨p, args, rfl, by simpa using hk⟩, h.symm⟩)
    · cases h
  · obtain ⟨d, h1, h2⟩ := Option.bind_eq_some_iff.1 h
    exact .inr (.inr ⟨d, h1, h2⟩)

/-- **C70** (meaning): the clause an assertion is turned into says the same as the assertion — under every interpretation of
the predicates and every valuation of the variables. -/
theorem C70_same_meaning (hL : L.Ok M) {t : PT T} {c : PClause T} (h : chclause L known t = some c) (I : Interp T)
    (ρ : String → Srt → T.Val) : t.Holds I ρ ↔ c.Holds I ρ := by
  rcases chclause_cases h with ⟨-, rfl⟩ | ⟨u, rfl, -, rfl⟩ | ⟨d, h1, h2⟩
  · simp [PClause.Holds, holds_tt]
  · simp [PClause.Holds, holds_tt, not_holds_ff, holds_not]
  · rw [← asDisjunction_holds hL h1, topDisjuncts_holds]
    exact clauseOfDisjuncts_holds hL h2

/-- **C70** (form): the head is a declared predicate or `false`, the body consists of declared predicates and the constraint
contains none. -/
theorem C70_horn {t : PT T} {c : PClause T} (h : chclause L known t = some c) : c.Horn known := by
  rcases chclause_cases h with ⟨hd, rfl⟩ | ⟨u, rfl, hd, rfl⟩ | ⟨d, h1, h2⟩
  · exact ⟨.inr hd, by simp, by simp [PT.preds]⟩
  · exact ⟨.inl rfl, by simpa using hd, by simp [PT.preds]⟩
  · unfold clauseOfDisjuncts at h2
    simp only at h2
    split at h2
    · cases h2
    · split at h2
      · cases h2
      · rename_i hm
        injection h2 with h2
        subst h2
        refine ⟨?_, fun b hb => (mem_neg.1 hb).2, fun q hq hk => hm ((mentions_iff known _).2 ⟨q, hq, hk⟩)⟩
        have hm := fun d' => mem_lits (known := known) (ds := topDisjuncts d) (d := d')
        simp only
        generalize ((topDisjuncts d).filter (isPredLit known)).filter isPositive = l at hm
        match l with
        | [] => exact .inl rfl
        | x :: l => exact .inr ((hm x).1 (by simp)).2

/-- **C70** (nothing legal is refused): a disjunction that is a Horn clause is accepted. -/
theorem C70_accepts (hL : L.Ok M) {ts : List (PT T)} (h : PT.HornTerm known (.or ts)) :
    ∃ c, chclause L known (.or ts) = some c := by
  obtain ⟨d1, d2, d3⟩ := topDisjuncts_spec (.or ts)
  have hpos : ¬ (((topDisjuncts (.or ts)).filter (isPredLit known)).filter isPositive).length > 1 := by
    intro hlen
    have hsub : ((((topDisjuncts (.or ts)).filter (isPredLit known)).filter isPositive)).Sublist
        ((topDisjuncts (.or ts)).filter isPositive) := List.Sublist.filter _ List.filter_sublist
    have hpw := d3.sublist hsub
    have hm := fun d' => mem_lits (known := known) (ds := topDisjuncts (.or ts)) (d := d')
    generalize ((topDisjuncts (.or ts)).filter (isPredLit known)).filter isPositive = l at hm hpw hlen
    match l, hlen with
    | x :: y :: l, _ =>
      have hx := (hm x).1 (by simp)
      have hy := (hm y).1 (by simp)
      have pos : ∀ z, z ∈ topDisjuncts (.or ts) → z.Declared known → Disjunct true (.or ts) true z := by
        intro z hz hzd
        obtain ⟨s, d, h1, h2⟩ := d2 z hz
        obtain ⟨p, as, rfl, -⟩ := hzd
        have := term_pred (l := (d, s)) h1.leaf.1 h2.symm
        cases this; exact h1
      have e := h.one x y (pos x hx.1 hx.2) (pos y hy.1 hy.2) hx.2 hy.2
      obtain ⟨p, as, rfl, -⟩ := hx.2
      exact (List.pairwise_cons.1 hpw).1 y (by simp) p as rfl e
  have hint : ¬ (L.mkAnd (((topDisjuncts (.or ts)).filter fun d => !isPredLit known d).map mkNot)).mentions known = true := by
    rw [mentions_iff]
    rintro ⟨q, hq, hk⟩
    have hq' := (hL.mkAndPreds _).1 q hq
    have hmem : ∀ us : List (PT T), q ∈ PT.predsL us → ∃ u ∈ us, q ∈ u.preds := by
      intro us
      induction us with
      | nil => simp [PT.predsL]
      | cons u us ih =>
        intro hm
        rcases List.mem_append.1 (by simpa [PT.predsL] using hm) with hm | hm
        · exact ⟨u, by simp, hm⟩
        · obtain ⟨v, hv, hm⟩ := ih hm; exact ⟨v, by simp [hv], hm⟩
    obtain ⟨u, hu, hqu⟩ := hmem _ hq'
    obtain ⟨d, hd, rfl⟩ := List.mem_map.1 hu
    obtain ⟨hd1, hd2⟩ := List.mem_filter.1 hd
    obtain ⟨s, d', h1, rfl⟩ := d2 d hd1
    have hnl : ¬ isPredLit known (SLit.term (d', s)) = true := by simpa using hd2
    rw [isPredLit_iff] at hnl
    have hpr : ∀ t : PT T, (mkNot t).preds = t.preds := by
      intro t; unfold mkNot; split <;> simp [PT.preds]
    rw [hpr] at hqu
    have hqd : q ∈ d'.preds := by
      cases s
      · simpa [SLit.term, hpr] using hqu
      · simpa [SLit.term] using hqu
    rcases h.rest s d' h1 with hd' | hd'
    · obtain ⟨p, as, rfl, hpk⟩ := hd'
      cases s
      · exact hnl (.inr ⟨.pred p as, by simp [SLit.term, mkNot], p, as, rfl, hpk⟩)
      · exact hnl (.inl ⟨p, as, by simp [SLit.term], hpk⟩)
    · exact hd' q hqd hk
  simp only [chclause, asDisjunction, Option.bind_some, clauseOfDisjuncts]
  rw [if_neg hpos, if_neg hint]
  exact ⟨_, rfl⟩

end Front
end Golem
