import Verif.Lemmas.MBPInt

/-! Projection of linear formulas returns a result. -/

namespace Golem

theorem mapM_total {α β : Type} {f : α → Option β} {l : List α} (h : ∀ a ∈ l, ∃ b, f a = some b) :
    ∃ r, l.mapM f = some r := by
  induction l with
  | nil => exact ⟨[], rfl⟩
  | cons a l ih =>
    obtain ⟨b, hb⟩ := h a (by simp)
    obtain ⟨r, hr⟩ := ih fun a ha => h a (by simp [ha])
    exact ⟨b :: r, by simp [List.mapM_cons, hb, hr]⟩

/-- The literal is not a divisibility constraint. -/
def NoDvd {K : Type} (l : MLit K) : Prop := ∀ c p, l.1 ≠ .dvd c p

section
variable {K : Type} [CommRing K] [LinearOrder K] [IsStrictOrderedRing K] {md : K → K → K}

theorem gatherBounds_tmp {α : Type} {view : α → Option (Poly K × Bool)} (ls tmp : List α)
    (bs : List ((List (Var × K) × Bool) × K)) : ∀ l ∈ (gatherBounds view ls (tmp, bs)).1, l ∈ ls ∨ l ∈ tmp := by
  induction ls generalizing tmp bs with
  | nil => intro l hl; exact .inr hl
  | cons a ls ih =>
    intro l hl
    simp only [gatherBounds] at hl
    split at hl
    · exact (ih _ _ l hl).imp (fun h => by simp [h]) id
    · rcases ih _ _ l hl with h | h
      · exact .inl (by simp [h])
      · simp only [List.mem_append, List.mem_singleton] at h
        exact h.elim .inr fun h => .inl (by simp [h])

theorem mem_postprocess {α : Type} {view : α → Option (Poly K × Bool)} {mk : Poly K × Bool → α} {ls : List α} {l : α}
    (h : l ∈ postprocess view mk ls) : l ∈ ls ∨ ∃ b, l = mk b := by
  unfold postprocess at h
  simp only at h
  split at h
  · rcases List.mem_append.1 h with h | h
    · exact (gatherBounds_tmp ls [] [] l h).imp id (by simp)
    · obtain ⟨b, _, rfl⟩ := List.mem_map.1 h
      exact .inr ⟨_, rfl⟩
  · exact .inl h

theorem NoDvd.subst {l : MLit K} (h : NoDvd l) (x : Var) (s : Poly K) : NoDvd (l.subst x s) := by
  obtain ⟨a, b⟩ := l
  intro c p
  cases a with
  | dvd c p => exact absurd rfl (h c p)
  | leq p => intro h; cases h
  | eq p => intro h; cases h

end

/-! ### Reals -/

theorem realScan_noDvd {ρ : Var → Rat} (acc ls : List (MLit Rat)) (h : ∀ l ∈ ls, NoDvd l)
    (hacc : ∀ l ∈ acc, ∃ p s, l = (.leq p, s)) :
    (∃ p all, realScan ρ acc ls = .eq p all ∧ ∀ l ∈ all, NoDvd l) ∨
    ∃ l, realScan ρ acc ls = .ineqs l ∧ ∀ k ∈ l, ∃ p s, k = (.leq p, s) := by
  have hleq : ∀ {l : MLit Rat}, (∃ p s, l = (.leq p, s)) → NoDvd l := by
    rintro l ⟨p, s, rfl⟩ c q h; cases h
  induction ls generalizing acc with
  | nil => exact .inr ⟨acc, rfl, hacc⟩
  | cons l ls ih =>
    have h' : ∀ l ∈ ls, NoDvd l := fun l hl => h l (by simp [hl])
    obtain ⟨a, s⟩ := l
    have step : ∀ k : MLit Rat, (∃ p s, k = (.leq p, s)) → ∀ m ∈ acc ++ [k], ∃ p s, m = (.leq p, s) := by
      intro k hk m hm
      rcases List.mem_append.1 hm with hm | hm
      · exact hacc m hm
      · simp at hm; subst hm; exact hk
    cases a with
    | eq p =>
      cases s with
      | true =>
        refine .inl ⟨p, _, rfl, fun l hl => ?_⟩
        rcases List.mem_append.1 hl with hl | hl
        · exact hleq (hacc l hl)
        · exact h l hl
      | false =>
        refine ih _ h' (step _ ?_)
        unfold replaceDiseq
        split <;> exact ⟨_, _, rfl⟩
    | leq p => exact ih _ h' (step _ ⟨_, _, rfl⟩)
    | dvd c p => exact absurd rfl (h (.dvd c p, s) (by simp) c p)

theorem pickHighest_lower {ρ : Var → Rat} (us : List Bound) (cur : Bound) (bs : List Bound) (hc : cur.lower = true)
    (hb : ∀ b ∈ bs, b.lower = true) : (pickHighest ρ us cur bs).lower = true := by
  induction bs generalizing cur with
  | nil => exact hc
  | cons b bs ih =>
    have h1 := hb b (by simp)
    have h2 : ∀ b ∈ bs, b.lower = true := fun b h => hb b (by simp [h])
    simp only [pickHighest]
    split
    · exact ih b h1 h2
    split
    · exact h1
    · exact ih cur hc h2

theorem substituteBounds_total {what : Bound} {wh : List Bound}
    (h : what.lower = true ∨ ∀ b ∈ wh, b.lower = true) : ∃ r, substituteBounds what wh = some r ∧ ∀ l ∈ r, NoDvd l := by
  have one : ∀ b ∈ wh, ∃ l, substituteBound what b = some l := by
    intro b hb
    have h : what.lower = true ∨ b.lower = true := h.imp id fun h => h b hb
    unfold substituteBound
    split
    · rename_i h1
      simp at h1
      rcases h with h | h <;> simp [h] at h1
    split
    · split <;> exact ⟨_, rfl⟩
    · simp only
      split <;> split <;> exact ⟨_, rfl⟩
  have nd : ∀ b l, substituteBound what b = some l → NoDvd l := by
    intro b l hl c p hc
    unfold substituteBound at hl
    simp only at hl
    repeat' split at hl
    all_goals first
      | (cases hl; cases hc)
      | cases hl
  obtain ⟨r, hr⟩ := mapM_total one
  refine ⟨r.filter fun l => !l.trivial, by simp [substituteBounds, hr], fun l hl => ?_⟩
  obtain ⟨b, _, hb⟩ := (mapM_some hr).2 l (List.mem_filter.1 hl).1
  exact nd b l hb

theorem projectRealVar_total (ρ : Var → Rat) (x : Var) {lits : List (MLit Rat)} (h : ∀ l ∈ lits, NoDvd l) :
    ∃ r, projectRealVar ρ x lits = some r ∧ ∀ l ∈ r, NoDvd l := by
  have hrest : ∀ l ∈ lits.filter (fun l => !MLit.hasVar x l), NoDvd l := fun l hl => h l (List.mem_filter.1 hl).1
  unfold projectRealVar
  simp only
  rcases realScan_noDvd (ρ := ρ) [] (lits.filter (MLit.hasVar x)) (fun l hl => h l (List.mem_filter.1 hl).1) (by simp) with
    ⟨p, all, e, hall⟩ | ⟨l, e, hl⟩
  · rw [e]
    refine ⟨_, rfl, fun l hl => ?_⟩
    rcases List.mem_append.1 (List.mem_filter.1 hl).1 with hl | hl
    · obtain ⟨l', hl', rfl⟩ := List.mem_map.1 hl
      exact (hall l' hl').subst _ _
    · exact hrest l hl
  · rw [e]
    obtain ⟨bs, hbs⟩ := mapM_total (f := toBound x) (l := l) fun k hk => by
      obtain ⟨p, s, rfl⟩ := hl k hk
      exact ⟨_, rfl⟩
    simp only [hbs, Option.bind_eq_bind, Option.bind_some]
    unfold projectBounds
    simp only
    split
    · exact ⟨_, rfl, hrest⟩
    · exact ⟨_, rfl, hrest⟩
    · rename_i l ls u us h1 h2
      have low : ∀ b ∈ l :: ls, b.lower = true := by
        intro b hb
        rw [← h1] at hb
        exact (List.mem_filter.1 hb).2
      have new : ∃ r, newLiterals ρ bs l ls u us = some r ∧ ∀ l ∈ r, NoDvd l := by
        unfold newLiterals
        split
        · exact substituteBounds_total (.inr low)
        split
        · exact substituteBounds_total (.inl (low l (by simp)))
        · exact substituteBounds_total (.inl (pickHighest_lower _ _ _ (low l (by simp)) fun b hb => low b (by simp [hb])))
      obtain ⟨r, hr, hnd⟩ := new
      refine ⟨_, by simp only [hr]; rfl, fun k hk => ?_⟩
      rcases mem_postprocess hk with hk | ⟨b, rfl⟩
      · rcases List.mem_append.1 hk with hk | hk
        · exact hnd k hk
        · exact hrest k hk
      · intro c p h; cases h

theorem projectRealVars_total (ρ : Var → Rat) (xs : List Var) {lits : List (MLit Rat)} (h : ∀ l ∈ lits, NoDvd l) :
    ∃ r, projectRealVars ρ xs lits = some r := by
  induction xs generalizing lits with
  | nil => exact ⟨lits, rfl⟩
  | cons x xs ih =>
    obtain ⟨r, hr, hnd⟩ := projectRealVar_total ρ x h
    obtain ⟨r', hr'⟩ := ih hnd
    exact ⟨r', by simp [projectRealVars, hr, hr']⟩

/-! ### Integers -/

theorem iLeq_noDvd {a b : Poly Int} : ∀ l ∈ iLeq a b, NoDvd l := by
  intro l hl
  obtain ⟨p, rfl⟩ := iLeq_nodiv hl
  intro c q h; cases h

theorem iEq_noDvd {a b : Poly Int} : ∀ l ∈ iEq a b, NoDvd l := by
  intro l hl
  have := (List.mem_filter.1 hl).1
  simp only [List.mem_singleton] at this
  subst this
  intro c q h; cases h

theorem resolve_noDvd {ρ : Var → Int} {low up : Poly Int × Int} : ∀ l ∈ (resolve ρ low up).1, NoDvd l := by
  intro l hl
  unfold resolve at hl
  simp only at hl
  split at hl
  · exact iLeq_noDvd l hl
  · split at hl <;>
    · rcases List.mem_append.1 hl with hl | hl
      · exact iLeq_noDvd l hl
      · split at hl
        · cases hl
        · exact iLeq_noDvd l hl

theorem eliminateBounds_noDvd {ρ : Var → Int} {bs : List IBound} : ∀ l ∈ (eliminateBounds ρ bs).2, NoDvd l := by
  intro l hl
  unfold eliminateBounds at hl
  split at hl
  · split at hl
    · cases hl
    · cases hl
    · simp only at hl
      rcases List.mem_append.1 hl with hl | hl
      · obtain ⟨b, _, hl⟩ := List.mem_flatMap.1 hl
        exact iLeq_noDvd l hl
      · obtain ⟨b, _, hl⟩ := List.mem_flatMap.1 hl
        exact resolve_noDvd l hl
  · simp only at hl
    rcases List.mem_append.1 hl with hl | hl
    · rcases List.mem_append.1 hl with hl | hl
      · obtain ⟨b, _, hl⟩ := List.mem_flatMap.1 hl
        exact iEq_noDvd l hl
      · obtain ⟨b, _, hl⟩ := List.mem_flatMap.1 hl
        exact iLeq_noDvd l hl
    · obtain ⟨b, _, hl⟩ := List.mem_flatMap.1 hl
      exact iLeq_noDvd l hl

theorem processClassic_total (ρ : Var → Int) (x : Var) (divs : List DivC) {lits : List (MLit Int)}
    (h : ∀ l ∈ lits, NoDvd l) : ∃ r, processClassic ρ x divs lits = some r ∧ ∀ l ∈ r.2, NoDvd l := by
  obtain ⟨bs, hbs⟩ := mapM_total (f := toIBound ρ x) (l := lits.filter (MLit.hasVar x)) fun l hl => by
    obtain ⟨a, s⟩ := l
    cases a with
    | dvd c p => exact absurd rfl (h _ (List.mem_filter.1 hl).1 c p)
    | leq p => exact ⟨_, rfl⟩
    | eq p => cases s <;> exact ⟨_, rfl⟩
  refine ⟨_, by simp only [processClassic, hbs]; rfl, fun l hl => ?_⟩
  rcases List.mem_append.1 hl with hl | hl
  · exact eliminateBounds_noDvd l hl
  · exact h l (List.mem_filter.1 hl).1

theorem projectIntVar_total (ρ : Var → Int) (x : Var) (divs : List DivC) {lits : List (MLit Int)}
    (h : ∀ l ∈ lits, NoDvd l) : ∃ r, projectIntVar ρ x divs lits = some r ∧ ∀ l ∈ r.2, NoDvd l := by
  unfold projectIntVar processDiv
  simp only
  split
  · exact processClassic_total _ _ _ h
  · split
    · exact processClassic_total _ _ _ h
    · refine processClassic_total _ _ _ fun l hl => ?_
      obtain ⟨l', hl', rfl⟩ := List.mem_map.1 hl
      exact (h l' hl').subst _ _

theorem projectIntVars_total (ρ : Var → Int) (xs : List Var) {lits : List (MLit Int)}
    (h : ∀ l ∈ lits, l.2 = false → NoDvd l) : ∃ r, projectIntVars ρ xs lits = some r := by
  have loop : ∀ (divs : List DivC) (lits : List (MLit Int)), (∀ l ∈ lits, NoDvd l) →
      ∃ r, projectIntLoop ρ xs divs lits = some r := by
    induction xs with
    | nil => intro divs lits _; exact ⟨_, rfl⟩
    | cons x xs ih =>
      intro divs lits h
      obtain ⟨r, hr, hnd⟩ := projectIntVar_total ρ x divs h
      obtain ⟨r', hr'⟩ := ih r.1 r.2 hnd
      exact ⟨r', by simp [projectIntLoop, hr, hr']⟩
  obtain ⟨r, hr⟩ := loop (lits.filterMap MLit.toDiv) (lits.filter fun l => l.toDiv.isNone) fun l hl c p e => by
    obtain ⟨h1, h2⟩ := List.mem_filter.1 hl
    obtain ⟨a, s⟩ := l
    simp only at e
    subst e
    cases s with
    | false => exact h _ h1 rfl c p rfl
    | true => simp [MLit.toDiv] at h2
  exact ⟨_, by simp only [projectIntVars, hr]; rfl⟩

end Golem
