import Verif.Model.Logic

namespace Golem
variable {T : Theory}

theorem Tm.eval_subst (ρ : Valuation T) (σ : Var → Tm T) (t : Tm T) :
    (t.subst σ).eval ρ = t.eval (fun x => (σ x).eval ρ) := by
  induction t <;> simp_all [Tm.subst, Tm.eval]

theorem Fla.holds_subst (ρ : Valuation T) (σ : Var → Tm T) (f : Fla T) :
    (f.subst σ).holds ρ ↔ f.holds (fun x => (σ x).eval ρ) := by
  induction f <;> simp_all [Fla.subst, Fla.holds, Tm.eval_subst]

theorem Fla.holds_rename (ρ : Valuation T) (r : Var → Var) (f : Fla T) :
    (f.rename r).holds ρ ↔ f.holds (fun x => ρ (r x)) := by
  simp [Fla.rename, Fla.holds_subst, Tm.eval]

theorem Tm.eval_rename (ρ : Valuation T) (r : Var → Var) (t : Tm T) :
    (t.rename r).eval ρ = t.eval (fun x => ρ (r x)) := by
  simp [Tm.rename, Tm.eval_subst, Tm.eval]

theorem Tm.eval_congr {ρ ρ' : Valuation T} {t : Tm T} (h : ∀ x ∈ t.vars, ρ x = ρ' x) :
    t.eval ρ = t.eval ρ' := by
  induction t with
  | var x => exact h x (by simp [Tm.vars])
  | const v => rfl
  | ap1 f a iha => simp only [Tm.eval]; rw [iha (fun x hx => h x (by simpa [Tm.vars] using hx))]
  | ap2 f a b iha ihb =>
    simp only [Tm.eval]
    rw [iha (fun x hx => h x (by simp [Tm.vars, hx])), ihb (fun x hx => h x (by simp [Tm.vars, hx]))]
  | ap3 f a b c iha ihb ihc =>
    simp only [Tm.eval]
    rw [iha (fun x hx => h x (by simp [Tm.vars, hx])), ihb (fun x hx => h x (by simp [Tm.vars, hx])),
      ihc (fun x hx => h x (by simp [Tm.vars, hx]))]

theorem Fla.holds_congr {ρ ρ' : Valuation T} {f : Fla T} (h : ∀ x ∈ f.vars, ρ x = ρ' x) :
    f.holds ρ ↔ f.holds ρ' := by
  induction f with
  | tt => exact Iff.rfl
  | ff => exact Iff.rfl
  | atom t => simp only [Fla.holds]; rw [Tm.eval_congr h]
  | eq a b =>
    simp only [Fla.holds]
    rw [Tm.eval_congr (fun x hx => h x (by simp [Fla.vars, hx])),
      Tm.eval_congr (t := b) (fun x hx => h x (by simp [Fla.vars, hx]))]
  | not f ih => simp only [Fla.holds]; rw [ih h]
  | and f g ihf ihg | or f g ihf ihg | iff f g ihf ihg =>
    simp only [Fla.holds]
    rw [ihf (fun x hx => h x (by simp [Fla.vars, hx])), ihg (fun x hx => h x (by simp [Fla.vars, hx]))]

theorem Fla.dependsOn_vars (f : Fla T) : f.DependsOn (· ∈ f.vars) :=
  fun _ _ h => Fla.holds_congr h

theorem Fla.DependsOn.mono {f : Fla T} {S S' : Var → Prop} (h : f.DependsOn S) (hs : ∀ x, S x → S' x) :
    f.DependsOn S' := fun _ _ hr => h _ _ (fun x hx => hr x (hs x hx))

theorem Tm.mem_vars_subst {σ : Var → Tm T} {t : Tm T} {y : Var} :
    y ∈ (t.subst σ).vars ↔ ∃ x ∈ t.vars, y ∈ (σ x).vars := by
  induction t with
  | var x => simp [Tm.subst, Tm.vars]
  | const v => simp [Tm.subst, Tm.vars]
  | ap1 f a iha => simp [Tm.subst, Tm.vars, iha]
  | ap2 f a b iha ihb =>
    simp only [Tm.subst, Tm.vars, List.mem_append, iha, ihb]
    constructor
    · rintro (⟨x, h, h'⟩ | ⟨x, h, h'⟩) <;> exact ⟨x, by simp [h], h'⟩
    · rintro ⟨x, h | h, h'⟩
      · exact .inl ⟨x, h, h'⟩
      · exact .inr ⟨x, h, h'⟩
  | ap3 f a b c iha ihb ihc =>
    simp only [Tm.subst, Tm.vars, List.mem_append, iha, ihb, ihc]
    constructor
    · rintro ((⟨x, h, h'⟩ | ⟨x, h, h'⟩) | ⟨x, h, h'⟩) <;> exact ⟨x, by simp [h], h'⟩
    · rintro ⟨x, (h | h) | h, h'⟩
      · exact .inl (.inl ⟨x, h, h'⟩)
      · exact .inl (.inr ⟨x, h, h'⟩)
      · exact .inr ⟨x, h, h'⟩

theorem Fla.mem_vars_subst {σ : Var → Tm T} {f : Fla T} {y : Var} :
    y ∈ (f.subst σ).vars ↔ ∃ x ∈ f.vars, y ∈ (σ x).vars := by
  induction f with
  | tt => simp [Fla.subst, Fla.vars]
  | ff => simp [Fla.subst, Fla.vars]
  | atom t => simp [Fla.subst, Fla.vars, Tm.mem_vars_subst]
  | not f ih => simp [Fla.subst, Fla.vars, ih]
  | eq a b =>
    simp only [Fla.subst, Fla.vars, List.mem_append, Tm.mem_vars_subst]
    constructor
    · rintro (⟨x, h, h'⟩ | ⟨x, h, h'⟩) <;> exact ⟨x, by simp [h], h'⟩
    · rintro ⟨x, h | h, h'⟩
      · exact .inl ⟨x, h, h'⟩
      · exact .inr ⟨x, h, h'⟩
  | and f g ihf ihg | or f g ihf ihg | iff f g ihf ihg =>
    simp only [Fla.subst, Fla.vars, List.mem_append, ihf, ihg]
    constructor
    · rintro (⟨x, h, h'⟩ | ⟨x, h, h'⟩) <;> exact ⟨x, by simp [h], h'⟩
    · rintro ⟨x, h | h, h'⟩
      · exact .inl ⟨x, h, h'⟩
      · exact .inr ⟨x, h, h'⟩

theorem Fla.mem_vars_rename {r : Var → Var} {f : Fla T} {y : Var} :
    y ∈ (f.rename r).vars ↔ ∃ x ∈ f.vars, y = r x := by
  simp [Fla.rename, Fla.mem_vars_subst, Tm.vars]

theorem varSubstitute_holds (ρ : Valuation T) (f : Fla T) (m : SubstMap T) :
    (varSubstitute f m).holds ρ ↔ f.holds (fun x => (m.fn x).eval ρ) := Fla.holds_subst _ _ _

@[simp] theorem Fla.holds_conj {ρ : Valuation T} {l : List (Fla T)} :
    (Fla.conj l).holds ρ ↔ ∀ f ∈ l, f.holds ρ := by
  induction l <;> simp_all [Fla.conj, Fla.holds]

@[simp] theorem Fla.holds_disj {ρ : Valuation T} {l : List (Fla T)} :
    (Fla.disj l).holds ρ ↔ ∃ f ∈ l, f.holds ρ := by
  induction l <;> simp_all [Fla.disj, Fla.holds]

theorem Fla.mem_vars_conj {l : List (Fla T)} {x : Var} : x ∈ (Fla.conj l).vars ↔ ∃ f ∈ l, x ∈ f.vars := by
  induction l <;> simp_all [Fla.conj, Fla.vars]

theorem Fla.mem_vars_disj {l : List (Fla T)} {x : Var} : x ∈ (Fla.disj l).vars ↔ ∃ f ∈ l, x ∈ f.vars := by
  induction l <;> simp_all [Fla.disj, Fla.vars]

@[simp] theorem Fla.holds_tt {ρ : Valuation T} : (Fla.tt : Fla T).holds ρ ↔ True := Iff.rfl
@[simp] theorem Fla.holds_ff {ρ : Valuation T} : (Fla.ff : Fla T).holds ρ ↔ False := Iff.rfl
@[simp] theorem Fla.holds_not {ρ : Valuation T} {f : Fla T} : (Fla.not f).holds ρ ↔ ¬ f.holds ρ := Iff.rfl
@[simp] theorem Fla.holds_and {ρ : Valuation T} {f g : Fla T} :
    (Fla.and f g).holds ρ ↔ f.holds ρ ∧ g.holds ρ := Iff.rfl
@[simp] theorem Fla.holds_or {ρ : Valuation T} {f g : Fla T} :
    (Fla.or f g).holds ρ ↔ f.holds ρ ∨ g.holds ρ := Iff.rfl
@[simp] theorem Fla.holds_iff {ρ : Valuation T} {f g : Fla T} :
    (Fla.iff f g).holds ρ ↔ (f.holds ρ ↔ g.holds ρ) := Iff.rfl
@[simp] theorem Fla.holds_eq {ρ : Valuation T} {a b : Tm T} :
    (Fla.eq a b).holds ρ ↔ a.eval ρ = b.eval ρ := Iff.rfl
@[simp] theorem Fla.holds_atom {ρ : Valuation T} {t : Tm T} :
    (Fla.atom t).holds ρ ↔ T.truth (t.eval ρ) = true := Iff.rfl
@[simp] theorem Fla.holds_imp {ρ : Valuation T} {f g : Fla T} :
    (Fla.imp f g).holds ρ ↔ (f.holds ρ → g.holds ρ) := by
  simp only [Fla.imp, Fla.holds_or, Fla.holds_not]
  by_cases h : f.holds ρ <;> simp [h]

/-- Lookup in a map built from two lists of equal length with distinct keys. -/
theorem SubstMap.find_append (m m' : SubstMap T) (x : Var) :
    SubstMap.find (m ++ m') x = (m.find x).or (m'.find x) := by
  induction m with
  | nil => simp [SubstMap.find]
  | cons p m ih =>
    obtain ⟨k, v⟩ := p
    simp only [SubstMap.find, List.cons_append, List.lookup] at ih ⊢
    split <;> simp_all

theorem SubstMap.find_none {m : SubstMap T} {x : Var} (h : ∀ p ∈ m, p.1 ≠ x) : m.find x = none := by
  induction m with
  | nil => rfl
  | cons p m ih =>
    obtain ⟨k, v⟩ := p
    have hk : k ≠ x := h _ (List.mem_cons_self ..)
    have : (x == k) = false := by simpa using (Ne.symm hk)
    simp only [SubstMap.find, List.lookup, this]
    exact ih (fun p hp => h p (List.mem_cons_of_mem _ hp))

theorem SubstMap.find_some_mem {m : SubstMap T} {x : Var} {t : Tm T} (h : m.find x = some t) : (x, t) ∈ m := by
  induction m with
  | nil => simp [SubstMap.find] at h
  | cons p m ih =>
    obtain ⟨k, v⟩ := p
    simp only [SubstMap.find, List.lookup] at h
    split at h
    · rename_i hb; simp at hb h; subst hb; subst h; simp
    · exact List.mem_cons_of_mem _ (ih h)

theorem SubstMap.find_isSome_of_mem {m : SubstMap T} {x : Var} {t : Tm T} (h : (x, t) ∈ m) :
    (m.find x).isSome := by
  cases hm : m.find x with
  | some _ => rfl
  | none =>
    exfalso
    induction m with
    | nil => simp at h
    | cons p m ih =>
      obtain ⟨k, v⟩ := p
      simp only [SubstMap.find, List.lookup] at hm
      split at hm
      · simp at hm
      · rename_i hb
        rcases List.mem_cons.1 h with h | h
        · simp at h; simp [h.1] at hb
        · exact ih h hm

end Golem
