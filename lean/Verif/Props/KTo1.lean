import Verif.Model.KTo1
import Verif.Props.Reverse

/-!
C20, C21: from k-inductive to inductive invariants.
-/

namespace Golem
variable {T : Theory}

/-! ### Shared variables of formulas at different times -/

/-- Every variable of `f` is a current variable of the system, moved to some time in `[lo, hi]`, where auxiliary variables
are at most at time `hi - 1`. -/
def TS.Within (ts : TS T) (lo hi : Int) (f : Fla T) : Prop := ∀ y ∈ f.vars, ∃ x j, y = shift j x ∧ lo ≤ j ∧ j ≤ hi ∧
  (x ∈ ts.stateVars ∨ (x ∈ ts.auxVars ∧ j < hi))

theorem TS.Within.mono {ts : TS T} {lo hi lo' hi' : Int} {f : Fla T} (h : ts.Within lo hi f) (h1 : lo' ≤ lo)
    (h2 : hi ≤ hi') : ts.Within lo' hi' f := by
  intro y hy
  obtain ⟨x, j, e, a, b, c⟩ := h y hy
  refine ⟨x, j, e, by omega, by omega, ?_⟩
  rcases c with c | ⟨c, d⟩
  · exact Or.inl c
  · exact Or.inr ⟨c, by omega⟩

theorem TS.Over.within {ts : TS T} {f : Fla T} (h : ts.Over f) (i : Int) : ts.Within i i (sendFla f i) := by
  intro y hy
  obtain ⟨x, hx, rfl⟩ := mem_vars_sendFla.1 hy
  exact ⟨x, i, rfl, by omega, by omega, Or.inl (h x hx)⟩

theorem TS.WF.within_trans {ts : TS T} (hw : ts.WF) (i : Int) : ts.Within i (i + 1) (sendFla ts.trans i) := by
  intro y hy
  obtain ⟨x, hx, rfl⟩ := mem_vars_sendFla.1 hy
  rcases hw.trans x hx with h | h | h
  · exact ⟨x, i, rfl, by omega, by omega, Or.inl h⟩
  · simp only [TS.nextVars, List.mem_map] at h
    obtain ⟨z, hz, rfl⟩ := h
    exact ⟨z, i + 1, by rw [shift_shift]; congr 1; omega, by omega, by omega, Or.inl hz⟩
  · exact ⟨x, i, rfl, by omega, by omega, Or.inr ⟨h, by omega⟩⟩

theorem TS.Within.and {ts : TS T} {lo hi : Int} {f g : Fla T} (hf : ts.Within lo hi f) (hg : ts.Within lo hi g) :
    ts.Within lo hi (.and f g) := by
  intro y hy
  rcases List.mem_append.1 hy with h | h
  · exact hf y h
  · exact hg y h

theorem TS.Within.or {ts : TS T} {lo hi : Int} {f g : Fla T} (hf : ts.Within lo hi f) (hg : ts.Within lo hi g) :
    ts.Within lo hi (.or f g) := by
  intro y hy
  rcases List.mem_append.1 hy with h | h
  · exact hf y h
  · exact hg y h

theorem TS.Within.not {ts : TS T} {lo hi : Int} {f : Fla T} (hf : ts.Within lo hi f) : ts.Within lo hi (.not f) := hf

theorem TS.Within.send {ts : TS T} {lo hi : Int} {f : Fla T} (hf : ts.Within lo hi f) (i : Int) :
    ts.Within (lo + i) (hi + i) (sendFla f i) := by
  intro y hy
  obtain ⟨x, hx, rfl⟩ := mem_vars_sendFla.1 hy
  obtain ⟨z, j, rfl, a, b, c⟩ := hf x hx
  refine ⟨z, j + i, by rw [shift_shift], by omega, by omega, ?_⟩
  rcases c with c | ⟨c, d⟩
  · exact Or.inl c
  · exact Or.inr ⟨c, by omega⟩

theorem TS.within_conj {ts : TS T} {lo hi : Int} {l : List (Fla T)} (h : ∀ f ∈ l, ts.Within lo hi f) :
    ts.Within lo hi (Fla.conj l) := by
  intro y hy
  obtain ⟨f, hf, hy⟩ := Fla.mem_vars_conj.1 hy
  exact h f hf y hy

/-- An interpolant between a past and a future mentions only the state in between. -/
theorem TS.shared_over {ts : TS T} (hw : ts.WF) {lo hi m : Int} {A B : List (Fla T)} {I : Fla T}
    (hA : ∀ f ∈ A, ts.Within lo m f) (hB : ∀ f ∈ B, ts.Within m hi f) (hI : IsItp A B I) :
    ts.Over (sendFla I (-m)) := by
  intro y hy
  obtain ⟨x, hx, rfl⟩ := mem_vars_sendFla.1 hy
  obtain ⟨h1, h2⟩ := hI.shared x hx
  obtain ⟨a, j, rfl, ha1, ha2, ha3⟩ := TS.within_conj hA _ h1
  obtain ⟨b, j', e, hb1, hb2, hb3⟩ := TS.within_conj hB _ h2
  have hac : a.isCurrent := by
    rcases ha3 with h | h
    · exact hw.stateCur _ h
    · exact hw.auxCur _ h.1
  have hbc : b.isCurrent := by
    rcases hb3 with h | h
    · exact hw.stateCur _ h
    · exact hw.auxCur _ h.1
  obtain ⟨rfl, rfl⟩ := shift_eq hac hbc e
  have hj : j = m := by omega
  subst hj
  rw [shift_shift, Int.add_right_neg, shift_zero]
  rcases ha3 with h | ⟨_, h⟩
  · exact h
  · omega

/-- Reading an interpolant at its own time. -/
theorem sendFla_back {ρ : Valuation T} {I : Fla T} (i : Int) : (sendFla (sendFla I (-i)) i).holds ρ ↔ I.holds ρ := by
  rw [sendFla_holds, sendFla_holds]
  simp only [shift_shift, Int.add_left_neg, shift_zero]

theorem TS.itp_at {ts : TS T} {I : Fla T} {i : Int} (h : ts.Over (sendFla I (-i))) {ρ : Valuation T} :
    I.holds ρ ↔ ts.den (sendFla I (-i)) (ts.stateAt ρ i) := by
  rw [TS.den_at h, sendFla_back]

/-! ### C20 -/

theorem kQuery_length (ts : TS T) (inv : Fla T) (k : Nat) : (kQuery ts inv k).length = k + 1 := by simp [kQuery]

theorem kQuery_get {ts : TS T} {inv : Fla T} {k i : Nat} (h : i < k) :
    (kQuery ts inv k)[i]'(by rw [kQuery_length]; omega) = kConjunct ts inv (i + 1) := by
  simp [kQuery, List.getElem_append, h]

/-- The variables of a conjunct, with the auxiliary ones told apart by where they come from. -/
theorem kConjunct_vars {ts : TS T} (hw : ts.WF) {inv : Fla T} (hinv : ts.Over inv) (i : Nat) {y : Var}
    (hy : y ∈ (kConjunct ts inv (i + 1)).vars) : ∃ x j, y = shift j x ∧ x.isCurrent ∧ (i : Int) ≤ j ∧ j ≤ (i : Int) + 1 ∧
      (x ∈ ts.stateVars ∨ (x ∈ ts.auxVars ∧ x ∈ ts.init.vars ∧ j = (i : Int) + 1) ∨
        (x ∈ ts.auxVars ∧ x ∈ ts.trans.vars ∧ j = (i : Int))) := by
  unfold kConjunct at hy
  have e : (((i + 1 : Nat) : Int) - 1) = i := by omega
  rw [e] at hy
  rcases List.mem_append.1 hy with h | h
  · obtain ⟨x, hx, rfl⟩ := mem_vars_sendFla.1 h
    rcases hw.init x hx with h1 | h1
    · exact ⟨x, _, rfl, hw.stateCur x h1, by omega, by omega, Or.inl h1⟩
    · exact ⟨x, _, rfl, hw.auxCur x h1, by omega, by omega, Or.inr (Or.inl ⟨h1, hx, by omega⟩)⟩
  · rcases List.mem_append.1 h with h | h
    · obtain ⟨x, hx, rfl⟩ := mem_vars_sendFla.1 h
      exact ⟨x, _, rfl, hw.stateCur x (hinv x hx), by omega, by omega, Or.inl (hinv x hx)⟩
    · obtain ⟨x, hx, rfl⟩ := mem_vars_sendFla.1 h
      rcases hw.trans x hx with h1 | h1 | h1
      · exact ⟨x, _, rfl, hw.stateCur x h1, by omega, by omega, Or.inl h1⟩
      · simp only [TS.nextVars, List.mem_map] at h1
        obtain ⟨z, hz, rfl⟩ := h1
        exact ⟨z, (i : Int) + 1, by rw [shift_shift]; congr 1; omega, hw.stateCur z hz, by omega, by omega, Or.inl hz⟩
      · exact ⟨x, _, rfl, hw.auxCur x h1, by omega, by omega, Or.inr (Or.inr ⟨h1, hx, rfl⟩)⟩

theorem mem_kQuery_take {ts : TS T} {inv : Fla T} {k i : Nat} (hi : i ≤ k) {f : Fla T}
    (h : f ∈ (kQuery ts inv k).take i) : ∃ j, j < i ∧ f = kConjunct ts inv (j + 1) := by
  obtain ⟨j, hj, rfl⟩ := List.getElem_of_mem h
  have hj' : j < i := by simp at hj; omega
  refine ⟨j, hj', ?_⟩
  rw [List.getElem_take]
  exact kQuery_get (by omega)

theorem mem_kQuery_drop {ts : TS T} {inv : Fla T} {k i : Nat} {f : Fla T}
    (h : f ∈ (kQuery ts inv k).drop i) : (∃ j, i ≤ j ∧ j < k ∧ f = kConjunct ts inv (j + 1)) ∨
      f = .not (sendFla inv k) := by
  obtain ⟨j, hj, rfl⟩ := List.getElem_of_mem h
  rw [List.getElem_drop]
  have hl : j < (kQuery ts inv k).length - i := by simpa using hj
  rw [kQuery_length] at hl
  by_cases hjk : i + j < k
  · exact Or.inl ⟨i + j, by omega, hjk, kQuery_get hjk⟩
  · right
    have e : i + j = k := by omega
    simp [kQuery, e]

/-- The interpolant of position `i` (between the first `i` conjuncts and the rest) as a set of states. Auxiliary variables of
the initial states and of the transitions are different, so none is shared. -/
theorem kItp_over {S : Smt T} (hS : S.Sound) {ts : TS T} (hw : ts.WF) (hs : ts.AuxSep) {inv : Fla T}
    (hinv : ts.Over inv) {k : Nat} (hu : S.check (kQuery ts inv k) = .unsat) {i : Nat} (hi : i < k) :
    ts.Over (sendFla (S.itp ((kQuery ts inv k).take (i + 1)) ((kQuery ts inv k).drop (i + 1))) (-((i : Int) + 1))) := by
  intro y hy
  obtain ⟨x, hx, rfl⟩ := mem_vars_sendFla.1 hy
  obtain ⟨h1, h2⟩ := (hS.pathItp hu i).shared x hx
  obtain ⟨f, hf, h1⟩ := Fla.mem_vars_conj.1 h1
  obtain ⟨g, hg, h2⟩ := Fla.mem_vars_conj.1 h2
  obtain ⟨j, hj, rfl⟩ := mem_kQuery_take (by omega) hf
  obtain ⟨a, m, rfl, ha, ha1, ha2, ha3⟩ := kConjunct_vars hw hinv j h1
  have fin : ∀ {b : Var} {m' : Int}, shift m a = shift m' b → b.isCurrent → (i : Int) + 1 ≤ m' →
      (b ∈ ts.stateVars ∨ (b ∈ ts.auxVars ∧ b ∈ ts.init.vars ∧ (i : Int) + 2 ≤ m') ∨ (b ∈ ts.auxVars ∧ b ∈ ts.trans.vars)) →
      shift (-((i : Int) + 1)) (shift m a) ∈ ts.stateVars := by
    intro b m' e hb hm hcase
    obtain ⟨rfl, rfl⟩ := shift_eq ha hb e
    have hm1 : m = (i : Int) + 1 := by omega
    subst hm1
    rw [shift_shift, Int.add_right_neg, shift_zero]
    rcases hcase with h | h | ⟨h, h'⟩
    · exact h
    · omega
    · rcases ha3 with h3 | ⟨_, h3, _⟩ | ⟨_, _, h3⟩
      · exact h3
      · exact absurd h' (hs.it _ h h3)
      · omega
  rcases mem_kQuery_drop hg with ⟨j', hj1, hj2, rfl⟩ | rfl
  · obtain ⟨b, m', e, hb, hb1, hb2, hb3⟩ := kConjunct_vars hw hinv j' h2
    refine fin e hb (by omega) ?_
    rcases hb3 with h | ⟨h, h', h''⟩ | ⟨h, h', _⟩
    · exact Or.inl h
    · exact Or.inr (Or.inl ⟨h, h', by omega⟩)
    · exact Or.inr (Or.inr ⟨h, h'⟩)
  · obtain ⟨b, hb, e⟩ := mem_vars_sendFla.1 (show shift m a ∈ (sendFla inv k).vars from h2)
    exact fin e (hw.stateCur b (hinv b hb)) (by omega) (Or.inl (hinv b hb))

theorem mem_kResult {S : Smt T} {ts : TS T} {inv : Fla T} {k : Nat} {f : Fla T} :
    f ∈ ((S.pathItp (kQuery ts inv k)).zipIdx.map fun p => sendFla p.1 (-((p.2 : Int) + 1))) ↔
      ∃ i, i < k ∧ f = sendFla (S.itp ((kQuery ts inv k).take (i + 1)) ((kQuery ts inv k).drop (i + 1)))
        (-((i : Int) + 1)) := by
  simp only [List.mem_map, Prod.exists, List.mem_zipIdx_iff_getElem?]
  constructor
  · rintro ⟨I, i, h, rfl⟩
    obtain ⟨hlt, rfl⟩ := List.getElem?_eq_some_iff.1 h
    rw [Smt.pathItp_get]
    rw [Smt.pathItp_length, kQuery_length] at hlt
    exact ⟨i, by omega, rfl⟩
  · rintro ⟨i, hi, rfl⟩
    refine ⟨_, i, List.getElem?_eq_getElem (by rw [Smt.pathItp_length, kQuery_length]; omega), ?_⟩
    rw [Smt.pathItp_get]

/-- **C20** Whenever `unfoldSingleQuery` returns (and does not throw), the returned formula is over the state variables, is
implied by the initial states, is closed under the transition relation, and implies the given invariant. -/
theorem C20_unfoldSingleQuery (S : Smt T) (hS : S.Sound) (ts : TS T) (hw : ts.WF) (hs : ts.AuxSep) (inv : Fla T)
    (hinv : ts.Over inv) (k : Nat) (R : Fla T) (h : unfoldSingleQuery S ts inv k = some R) :
    ts.Over R ∧ ts.sem.Inductive (ts.den R) ∧ ∀ s, ts.den R s → ts.den inv s := by
  unfold unfoldSingleQuery at h
  split at h
  case isFalse => simp at h
  rename_i hu
  simp only [Option.some.injEq] at h
  have hover := fun (i : Nat) (hi : i < k) => kItp_over hS hw hs hinv hu hi
  have hitp := fun (i : Nat) => hS.pathItp hu i
  have hpath := fun (i : Nat) (h1 : i < (kQuery ts inv k).length) => hS.pathItp_step hu i h1
  -- the result as a family of sets
  let I : Nat → Fla T := fun i =>
    S.itp ((kQuery ts inv k).take (i + 1)) ((kQuery ts inv k).drop (i + 1))
  let J : Nat → Fla T := fun i => sendFla (I i) (-((i : Int) + 1))
  have hJ : ∀ i, i < k → ts.Over (J i) := hover
  have hRover : ts.Over R := by
    intro x hx
    rw [← h] at hx
    obtain ⟨f, hf, hx⟩ := Fla.mem_vars_conj.1 hx
    obtain ⟨i, hi, rfl⟩ := mem_kResult.1 hf
    exact hover i hi x hx
  have hR : ∀ ρ : Valuation T, R.holds ρ ↔ ∀ i, i < k → (J i).holds ρ := by
    intro ρ
    rw [← h, Fla.holds_conj]
    constructor
    · intro hh i hi; exact hh _ (mem_kResult.2 ⟨i, hi, rfl⟩)
    · intro hh f hf
      obtain ⟨i, hi, rfl⟩ := mem_kResult.1 hf
      exact hh i hi
  have hlen := kQuery_length ts inv k
  -- first interpolant
  have h0 : 0 < k → ∀ ρ : Valuation T, (kConjunct ts inv 1).holds ρ → ts.den (J 0) (ts.stateAt ρ 1) := by
    intro hk ρ hc
    have : (I 0).holds ρ := by
      apply (hitp 0).fromA
      intro f hf
      obtain ⟨j, hj, rfl⟩ := mem_kQuery_take (by omega) hf
      have : j = 0 := by omega
      subst this; exact hc
    have := (TS.itp_at (i := 1) (by simpa [J] using hJ 0 hk)).1 this
    simpa [J] using this
  -- the following ones
  have hS' : ∀ i, i + 1 < k → ∀ ρ : Valuation T, ts.den (J i) (ts.stateAt ρ ((i : Int) + 1)) →
      (kConjunct ts inv (i + 2)).holds ρ → ts.den (J (i + 1)) (ts.stateAt ρ ((i : Int) + 2)) := by
    intro i hi ρ h1 h2
    have e1 : (I i).holds ρ := (TS.itp_at (i := (i : Int) + 1) (hJ i (by omega))).2 h1
    have := hpath (i + 1) (by omega) ρ e1 (by rw [kQuery_get hi]; exact h2)
    have e2 := (TS.itp_at (ts := ts) (I := I (i + 1)) (i := ((i + 1 : Nat) : Int) + 1) (hJ (i + 1) hi)).1 this
    have e3 : (((i + 1 : Nat) : Int) + 1) = (i : Int) + 2 := by omega
    rw [← e3]; exact e2
  -- the last one
  have hlast : 0 < k → ∀ ρ : Valuation T, ts.den (J (k - 1)) (ts.stateAt ρ k) → (sendFla inv k).holds ρ := by
    intro hk ρ h1
    refine Classical.byContradiction fun hn => ?_
    have e : ((k - 1 : Nat) : Int) + 1 = k := by omega
    have hJk := hJ (k - 1) (by omega)
    simp only [J, e] at hJk h1
    have := (TS.itp_at (i := (k : Int)) hJk).2 h1
    refine (hitp (k - 1)).refuteB ρ this ?_
    intro f hf
    rcases mem_kQuery_drop hf with ⟨j, h1, h2, rfl⟩ | rfl
    · omega
    · exact hn
  -- R implies inv
  have himp : ∀ s, ts.den R s → ts.den inv s := by
    rintro s ⟨ρ, hρ, rfl⟩
    by_cases hk : 0 < k
    · rw [hR] at hρ
      obtain ⟨ρ', hst, -⟩ := TS.realize hw hs (fun _ => ts.stateVars.map ρ) (fun _ => ⟨ρ, rfl⟩) 0 0
      have h1 := hlast hk ρ' (by rw [hst]; exact (TS.den_iff (hJ _ (by omega))).2 (hρ _ (by omega)))
      have := (TS.den_at hinv).2 h1
      rwa [hst] at this
    · have hk0 : k = 0 := by omega
      subst hk0
      refine (TS.den_iff hinv).2 (Classical.byContradiction fun hn => ?_)
      exact hS.unsat _ hu ⟨ρ, by simpa [kQuery, AllHold, sendFla] using hn⟩
  refine ⟨hRover, ⟨?_, ?_⟩, himp⟩
  · -- initial states
    rintro s ⟨ρ, hρ, rfl⟩
    refine (TS.den_iff hRover).2 ((hR ρ).2 fun i hi => ?_)
    obtain ⟨ρ', hst, hinit⟩ : ∃ ρ' : Valuation T, (∀ m : Nat, ts.stateAt ρ' m = ts.stateVars.map ρ) ∧
        ∀ m : Nat, (sendFla ts.init m).holds ρ' :=
      ⟨ts.glue (fun _ => ρ) (fun _ => ρ) ρ ρ, fun m => TS.glue_state hw _ _ _ _ m,
        fun m => TS.glue_init hw _ _ _ _ m hρ rfl⟩
    have key : ∀ i, i < k → ts.den (J i) (ts.stateVars.map ρ) := by
      intro i
      induction i with
      | zero =>
        intro hk
        have := h0 hk ρ' (Or.inl (hinit 1))
        have e := hst 1
        have e1 : ((1 : Nat) : Int) = 1 := rfl
        rw [e1] at e
        rwa [e] at this
      | succ i ih =>
        intro hk
        have e1 := hst (i + 1)
        have e2 := hst (i + 2)
        simp only [Int.natCast_add, Int.cast_ofNat_Int] at e1 e2
        have := hS' i hk ρ' (by rw [e1]; exact ih (by omega)) (Or.inl (hinit (i + 2)))
        rwa [e2] at this
    exact (TS.den_iff (hJ i hi)).1 (key i hi)
  · -- transitions
    intro s t hss0 hst
    obtain ⟨ρs, rfl⟩ := TS.rep_src hst
    obtain ⟨ρt, rfl⟩ := TS.rep_tgt hst
    have hRs := (TS.den_iff hRover).1 hss0
    have hsinv := himp _ hss0
    rw [hR] at hRs
    refine (TS.den_iff hRover).2 ((hR ρt).2 fun i hi => ?_)
    -- place the two states at times i and i + 1
    obtain ⟨ρ', hss, htr, -⟩ := TS.realize hw hs
      (fun m => if m ≤ i then ts.stateVars.map ρs else ts.stateVars.map ρt)
      (fun m => by split <;> exact ⟨_, rfl⟩) 0 0
    have e1 : ts.stateAt ρ' i = ts.stateVars.map ρs := by rw [hss]; simp
    have e2 : ts.stateAt ρ' ((i : Int) + 1) = ts.stateVars.map ρt := by
      have := hss (i + 1)
      have hle : ¬ i + 1 ≤ i := by omega
      simpa [hle] using this
    have hc : (kConjunct ts inv (i + 1)).holds ρ' := by
      right
      have hm : (((i + 1 : Nat) : Int) - 1) = i := by omega
      simp only [hm]
      refine ⟨(TS.den_at hinv).1 (by rw [e1]; exact hsinv), htr i ?_⟩
      have hle : ¬ i + 1 ≤ i := by omega
      simp only [Nat.le_refl, if_true, hle, if_false]; exact hst
    cases i with
    | zero =>
      have := h0 hi ρ' hc
      simp only [Int.natCast_zero, Int.zero_add] at e2
      rw [e2] at this
      exact (TS.den_iff (hJ 0 hi)).1 this
    | succ i =>
      have := hS' i hi ρ' (by
        have e1' : ts.stateAt ρ' ((i : Int) + 1) = ts.stateVars.map ρs := by simpa using e1
        rw [e1']; exact (TS.den_iff (hJ i (by omega))).2 (hRs i (by omega))) hc
      have e2' : ts.stateAt ρ' ((i : Int) + 2) = ts.stateVars.map ρt := by
        have e3 : (((i + 1 : Nat) : Int) + 1) = (i : Int) + 2 := by omega
        rwa [e3] at e2
      rw [e2'] at this
      exact (TS.den_iff (hJ (i + 1) hi)).1 this

/-- **C20** A `k`-inductive invariant passes the check: with a backend that decides, `unfoldSingleQuery` never throws on one. -/
theorem C20_no_throw (S : Smt T) (hS : S.Sound) (hc : S.Complete) (ts : TS T)
    (inv : Fla T) (hinv : ts.Over inv) (k : Nat) (hk : ts.sem.KInductive k (ts.den inv)) :
    (unfoldSingleQuery S ts inv k).isSome := by
  unfold unfoldSingleQuery
  rcases hc (kQuery ts inv k) with h | h
  · exfalso
    have hm := hS.sat _ h
    generalize S.model (kQuery ts inv k) = ρ at hm
    have hconj : ∀ i, i < k → (kConjunct ts inv (i + 1)).holds ρ := by
      intro i hi
      apply hm
      rw [← kQuery_get hi]
      exact List.getElem_mem _
    have hneg : ¬ (sendFla inv k).holds ρ := hm (.not (sendFla inv k)) (by simp [kQuery])
    have key : ∀ i : Nat, i ≤ k → (∃ m, m < i ∧ ts.sem.ReachIn m (ts.stateAt ρ i)) ∨
        ts.sem.PathIn (ts.den inv) i (ts.stateAt ρ 0) (ts.stateAt ρ i) := by
      intro i
      induction i with
      | zero => intro _; exact Or.inr (.refl _)
      | succ i ih =>
        intro hi
        have hc := hconj i (by omega)
        rcases hc with hc | ⟨h1, h2⟩
        · left
          exact ⟨0, by omega, _, TS.init_at hc, .refl _⟩
        · have e : (((i + 1 : Nat) : Int) - 1) = i := by omega
          rw [e] at h1 h2
          have hst := TS.step_at h2
          have hp := (TS.den_at hinv).2 h1
          have e' : ((i + 1 : Nat) : Int) = (i : Int) + 1 := by omega
          rw [e']
          rcases ih (by omega) with ⟨m, hm, s, hs, p⟩ | p
          · exact Or.inl ⟨m + 1, by omega, s, hs, .snoc p hst⟩
          · exact Or.inr (.snoc p hp hst)
    apply hneg
    rw [← TS.den_at hinv]
    rcases key k (Nat.le_refl _) with ⟨m, hm, hr⟩ | p
    · exact hk.base m hm _ hr
    · exact hk.step _ _ p
  · rw [if_pos h]; rfl

/-- **C20** `kinductiveToInductive`: for a `k`-inductive invariant the result (if any) is inductive and implies it. -/
theorem C20_kinductiveToInductive (S : Smt T) (hS : S.Sound) (ts : TS T) (hw : ts.WF) (hs : ts.AuxSep) (inv : Fla T)
    (hinv : ts.Over inv) (k : Nat) (hk : ts.sem.KInductive k (ts.den inv)) (R : Fla T)
    (h : kinductiveToInductive S ts inv k = some R) :
    ts.Over R ∧ ts.sem.Inductive (ts.den R) ∧ ∀ s, ts.den R s → ts.den inv s := by
  unfold kinductiveToInductive at h
  split at h
  · rename_i h1
    subst h1
    simp only [Option.some.injEq] at h
    subst h
    refine ⟨hinv, ⟨fun s hs => hk.base 0 (by omega) s ⟨s, hs, .refl _⟩, fun s t hs hst => ?_⟩, fun s hs => hs⟩
    exact hk.step s t (.snoc (.refl _) hs hst)
  · exact C20_unfoldSingleQuery S hS ts hw hs inv hinv k R h

end Golem
