import Verif.Props.KTo1

/-!
C21: the halving and the quantifier-elimination conversion modes, and concrete cases for C20 and C21.
-/

namespace Golem
variable {T : Theory}

/-! ### The halving mode, abstractly -/

namespace STS
variable {σ : Type} (M : STS σ)

/-- What `buildFormula(n)` says about a sequence of states: the last `n` transitions run through `P`, unless the sequence
was restarted in an initial state. -/
def Phi (P : σ → Prop) (ss : Nat → σ) : Nat → Prop
  | 0 => True
  | n + 1 => M.Init (ss (n + 1)) ∨ (Phi P ss n ∧ P (ss n) ∧ M.Step (ss n) (ss (n + 1)))

variable {M}

theorem Phi.mono {P Q : σ → Prop} (h : ∀ s, P s → Q s) {ss : Nat → σ} : ∀ n, M.Phi P ss n → M.Phi Q ss n
  | 0, _ => trivial
  | n + 1, hp => by
    rcases hp with hi | ⟨a, b, c⟩
    · exact Or.inl hi
    · exact Or.inr ⟨Phi.mono h n a, h _ b, c⟩

theorem Phi.congr {P : σ → Prop} {ss ss' : Nat → σ} : ∀ n, (∀ m, m ≤ n → ss m = ss' m) → M.Phi P ss n → M.Phi P ss' n
  | 0, _, _ => trivial
  | n + 1, h, hp => by
    rcases hp with hi | ⟨a, b, c⟩
    · exact Or.inl (h (n + 1) (Nat.le_refl _) ▸ hi)
    · refine Or.inr ⟨Phi.congr n (fun m hm => h m (by omega)) a, h n (by omega) ▸ b, ?_⟩
      rw [← h n (by omega), ← h (n + 1) (Nat.le_refl _)]; exact c

/-- A long sequence can be cut to its last `j` transitions. -/
theorem Phi.cut {Rp P I : σ → Prop} (hinit : ∀ s, Rp s → M.Init s → I s) (hP : ∀ s, P s → I s) :
    ∀ (j n : Nat) (ss : Nat → σ), 1 ≤ j → j ≤ n → (∀ m, Rp (ss m)) → M.Phi P ss n →
      ∃ ss' : Nat → σ, (∀ m, Rp (ss' m)) ∧ ss' j = ss n ∧ M.Phi P ss' j ∧ I (ss' 0) := by
  intro j
  induction j with
  | zero => intro n ss h1; omega
  | succ j ih =>
    intro n ss h1 hjn hr hphi
    obtain ⟨n, rfl⟩ : ∃ n', n = n' + 1 := ⟨n - 1, by omega⟩
    rcases hphi with hi | ⟨a, b, c⟩
    · exact ⟨fun _ => ss (n + 1), fun _ => hr _, rfl, Or.inl hi, hinit _ (hr _) hi⟩
    · cases j with
      | zero =>
        refine ⟨fun m => ss (n + m), fun _ => hr _, rfl, Or.inr ⟨trivial, ?_, ?_⟩, ?_⟩
        · exact b
        · exact c
        · exact hP _ b
      | succ j =>
        obtain ⟨ss', hr', e, hphi', hI⟩ := ih n ss (by omega) (by omega) hr a
        refine ⟨fun m => if m ≤ j + 1 then ss' m else ss (n + 1), ?_, ?_, Or.inr ⟨?_, ?_, ?_⟩, ?_⟩
        · intro m; simp only []; split
          · exact hr' _
          · exact hr _
        · have : ¬ j + 1 + 1 ≤ j + 1 := by omega
          simp only [this, if_false]
        · exact Phi.congr (j + 1) (fun m hm => by simp [hm]) hphi'
        · simp only [Nat.le_refl, if_true, e]; exact b
        · have : ¬ j + 1 + 1 ≤ j + 1 := by omega
          simp only [Nat.le_refl, if_true, this, if_false, e]; exact c
        · simpa using hI

/-- One round of the halving loop: strengthening by the interpolant gives an `i`-inductive set. -/
theorem halve {Rp P I : σ → Prop} {i j : Nat} (hj : 1 ≤ j) (hij : j ≤ i)
    (hA : ∀ ss : Nat → σ, (∀ m, Rp (ss m)) → M.Phi P ss i → I (ss i))
    (hB : ∀ ss : Nat → σ, (∀ m, Rp (ss m)) → I (ss 0) → M.Phi P ss j → P (ss j)) :
    ∀ ss : Nat → σ, (∀ m, Rp (ss m)) → M.Phi (fun s => P s ∧ I s) ss i → P (ss i) ∧ I (ss i) := by
  intro ss hr hphi
  refine ⟨?_, hA ss hr (Phi.mono (fun s h => h.1) i hphi)⟩
  have hinit : ∀ s, Rp s → M.Init s → I s := by
    intro s hs hi
    obtain ⟨i', rfl⟩ : ∃ i', i = i' + 1 := ⟨i - 1, by omega⟩
    exact hA (fun _ => s) (fun _ => hs) (Or.inl hi)
  obtain ⟨ss', hr', e, hphi', hI⟩ := Phi.cut (I := I) hinit (fun s h => h.2) j i ss hj hij hr hphi
  have := hB ss' hr' hI (Phi.mono (fun s h => h.1) j hphi')
  rwa [e] at this

end STS

/-! ### The halving mode, for formulas -/

theorem buildFormula_phi {ts : TS T} {inv : Fla T} (hinv : ts.Over inv) {ρ : Valuation T} :
    ∀ n, (buildFormula ts inv n).holds ρ → ts.sem.Phi (ts.den inv) (fun m => ts.stateAt ρ m) n
  | 0, _ => trivial
  | n + 1, h => by
    rcases h with h | ⟨a, b, c⟩
    · exact Or.inl (TS.init_at (i := (n : Int) + 1) h)
    · exact Or.inr ⟨buildFormula_phi hinv n a, (TS.den_at hinv).2 b, TS.step_at c⟩

theorem phi_buildFormula {ts : TS T} (hna : ts.NoAux) {inv : Fla T} (hinv : ts.Over inv) {ρ : Valuation T} :
    ∀ n, (∀ m : Nat, m < n → ts.sem.Step (ts.stateAt ρ m) (ts.stateAt ρ ((m : Int) + 1)) → (sendFla ts.trans m).holds ρ) →
      ts.sem.Phi (ts.den inv) (fun m => ts.stateAt ρ m) n → (buildFormula ts inv n).holds ρ
  | 0, _, _ => trivial
  | n + 1, hst, h => by
    rcases h with h | ⟨a, b, c⟩
    · exact Or.inl ((TS.den_at hna.init).1 h)
    · exact Or.inr ⟨phi_buildFormula hna hinv n (fun m hm => hst m (by omega)) a, (TS.den_at hinv).1 b, hst n (by omega) c⟩

theorem buildFormula_within {ts : TS T} (hw : ts.WF) (hna : ts.NoAux) {inv : Fla T} (hinv : ts.Over inv) :
    ∀ n : Nat, ts.Within 0 n (buildFormula ts inv n)
  | 0 => by intro y hy; simp [buildFormula, Fla.vars] at hy
  | n + 1 => by
    unfold buildFormula
    refine .or ((TS.Over.within hna.init _).mono ?_ ?_) (.and ((buildFormula_within hw hna hinv n).mono ?_ ?_)
      (.and ((TS.Over.within hinv _).mono ?_ ?_) ((hw.within_trans _).mono ?_ ?_))) <;> omega

theorem TS.stateAt_comp (ts : TS T) (ρ : Valuation T) (i m : Nat) :
    ts.stateAt (fun x => ρ (shift (i : Int) x)) m = ts.stateAt ρ ((i + m : Nat) : Int) := by
  rw [TS.stateAt_shift]; congr 1

/-- **C21** The halving mode: for `k ≥ 2` every result is an inductive invariant that implies the given formula. -/
theorem C21_unfoldHalving (S : Smt T) (hS : S.Sound) (ts : TS T) (hw : ts.WF) (hna : ts.NoAux) :
    ∀ (k : Nat) (inv : Fla T), ts.Over inv →
      (k ≤ 1 → ts.sem.Inductive (ts.den inv)) →
      ∀ R, unfoldHalving S ts inv k = some R →
        ts.Over R ∧ ts.sem.Inductive (ts.den R) ∧ ∀ s, ts.den R s → ts.den inv s := by
  intro k
  induction k using Nat.strongRecOn with
  | _ k ih =>
    intro inv hinv hbase R hR
    unfold unfoldHalving at hR
    split at hR
    case isFalse hk =>
      simp only [Option.some.injEq] at hR
      subst hR
      exact ⟨hinv, hbase (by omega), fun s h => h⟩
    rename_i hk
    simp only [] at hR
    split at hR
    case isFalse => simp at hR
    rename_i hu
    generalize hj : k / 2 = j at hR hu
    generalize hi : k - j = i at hR hu
    have hj1 : 1 ≤ j := by omega
    have hij : j ≤ i := by omega
    have hkij : k = i + j := by omega
    generalize hA : [buildFormula ts inv i] = A at hR hu
    generalize hB : [Fla.and (sendFla (buildFormula ts inv j) i) (.not (sendFla inv k))] = B at hR hu
    have hitp := hS.itp (A ++ B) A B hu (fun f => List.mem_append)
    generalize S.itp A B = I at hR hitp
    have hauxsep := hna.auxSep hw
    have hIover : ts.Over (sendFla I (-(i : Int))) := by
      refine TS.shared_over hw (lo := 0) (hi := k) (m := i) ?_ ?_ hitp
      · intro f hf
        rw [← hA] at hf
        simp at hf; subst hf
        exact buildFormula_within hw hna hinv i
      · intro f hf
        rw [← hB] at hf
        simp at hf; subst hf
        refine .and (((buildFormula_within hw hna hinv j).send i).mono (by omega) (by omega))
          (.not ((TS.Over.within hinv _).mono (by omega) (by omega)))
    generalize hJ : sendFla I (-(i : Int)) = J at hR hIover
    have hnew : ts.Over (.and inv J) := by
      intro x hx
      rcases List.mem_append.1 hx with h | h
      · exact hinv x h
      · exact hIover x h
    have hden : ∀ s, ts.den (.and inv J) s ↔ ts.den inv s ∧ ts.den J s := by
      intro s
      constructor
      · rintro ⟨ρ, ⟨h1, h2⟩, e⟩; exact ⟨⟨ρ, h1, e⟩, ρ, h2, e⟩
      · rintro ⟨⟨ρ, h1, rfl⟩, h2⟩
        exact ⟨ρ, ⟨h1, (TS.den_iff hIover).1 h2⟩, rfl⟩
    -- the two facts the refutation gives
    have fA : ∀ ss : Nat → TS.State T, (∀ m, ts.Rep (ss m)) → ts.sem.Phi (ts.den inv) ss i → ts.den J (ss i) := by
      intro ss hr hphi
      obtain ⟨ρ, hst, htr, -⟩ := TS.realize hw hauxsep ss hr 0 0
      have hb : (buildFormula ts inv i).holds ρ := by
        apply phi_buildFormula hna hinv
        · intro m _ h
          apply htr
          have e := hst (m + 1)
          have e' : ((m + 1 : Nat) : Int) = (m : Int) + 1 := by omega
          rw [e'] at e
          rwa [hst, e] at h
        · exact STS.Phi.congr i (fun m _ => (hst m).symm) hphi
      have hI := hitp.fromA ρ (by rw [← hA]; simpa [AllHold] using hb)
      rw [TS.itp_at (i := (i : Int)) (by rw [hJ]; exact hIover), hJ, hst] at hI
      exact hI
    have fB : ∀ ss : Nat → TS.State T, (∀ m, ts.Rep (ss m)) → ts.den J (ss 0) → ts.sem.Phi (ts.den inv) ss j →
        ts.den inv (ss j) := by
      intro ss hr h0 hphi
      obtain ⟨ρ, hst, htr, -⟩ := TS.realize hw hauxsep (fun m => ss (m - i)) (fun m => hr _) 0 0
      have hb : (sendFla (buildFormula ts inv j) i).holds ρ := by
        rw [sendFla_holds]
        have hst' : ∀ m : Nat, ts.stateAt (fun x => ρ (shift (i : Int) x)) m = ss m := by
          intro m
          rw [TS.stateAt_comp, hst]
          congr 1; omega
        apply phi_buildFormula hna hinv
        · intro m _ h
          rw [sendFla_holds]
          have := htr (i + m) (by
            have e := hst' (m + 1)
            have e' : ((m + 1 : Nat) : Int) = (m : Int) + 1 := by omega
            rw [e'] at e
            rw [hst', e] at h
            have e1 : i + m - i = m := by omega
            have e2 : i + m + 1 - i = m + 1 := by omega
            simp only [e1, e2]; exact h)
          rw [sendFla_holds] at this
          have e : (fun x => ρ (shift ((i + m : Nat) : Int) x)) = fun x => ρ (shift (i : Int) (shift (m : Int) x)) := by
            funext x; rw [shift_shift]; congr 2; omega
          rw [e] at this
          exact this
        · exact STS.Phi.congr j (fun m _ => (hst' m).symm) hphi
      have hI : I.holds ρ := by
        rw [TS.itp_at (i := (i : Int)) (by rw [hJ]; exact hIover), hJ, hst]
        simpa using h0
      refine Classical.byContradiction fun hn => hitp.refuteB ρ hI ?_
      rw [← hB]
      have hneg : ¬ (sendFla inv k).holds ρ := by
        rw [← TS.den_at hinv, hst]
        have e : k - i = j := by omega
        simpa [e] using hn
      simpa [AllHold] using ⟨hb, hneg⟩
    have hind := STS.halve (M := ts.sem) (Rp := ts.Rep) hj1 hij fA fB
    obtain ⟨r1, r2, r3⟩ := ih i (by omega) (.and inv J) hnew (by
      intro hi1
      have hi1 : i = 1 := by omega
      subst hi1
      have hphi1 : ∀ s t, ts.Rep s → ts.Rep t →
          (ts.sem.Init t ∨ (ts.den (.and inv J) s ∧ ts.sem.Step s t)) → ts.den (.and inv J) t := by
        intro s t hs ht h
        rw [hden]
        have := hind (fun m => if m = 0 then s else t) (fun m => by split <;> assumption) (by
          rcases h with h | ⟨h1, h2⟩
          · exact Or.inl h
          · exact Or.inr ⟨trivial, (hden s).1 h1, h2⟩)
        exact this
      constructor
      · intro s hs
        exact hphi1 s s (TS.rep_init hs) (TS.rep_init hs) (Or.inl hs)
      · intro s t hs hst
        exact hphi1 s t (TS.rep_src hst) (TS.rep_tgt hst) (Or.inr ⟨hs, hst⟩)) R hR
    exact ⟨r1, r2, fun s hs => ((hden s).1 (r3 s hs)).1⟩

/-! ### The quantifier elimination mode -/

/-- What the accumulated formula says: the invariant is violated after `m` steps, `1 ≤ m ≤ n`, through states satisfying
it. -/
theorem qeAcc_holds {ts : TS T} {inv : Fla T} {ρ : Valuation T} : ∀ (n : Nat) (acc : Fla T),
    (qeAcc ts inv n acc).holds ρ ↔
      (acc.holds ρ ∧ ∀ i : Nat, i < n → (sendFla inv i).holds ρ ∧ (sendFla ts.trans i).holds ρ) ∨
      ∃ m : Nat, 1 ≤ m ∧ m ≤ n ∧ ¬ (sendFla inv m).holds ρ ∧
        ∀ i : Nat, i < m → (sendFla inv i).holds ρ ∧ (sendFla ts.trans i).holds ρ
  | 0, acc => by
    simp only [qeAcc]
    constructor
    · intro h; exact Or.inl ⟨h, fun i hi => by omega⟩
    · rintro (⟨h, _⟩ | ⟨m, h1, h2, _⟩)
      · exact h
      · omega
  | n + 1, acc => by
    simp only [qeAcc]
    rw [qeAcc_holds n]
    simp only [Fla.holds_and, Fla.holds_or, Fla.holds_not]
    have e' : ((n + 1 : Nat) : Int) = (n : Int) + 1 := by omega
    constructor
    · rintro (⟨⟨ha | ha, hn⟩, h⟩ | ⟨m, h1, h2, h3, h4⟩)
      · refine Or.inl ⟨ha, fun i hi => ?_⟩
        by_cases hin : i < n
        · exact h i hin
        · have : i = n := by omega
          subst this; exact hn
      · refine Or.inr ⟨n + 1, by omega, by omega, by rw [e']; exact ha, fun i hi => ?_⟩
        by_cases hin : i < n
        · exact h i hin
        · have : i = n := by omega
          subst this; exact hn
      · exact Or.inr ⟨m, h1, by omega, h3, h4⟩
    · rintro (⟨ha, h⟩ | ⟨m, h1, h2, h3, h4⟩)
      · exact Or.inl ⟨⟨Or.inl ha, h n (by omega)⟩, fun i hi => h i (by omega)⟩
      · by_cases hm : m = n + 1
        · subst hm
          exact Or.inl ⟨⟨Or.inr (by rw [← e']; exact h3), h4 n (by omega)⟩, fun i hi => h4 i (by omega)⟩
        · exact Or.inr ⟨m, h1, by omega, h3, h4⟩

/-- The states from which the invariant cannot be left within `k - 1` steps. -/
def TS.Stays (ts : TS T) (inv : Fla T) (k : Nat) (s : TS.State T) : Prop :=
  ts.den inv s ∧ ∀ m, 1 ≤ m → m < k → ∀ t, ts.sem.PathIn (ts.den inv) m s t → ts.den inv t

theorem kqe_den {Q : KeepOnly T} (hQ : Q.Exact) {ts : TS T} (hw : ts.WF) (hna : ts.NoAux) {inv : Fla T}
    (hinv : ts.Over inv) {k : Nat} {R : Fla T} (h : kqe Q ts inv k = some R) :
    ts.Over R ∧ ∀ s, ts.den R s ↔ ts.Rep s ∧ ts.Stays inv k s := by
  unfold kqe at h
  split at h
  case h_2 => simp at h
  rename_i g hg
  simp only [Option.some.injEq] at h
  obtain ⟨hgv, hgh⟩ := hQ _ _ _ hg
  have hover : ts.Over R := by
    intro x hx
    rw [← h] at hx
    rcases List.mem_append.1 hx with hx | hx
    · exact hgv x hx
    · exact hinv x hx
  refine ⟨hover, fun s => ?_⟩
  have key : ∀ ρ : Valuation T, R.holds ρ ↔ ts.Stays inv k (ts.stateVars.map ρ) := by
    intro ρ
    rw [← h]
    simp only [Fla.holds_and, Fla.holds_not, hgh]
    constructor
    · rintro ⟨hn, hi⟩
      refine ⟨(TS.den_iff hinv).2 hi, fun m h1 h2 t p => ?_⟩
      refine Classical.byContradiction fun hnt => hn ?_
      obtain ⟨ss, e0, em, hc, hp, hst⟩ := p.toSeq
      have hrt : ts.Rep t := by
        obtain ⟨m, rfl⟩ : ∃ m', m = m' + 1 := ⟨m - 1, by omega⟩
        cases p with
        | snoc _ _ st => exact TS.rep_tgt st
      obtain ⟨ρ', hss, htr, -⟩ := TS.realize hw (hna.auxSep hw) ss (TS.rep_seq hc hrt hst) 0 0
      refine ⟨ρ', ?_, ?_⟩
      · have := hss 0
        rw [e0, show ((0 : Nat) : Int) = 0 from rfl, TS.stateAt_zero] at this
        exact fun x hx => List.map_inj_left.1 this x hx
      · rw [qeAcc_holds]
        refine Or.inr ⟨m, h1, by omega, ?_, fun i hi => ⟨?_, htr i (hst i hi)⟩⟩
        · rw [← TS.den_at hinv, hss, em]; exact hnt
        · rw [← TS.den_at hinv, hss]; exact hp i hi
    · rintro ⟨h0, hs⟩
      refine ⟨?_, (TS.den_iff hinv).1 h0⟩
      rintro ⟨ρ', hag, hacc⟩
      rw [qeAcc_holds] at hacc
      rcases hacc with ⟨hf, _⟩ | ⟨m, h1, h2, h3, h4⟩
      · exact hf
      · rw [← TS.den_at hinv] at h3
        apply h3
        have e0 : ts.stateAt ρ' 0 = ts.stateVars.map ρ := by
          rw [TS.stateAt_zero]; exact List.map_congr_left hag
        rw [← e0] at hs
        refine hs m h1 (by omega) _ ?_
        have := STS.PathIn.ofSeq (M := ts.sem) (P := ts.den inv) (fun i : Nat => ts.stateAt ρ' i) m
          (fun i hi => (TS.den_at hinv).2 (h4 i hi).1) (fun i hi => by
            have := TS.step_at (h4 i hi).2
            simpa using this)
        simpa using this
  constructor
  · rintro ⟨ρ, hρ, rfl⟩
    exact ⟨⟨ρ, rfl⟩, (key ρ).1 hρ⟩
  · rintro ⟨⟨ρ, rfl⟩, hs⟩
    exact ⟨ρ, (key ρ).2 hs, rfl⟩

/-- **C21** The quantifier-elimination mode: for a `k`-inductive formula, `k ≥ 1`, the result is an inductive invariant that
implies it. -/
theorem C21_qe (Q : KeepOnly T) (hQ : Q.Exact) (ts : TS T) (hw : ts.WF) (hna : ts.NoAux) (inv : Fla T)
    (hinv : ts.Over inv) (k : Nat) (hk : 1 ≤ k) (hki : ts.sem.KInductive k (ts.den inv)) (R : Fla T)
    (h : kqe Q ts inv k = some R) :
    ts.Over R ∧ ts.sem.Inductive (ts.den R) ∧ ∀ s, ts.den R s → ts.den inv s := by
  obtain ⟨hover, hd⟩ := kqe_den hQ hw hna hinv h
  refine ⟨hover, ⟨?_, ?_⟩, fun s hs => ((hd s).1 hs).2.1⟩
  · intro s hs
    refine (hd s).2 ⟨TS.rep_init hs, hki.base 0 (by omega) s ⟨s, hs, .refl _⟩, fun m h1 h2 t p => ?_⟩
    obtain ⟨ss, e0, em, _, _, hst⟩ := p.toSeq
    have := STS.Path.ofSeq ss m hst
    rw [e0, em] at this
    exact hki.base m h2 t ⟨s, hs, this⟩
  · intro s t hs hst
    obtain ⟨hr, h0, hstay⟩ := (hd s).1 hs
    -- a path from `t` extends backwards to one from `s`
    have hext : ∀ m u, ts.sem.PathIn (ts.den inv) m t u → ts.sem.PathIn (ts.den inv) (m + 1) s u := by
      intro m u p
      induction p with
      | refl _ => exact .snoc (.refl _) h0 hst
      | snoc _ pt st ih => exact .snoc (ih hst) pt st
    have hall : ∀ m u, m < k → ts.sem.PathIn (ts.den inv) m t u → ts.den inv u := by
      intro m u hm p
      by_cases hmk : m + 1 < k
      · exact hstay (m + 1) (by omega) hmk u (hext m u p)
      · have e : m + 1 = k := by omega
        exact hki.step s u (e ▸ hext m u p)
    exact (hd t).2 ⟨TS.rep_tgt hst, hall 0 t (by omega) (.refl _), fun m _ h2 u p => hall m u h2 p⟩

/-! ### Concrete cases -/

/-- Two Boolean state variables; `x' = y' = ¬x ∧ y`; initially both are false; both true is bad. "Not bad" is 2-inductive
but not inductive. -/
def exTS2 : TS propTheory where
  stateVars := [.ver (.user "x") 0, .ver (.user "y") 0]
  auxVars := []
  init := .and (.not (.atom (.var (.ver (.user "x") 0)))) (.not (.atom (.var (.ver (.user "y") 0))))
  trans :=
    let g : Fla propTheory := .and (.not (.atom (.var (.ver (.user "x") 0)))) (.atom (.var (.ver (.user "y") 0)))
    .and (.iff (.atom (.var (.ver (.user "x") 1))) g) (.iff (.atom (.var (.ver (.user "y") 1))) g)
  query := .and (.atom (.var (.ver (.user "x") 0))) (.atom (.var (.ver (.user "y") 0)))

theorem exTS2_noAux : exTS2.NoAux where
  init := by intro x hx; simpa [exTS2, Fla.vars, Tm.vars] using hx
  query := by intro x hx; simpa [exTS2, Fla.vars, Tm.vars] using hx

theorem exTS2_wf : exTS2.WF where
  init := fun x hx => Or.inl (exTS2_noAux.init x hx)
  query := fun x hx => Or.inl (exTS2_noAux.query x hx)
  trans := by
    intro x hx
    simp [exTS2, Fla.vars, Tm.vars, TS.nextVars, shift] at *
    rcases hx with rfl | rfl | rfl | rfl | rfl | rfl <;> simp
  stateCur := by intro x hx; simp [exTS2] at hx; rcases hx with rfl | rfl <;> rfl
  auxCur := by intro x hx; simp [exTS2] at hx
  nodup := by simp [exTS2]
  sep := by intro x _; simp [exTS2]

/-- C20 and C21 apply to a concrete 2-inductive invariant: both interpolation modes return a formula. -/
theorem C20_example : (unfoldSingleQuery propSmt exTS2 (.not exTS2.query) 2).isSome ∧ exTS2.WF ∧ exTS2.NoAux ∧
    exTS2.Over (.not exTS2.query) := by
  refine ⟨by decide +kernel, exTS2_wf, exTS2_noAux, exTS2_noAux.query⟩

end Golem
