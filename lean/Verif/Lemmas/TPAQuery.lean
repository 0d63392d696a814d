import Verif.Lemmas.TPA

/-! The reachability queries of TPA. -/

namespace Golem
variable {T : Theory}

@[simp] theorem Outcome.andThen_done {α β : Type} {x : Outcome α} {f : α → Outcome β} {b : β} :
    x.andThen f = .done b ↔ ∃ a, x = .done a ∧ f a = .done b := by
  cases x <;> simp [Outcome.andThen]

@[simp] theorem Outcome.orThrow_done {α : Type} {o : Option α} {a : α} : Outcome.orThrow o = .done a ↔ o = some a := by
  cases o <;> simp [Outcome.orThrow]

/-- What the services of a run must satisfy. -/
structure TpaEnv.Ok (V : TpaEnv T) : Prop where
  S : V.S.Sound
  itp2 : ∀ fs A B, V.S.check fs = .unsat → (∀ f, f ∈ fs ↔ f ∈ A ∨ f ∈ B) → IsItp A B (V.itp2 A B)
  M : V.M.Sound
  simp : SimpOk V.simp

variable {V : TpaEnv T} {ts : TS T}

/-- No pair of a start state and a target state is related. -/
def TS.Excl (ts : TS T) (start target f : Fla T) : Prop := ∀ s t, ts.den start s → ts.den target t → ¬ ts.rel f s t

/-- What a positive answer of an exact query on level `p` means. -/
structure ExHit (ts : TS T) (cnt : Prop) (p : Nat) (start target g : Fla T) (n : Nat) : Prop where
  over : ts.Over g
  nonempty : ∃ s, ts.den g s
  count : cnt → n = 2 ^ (p + 1)
  sub : ∀ t, ts.den g t → ts.den target t
  reach : ∀ t, ts.den g t → ∃ s, ts.den start s ∧ ts.sem.Path (2 ^ (p + 1)) s t

/-- The exact powers over-approximate the paths of `2 ^ p` steps; the solvers hold two composed powers; cached answers are
right. -/
structure PowInv (ts : TS T) (cnt : Prop) (st : TpaState T) : Prop where
  zero : st.exact 0 = some ts.trans
  pure : ∀ p f, p ≠ 0 → st.exact p = some f → ts.PureTr f
  sup : ∀ p f s t, st.exact p = some f → ts.sem.Path (2 ^ p) s t → ts.rel f s t
  comps : ∀ p ρ, AllHold ρ (st.comps (p + 1)) ↔ ∀ f, st.exact p = some f → f.holds ρ ∧ (sendFla f 1).holds ρ
  cache : ∀ p e, e ∈ st.cache p → ExHit ts cnt p e.1.1 e.1.2 e.2.1 e.2.2

/-- Powers are only strengthened, and the invariants are untouched. -/
structure Stronger (st st' : TpaState T) : Prop where
  exact : ∀ p f, st.exact p = some f → ∃ f', st'.exact p = some f' ∧ ∀ ρ, f'.holds ρ → f.holds ρ
  lt : ∀ p f, st.lt p = some f → ∃ f', st'.lt p = some f' ∧ ∀ ρ, f'.holds ρ → f.holds ρ

theorem Stronger.refl (st : TpaState T) : Stronger st st :=
  ⟨fun _ f h => ⟨f, h, fun _ h => h⟩, fun _ f h => ⟨f, h, fun _ h => h⟩⟩

theorem Stronger.trans {a b c : TpaState T} (h : Stronger a b) (h' : Stronger b c) : Stronger a c := by
  constructor
  · intro p f hf
    obtain ⟨f', h1, h2⟩ := h.exact p f hf
    obtain ⟨f'', h3, h4⟩ := h'.exact p f' h1
    exact ⟨f'', h3, fun ρ hρ => h2 ρ (h4 ρ hρ)⟩
  · intro p f hf
    obtain ⟨f', h1, h2⟩ := h.lt p f hf
    obtain ⟨f'', h3, h4⟩ := h'.lt p f' h1
    exact ⟨f'', h3, fun ρ hρ => h2 ρ (h4 ρ hρ)⟩

theorem TS.rel_mono {f f' : Fla T} (h : ∀ ρ : Valuation T, f'.holds ρ → f.holds ρ) {s t} (hr : ts.rel f' s t) : ts.rel f s t := by
  obtain ⟨ρ, h1, h2, h3⟩ := hr
  exact ⟨ρ, h ρ h1, h2, h3⟩

theorem TS.Excl.mono {start target f f' : Fla T} (h : ts.Excl start target f) (hm : ∀ ρ : Valuation T, f'.holds ρ → f.holds ρ) :
    ts.Excl start target f' := fun s t hs ht hr => h s t hs ht (TS.rel_mono hm hr)

/-- What the cache does not touch. -/
theorem PowInv.addCache {cnt : Prop} {st : TpaState T} (h : PowInv ts cnt st) {p : Nat} {start target g : Fla T} {n : Nat}
    (hh : ExHit ts cnt p start target g n) :
    PowInv ts cnt { st with cache := updAt st.cache p (((start, target), (g, n)) :: st.cache p) } := by
  refine ⟨h.zero, h.pure, h.sup, h.comps, ?_⟩
  intro q e he
  simp only [updAt] at he
  split at he
  · rename_i hq; subst hq
    rcases List.mem_cons.1 he with rfl | he
    · exact hh
    · exact h.cache _ e he
  · exact h.cache q e he

/-- Strengthening an exact power. -/
theorem PowInv.store {cnt : Prop} {st st' : TpaState T} (h : PowInv ts cnt st) {p : Nat} {tr : Fla T} (hp : p ≠ 0)
    (hpure : ts.PureTr tr) (hsup : ∀ s t, ts.sem.Path (2 ^ p) s t → ts.rel tr s t) (hst : st.storeExact ts p tr = some st') :
    PowInv ts cnt st' ∧ Stronger st st' ∧ (∃ f, st'.exact p = some f ∧ ∀ ρ, f.holds ρ → tr.holds ρ) ∧
      st'.lt = st.lt ∧ st'.left = st.left ∧ st'.right = st.right := by
  unfold TpaState.storeExact at hst
  split at hst
  · cases hst
  simp only [Option.some.injEq] at hst
  subst hst
  have hconj : ∀ c ρ, (conjoin tr c).holds ρ ↔ tr.holds ρ ∧ c.holds ρ := fun c ρ => C31_conjoin tr c ρ
  have hvars : ∀ c, ts.PureTr c → ts.PureTr (conjoin tr c) := by
    intro c hc x hx
    unfold conjoin at hx
    rw [Fla.mem_vars_conj] at hx
    obtain ⟨f, hf, hx⟩ := hx
    simp only [List.mem_append, List.mem_singleton] at hf
    rcases hf with hf | rfl
    · exact hc x (juncts_vars hf x hx)
    · exact hpure x hx
  refine ⟨⟨?_, ?_, ?_, ?_, h.cache⟩, ⟨?_, fun p f hf => ⟨f, hf, fun _ h => h⟩⟩, ?_, rfl, rfl, rfl⟩
  · simp only [updAt]; rw [if_neg (by omega)]; exact h.zero
  · intro q f hq hf
    simp only [updAt] at hf
    split at hf
    · rename_i e; subst e
      simp only [Option.some.injEq] at hf
      subst hf
      split
      · exact hpure
      · exact hvars _ (h.pure _ _ hq (by assumption))
    · exact h.pure q f hq hf
  · intro q f s t hf hpth
    simp only [updAt] at hf
    split at hf
    · rename_i e; subst e
      simp only [Option.some.injEq] at hf
      subst hf
      split
      · exact hsup s t hpth
      · rename_i c hc
        have h1 := hsup s t hpth
        have h2 := h.sup _ _ s t hc hpth
        have := (TS.rel_and (h.pure _ _ hp hc)).2 ⟨h1, h2⟩
        refine TS.rel_mono (fun ρ hρ => ?_) this
        rw [hconj]; exact hρ
    · exact h.sup q f s t hf hpth
  · intro q ρ
    simp only [updAt]
    by_cases e : q = p
    · subst e
      simp only [if_true, Option.some.injEq]
      have hc := h.comps q ρ
      have : AllHold ρ (st.comps (q + 1) ++ [.and tr (sendFla tr 1)]) ↔
          AllHold ρ (st.comps (q + 1)) ∧ tr.holds ρ ∧ (sendFla tr 1).holds ρ := by
        simp only [AllHold, List.mem_append, List.mem_singleton]
        constructor
        · intro hh
          refine ⟨fun f hf => hh f (.inl hf), ?_⟩
          have := hh _ (.inr rfl)
          rw [Fla.holds] at this
          exact this
        · rintro ⟨h1, h2⟩ f (hf | rfl)
          · exact h1 f hf
          · rw [Fla.holds]; exact h2
      rw [this, hc]
      cases hq : st.exact q with
      | none =>
        constructor
        · rintro ⟨_, h2⟩ f rfl; exact h2
        · intro hh; exact ⟨fun f hf => (by cases hf), hh _ rfl⟩
      | some c =>
        have hs : ∀ ρ, (sendFla (conjoin tr c) 1).holds ρ ↔ (sendFla tr 1).holds ρ ∧ (sendFla c 1).holds ρ := by
          intro ρ; simp only [sendFla_holds, hconj]
        constructor
        · rintro ⟨h1, h2⟩ f rfl
          have := h1 c rfl
          simp only [hconj, hs]
          exact ⟨⟨h2.1, this.1⟩, h2.2, this.2⟩
        · intro hh
          have := hh _ rfl
          simp only [hconj, hs] at this
          exact ⟨fun f hf => (by cases hf; exact ⟨this.1.2, this.2.2⟩), this.1.1, this.2.1⟩
    · have e' : ¬ q + 1 = p + 1 := by omega
      rw [if_neg e', if_neg e]
      exact h.comps q ρ
  · intro q f hf
    simp only [updAt]
    by_cases e : q = p
    · subst e
      simp only [if_true, hf]
      exact ⟨_, rfl, fun ρ hρ => ((hconj _ _).1 hρ).2⟩
    · rw [if_neg e]; exact ⟨f, hf, fun _ h => h⟩
  · simp only [updAt, if_true]
    refine ⟨_, rfl, fun ρ hρ => ?_⟩
    split at hρ
    · exact hρ
    · exact ((hconj _ _).1 hρ).1

/-- What an exact query on level `p` establishes. -/
structure ExPost (ts : TS T) (cnt : Prop) (p : Nat) (start target : Fla T) (st : TpaState T) (r : QRes T) (st' : TpaState T) :
    Prop where
  inv : PowInv ts cnt st'
  str : Stronger st st'
  lt : st'.lt = st.lt
  left : st'.left = st.left
  right : st'.right = st.right
  hit : ∀ g n, r = some (g, n) → ExHit ts cnt p start target g n
  miss : r = none → ∃ f, st'.exact (p + 1) = some f ∧ ts.Excl start target f

theorem ExPost.before {cnt : Prop} {p : Nat} {start target : Fla T} {st st1 st' : TpaState T} {r : QRes T}
    (hs : Stronger st st1) (hl : st1.lt = st.lt) (hleft : st1.left = st.left) (hright : st1.right = st.right)
    (h : ExPost ts cnt p start target st1 r st') : ExPost ts cnt p start target st r st' :=
  ⟨h.inv, hs.trans h.str, h.lt.trans hl, h.left.trans hleft, h.right.trans hright, h.hit, h.miss⟩

theorem TS.den_send {f : Fla T} (hf : ts.Over f) {ρ : Valuation T} {i : Int} :
    (sendFla f i).holds ρ ↔ ts.den f (ts.stateAt ρ i) := (TS.den_at hf).symm

theorem TS.den_zero {f : Fla T} (hf : ts.Over f) {ρ : Valuation T} : f.holds ρ ↔ ts.den f (ts.stateAt ρ 0) := by
  rw [← TS.den_send hf]; simp [sendFla]

theorem TS.send_over {f : Fla T} {k : Int} (h : ∀ x ∈ f.vars, x ∈ ts.varsAt k) : ts.Over (sendFla f (-k)) := by
  intro x hx
  rw [mem_vars_sendFla] at hx
  obtain ⟨y, hy, rfl⟩ := hx
  obtain ⟨z, hz, rfl⟩ := TS.mem_varsAt.1 (h y hy)
  rw [shift_shift]
  simpa [Int.add_right_neg] using hz

theorem TS.over_send {f : Fla T} (h : ts.Over f) (k : Int) : ∀ x ∈ (sendFla f k).vars, x ∈ ts.varsAt k := by
  intro x hx
  rw [mem_vars_sendFla] at hx
  obtain ⟨y, hy, rfl⟩ := hx
  exact TS.mem_varsAt.2 ⟨y, h y hy, rfl⟩

theorem TS.pure_send {f : Fla T} (h : ts.PureTr f) (k : Int) : ∀ x ∈ (sendFla f k).vars, x ∈ ts.varsAt k ∨ x ∈ ts.varsAt (k + 1) := by
  intro x hx
  rw [mem_vars_sendFla] at hx
  obtain ⟨y, hy, rfl⟩ := hx
  rcases h y hy with hm | hm <;> obtain ⟨z, hz, rfl⟩ := TS.mem_varsAt.1 hm
  · exact .inl (TS.mem_varsAt.2 ⟨z, hz, by rw [shift_shift]; simp⟩)
  · exact .inr (TS.mem_varsAt.2 ⟨z, hz, by rw [shift_shift, Int.add_comm]⟩)

/-- `refineTwoStepTarget`: states at instant 2 that are ends of the two steps. -/
theorem tpaRefine_ok (hM : V.M.Sound) {start two target g : Fla T} {m : Valuation T} (hst : ts.Over start) (htg : ts.Over target)
    (hm : (Fla.conj [start, two, sendFla target 2]).holds m) (h : tpaRefine V ts start two (sendFla target 2) m = some g) :
    ts.Over g ∧ (∃ s, ts.den g s) ∧ ∀ t, ts.den g t → ts.den target t ∧
      ∃ ρ : Valuation T, two.holds ρ ∧ ts.den start (ts.stateAt ρ 0) ∧ ts.stateAt ρ 2 = t := by
  unfold tpaRefine mbpKeepOnly at h
  obtain ⟨q, hq, rfl⟩ := Option.map_eq_some_iff.1 h
  obtain ⟨h1, h2, h3⟩ := hM _ _ m q hm hq
  have hov : ∀ x ∈ q.vars, x ∈ ts.varsAt 2 := by
    intro x hx
    obtain ⟨ha, hb⟩ := h2 x hx
    by_cases hc : x ∈ ts.varsAt 2
    · exact hc
    · exact absurd (List.mem_filter.2 ⟨ha, by simpa using hc⟩) hb
  have hover : ts.Over (sendFla q (-2)) := TS.send_over hov
  refine ⟨hover, ⟨ts.stateAt m 2, ?_⟩, ?_⟩
  · rw [TS.den_at hover]
    rw [sendFla_holds, sendFla_holds]
    simpa [shift_shift] using h1
  · rintro t ⟨ρ, hρ, rfl⟩
    rw [sendFla_holds] at hρ
    obtain ⟨ρ', he, hh⟩ := h3 _ hρ
    have hs2 : ts.stateAt ρ' 2 = ts.stateVars.map ρ := by
      apply List.map_congr_left
      intro x hx
      rw [he]
      · rw [shift_shift]; simp
      · intro hmem
        have := (List.mem_filter.1 hmem).2
        simp only [decide_eq_true_eq] at this
        exact this (TS.mem_varsAt.2 ⟨x, hx, rfl⟩)
    rw [Fla.holds_conj] at hh
    refine ⟨?_, ρ', hh _ (by simp), (TS.den_zero hst).1 (hh _ (by simp)), hs2⟩
    rw [← hs2]
    exact (TS.den_at htg).2 (hh _ (by simp))

/-- `extractMidPoint` is a formula over the state variables that holds in the middle of the model. -/
theorem tpaMidPoint_ok (hM : V.M.Sound) {start first second target mid : Fla T} {m : Valuation T} (hst : ts.Over start)
    (htg : ts.Over target) (hf : ts.PureTr first) (hs : ts.PureTr second)
    (h1 : start.holds m) (h2 : first.holds m) (h3 : (sendFla second 1).holds m) (h4 : (sendFla target 2).holds m)
    (h : tpaMidPoint V ts start first (sendFla second 1) (sendFla target 2) m = some mid) :
    ts.Over mid ∧ ts.den mid (ts.stateAt m 1) := by
  unfold tpaMidPoint at h
  simp only [Option.bind_eq_bind, Option.bind_eq_some_iff] at h
  obtain ⟨a, ha, b, hb, he⟩ := h
  simp only [Option.pure_def, Option.some.injEq] at he
  subst he
  obtain ⟨a1, a2, _⟩ := hM _ _ m a (show (Fla.and start first).holds m from ⟨h1, h2⟩) ha
  obtain ⟨b1, b2, _⟩ := hM _ _ m b (show (Fla.and (sendFla target 2) (sendFla second 1)).holds m from ⟨h4, h3⟩) hb
  have hv : ∀ x ∈ (Fla.and a b).vars, x ∈ ts.varsAt 1 := by
    intro x hx
    simp only [Fla.vars, List.mem_append] at hx
    rcases hx with hx | hx
    · obtain ⟨c1, c2⟩ := a2 x hx
      simp only [Fla.vars, List.mem_append] at c1
      rcases c1 with c1 | c1
      · exact absurd (by rw [TS.varsAt_zero]; exact hst x c1) c2
      · exact (hf x c1).resolve_left c2
    · obtain ⟨c1, c2⟩ := b2 x hx
      simp only [Fla.vars, List.mem_append] at c1
      rcases c1 with c1 | c1
      · exact absurd (TS.over_send htg 2 x c1) c2
      · exact (TS.pure_send hs 1 x c1).resolve_right c2
  have hover := TS.send_over hv
  refine ⟨hover, ?_⟩
  rw [TS.den_at hover, sendFla_holds, sendFla_holds]
  simp only [shift_shift]
  simpa using (show (Fla.and a b).holds m from ⟨a1, b1⟩)

/-- The interpolant learned from an unreachable query: a pure relation that contains every pair the first part allows and no
start-target pair. -/
theorem learn_ok (hw : ts.WF) (hs : SimpOk V.simp) {A : List (Fla T)} {start target I : Fla T} (hst : ts.Over start)
    (htg : ts.Over target) (hI : IsItp A [.and start (sendFla target 2)] I) :
    ts.PureTr (ts.cleanItp (V.simp I)) ∧
    (∀ ρ, AllHold ρ A → ts.rel (ts.cleanItp (V.simp I)) (ts.stateAt ρ 0) (ts.stateAt ρ 2)) ∧
    ts.Excl start target (ts.cleanItp (V.simp I)) := by
  have hv : ∀ x ∈ (V.simp I).vars, x ∈ ts.varsAt 0 ∨ x ∈ ts.varsAt 2 := by
    intro x hx
    have := (hI.shared x (hs.vars I x hx)).2
    rw [Fla.mem_vars_conj] at this
    obtain ⟨f, hf, hx⟩ := this
    simp only [List.mem_singleton] at hf
    subst hf
    simp only [Fla.vars, List.mem_append] at hx
    rcases hx with hx | hx
    · rw [TS.varsAt_zero]; exact .inl (hst x hx)
    · exact .inr (TS.over_send htg 2 x hx)
  refine ⟨TS.cleanItp_pure hw hv, fun ρ hρ => ?_, fun s t h1 h2 hr => ?_⟩
  · rw [TS.cleanItp_rel hw hv]
    exact (hs.equiv I ρ).2 (hI.fromA ρ hρ)
  · obtain ⟨ρ, e0, e1, e2⟩ := TS.exists_val3 hw (TS.den_rep h1) (TS.den_rep h2) (TS.den_rep h2)
    rw [← e0, ← e2, TS.cleanItp_rel hw hv] at hr
    refine hI.refuteB ρ ((hs.equiv I ρ).1 hr) ?_
    intro f hf
    simp only [List.mem_singleton] at hf
    subst hf
    refine ⟨(TS.den_zero hst).2 (e0 ▸ h1), (TS.den_send htg).2 (by rw [e2]; exact h2)⟩

/-- The loop of the exact query. -/
theorem exactLoop_ok (hV : V.Ok) (hw : ts.WF) (hs : ts.AuxSep) {cnt : Prop} {steps : Valuation T → Nat}
    (hsteps : cnt → ∀ m, steps m = 2) {power : Nat}
    {sub : Fla T → Fla T → TpaState T → Outcome (QRes T × TpaState T)}
    (hsub : ∀ q, power = q + 1 → ∀ a b st r st', ts.Over a → ts.Over b → PowInv ts cnt st → sub a b st = .done (r, st') →
      ExPost ts cnt q a b st r st')
    {start target : Fla T} (hst : ts.Over start) (htg : ts.Over target) :
    ∀ (fuel : Nat) (st : TpaState T) (r : QRes T) (st' : TpaState T), PowInv ts cnt st →
      exactLoop V ts steps power sub start target fuel st = .done (r, st') → ExPost ts cnt power start target st r st' := by
  intro fuel
  induction fuel with
  | zero => intro st r st' _ h; simp [exactLoop] at h
  | succ fuel ih =>
    intro st r st' hI h
    unfold exactLoop at h
    simp only at h
    split at h
    · rename_i hsat
      have hm := hV.S.sat _ hsat
      generalize V.S.model (st.comps (power + 1) ++ [.and start (sendFla target 2)]) = m at hm h
      have hm1 : AllHold m (st.comps (power + 1)) := fun f hf => hm f (by simp [hf])
      have hm2 : start.holds m ∧ (sendFla target 2).holds m := hm (.and start (sendFla target 2)) (by simp)
      simp only [Outcome.andThen_done, Outcome.orThrow_done] at h
      obtain ⟨prev, hprev, h⟩ := h
      obtain ⟨hp1, hp2⟩ := (hI.comps power m).1 hm1 prev hprev
      split at h
      · rename_i hp0
        subst hp0
        simp only [Outcome.andThen_done, Outcome.orThrow_done] at h
        obtain ⟨g, hg, h⟩ := h
        simp only [Outcome.done.injEq, Prod.mk.injEq] at h
        obtain ⟨rfl, rfl⟩ := h
        have hz := hI.zero
        rw [hprev] at hz; cases hz
        obtain ⟨g1, g2, g3⟩ := tpaRefine_ok hV.M hst htg (by
          rw [Fla.holds_conj]; simp [Fla.holds, hp1, hp2, hm2.1, hm2.2]) hg
        have hh : ExHit ts cnt 0 start target g (steps m) := by
          refine ⟨g1, g2, fun hc => by rw [hsteps hc]; rfl, fun t ht => (g3 t ht).1, fun t ht => ?_⟩
          obtain ⟨_, ρ, hρ, h0, h2⟩ := g3 t ht
          refine ⟨_, h0, ?_⟩
          have s0 := TS.step_at (ts := ts) (i := 0) (ρ := ρ) (by simpa [sendFla] using hρ.1)
          have s1 := TS.step_at (ts := ts) (i := 1) (ρ := ρ) hρ.2
          rw [← h2]
          exact .snoc (.snoc (.refl _) s0) s1
        exact ⟨hI.addCache hh, ⟨fun p f hf => ⟨f, hf, fun _ h => h⟩, fun p f hf => ⟨f, hf, fun _ h => h⟩⟩, rfl, rfl, rfl,
          fun g' n' e => by cases e; exact hh, fun e => by cases e⟩
      · rename_i hp0
        obtain ⟨q, rfl⟩ : ∃ q, power = q + 1 := ⟨power - 1, by omega⟩
        simp only [Outcome.andThen_done, Outcome.orThrow_done] at h
        obtain ⟨mid, hmid, ⟨r1, st1⟩, hr1, h⟩ := h
        have hpp := hI.pure _ _ hp0 hprev
        obtain ⟨hmo, hmd⟩ := tpaMidPoint_ok hV.M hst htg hpp hpp hm2.1 hp1 hp2 hm2.2 hmid
        have P1 := hsub q rfl _ _ _ _ _ hst hmo hI hr1
        cases r1 with
        | none =>
          exact ExPost.before P1.str P1.lt P1.left P1.right (ih _ _ _ P1.inv h)
        | some e =>
          obtain ⟨mid', s1⟩ := e
          have H1 := P1.hit _ _ rfl
          simp only [Outcome.andThen_done] at h
          obtain ⟨⟨r2, st2⟩, hr2, h⟩ := h
          have P2 := hsub q rfl _ _ _ _ _ H1.over htg P1.inv hr2
          cases r2 with
          | none =>
            exact ExPost.before (P1.str.trans P2.str) (P2.lt.trans P1.lt) (P2.left.trans P1.left) (P2.right.trans P1.right)
              (ih _ _ _ P2.inv h)
          | some e2 =>
            obtain ⟨g, s2⟩ := e2
            have H2 := P2.hit _ _ rfl
            simp only [Outcome.done.injEq, Prod.mk.injEq] at h
            obtain ⟨rfl, rfl⟩ := h
            have hh : ExHit ts cnt (q + 1) start target g (s2 + s1) := by
              refine ⟨H2.over, H2.nonempty, fun hc => ?_, H2.sub, fun t ht => ?_⟩
              · rw [H1.count hc, H2.count hc, Nat.pow_succ 2 (q + 1)]; omega
              · obtain ⟨u, hu, p2⟩ := H2.reach t ht
                obtain ⟨s, hs, p1⟩ := H1.reach u hu
                refine ⟨s, hs, ?_⟩
                have := p1.append p2
                rwa [show 2 ^ (q + 1) + 2 ^ (q + 1) = 2 ^ (q + 1 + 1) by rw [Nat.pow_succ 2 (q + 1)]; omega] at this
            have hst := P1.str.trans P2.str
            exact ⟨P2.inv.addCache hh, ⟨hst.exact, hst.lt⟩, P2.lt.trans P1.lt, P2.left.trans P1.left, P2.right.trans P1.right,
              fun g' n' e => by cases e; exact hh, fun e => by cases e⟩
    · rename_i hunsat
      simp only [Outcome.andThen_done, Outcome.orThrow_done] at h
      obtain ⟨st1, hst1, h⟩ := h
      simp only [Outcome.done.injEq, Prod.mk.injEq] at h
      obtain ⟨rfl, rfl⟩ := h
      have hitp := hV.S.itp _ (st.comps (power + 1)) [.and start (sendFla target 2)] hunsat (by simp)
      obtain ⟨l1, l2, l3⟩ := learn_ok hw hV.simp hst htg hitp
      obtain ⟨i1, i2, ⟨f, hf, hff⟩, i4, i5, i6⟩ := hI.store (p := power + 1) (by omega) l1 (by
        intro s t p
        rw [show 2 ^ (power + 1) = 2 ^ power + 2 ^ power by rw [Nat.pow_succ]; omega] at p
        obtain ⟨u, p1, p2⟩ := p.split
        have hpos : 0 < 2 ^ power := Nat.pos_of_ne_zero (by simp)
        obtain ⟨rs, ru⟩ := TS.path_rep_pos hpos p1
        obtain ⟨_, rt⟩ := TS.path_rep_pos hpos p2
        have : ∃ ρ : Valuation T, ts.stateAt ρ 0 = s ∧ ts.stateAt ρ 2 = t ∧ AllHold ρ (st.comps (power + 1)) := by
          by_cases hp0 : power = 0
          · subst hp0
            have q1 : ts.sem.Step s u := by
              cases p1 with | snoc h st => cases h; exact st
            have q2 : ts.sem.Step u t := by
              cases p2 with | snoc h st => cases h; exact st
            obtain ⟨ρ, hρ, htr, _, _⟩ := TS.realize hw hs (fun i => if i = 0 then s else if i = 1 then u else t)
              (fun i => by by_cases h0 : i = 0 <;> by_cases h1 : i = 1 <;> simp [*]) 0 0
            refine ⟨ρ, by simpa using hρ 0, by simpa using hρ 2, ?_⟩
            rw [hI.comps]
            intro f hf
            rw [hI.zero] at hf; cases hf
            have t0 := htr 0 (by simpa using q1)
            have t1 := htr 1 (by simpa using q2)
            exact ⟨by simpa [sendFla] using t0, by simpa using t1⟩
          · obtain ⟨ρ, e0, e1, e2⟩ := TS.exists_val3 hw rs ru rt
            refine ⟨ρ, e0, e2, ?_⟩
            rw [hI.comps]
            intro f hf
            have hpf := hI.pure _ _ hp0 hf
            constructor
            · rw [← TS.rel_iff hpf, e0, e1]; exact hI.sup _ _ _ _ hf p1
            · rw [← TS.rel_at hpf, e1]
              simp only [Int.reduceAdd, e2]
              exact hI.sup _ _ _ _ hf p2
        obtain ⟨ρ, e0, e2, hρ⟩ := this
        rw [← e0, ← e2]
        exact l2 ρ hρ) hst1
      exact ⟨i1, i2, i4, i5, i6, fun g n e => (by cases e), fun _ => ⟨f, hf, l3.mono hff⟩⟩
    · cases h

/-- The exact query. -/
theorem exactQuery_ok (hV : V.Ok) (hw : ts.WF) (hs : ts.AuxSep) {cnt : Prop} {steps : Valuation T → Nat}
    (hsteps : cnt → ∀ m, steps m = 2) (fuel : Nat) :
    ∀ (power : Nat) (start target : Fla T) (st : TpaState T) (r : QRes T) (st' : TpaState T), ts.Over start → ts.Over target →
      PowInv ts cnt st → exactQuery V ts steps fuel power start target st = .done (r, st') →
      ExPost ts cnt power start target st r st' := by
  intro power
  induction power with
  | zero =>
    intro start target st r st' hst htg hI h
    unfold exactQuery at h
    split at h
    · rename_i e he
      simp only [Outcome.done.injEq, Prod.mk.injEq] at h
      obtain ⟨rfl, rfl⟩ := h
      have h1 := List.find?_some he
      have h2 := hI.cache _ _ (List.mem_of_find?_eq_some he)
      simp only [decide_eq_true_eq] at h1
      rw [h1] at h2
      exact ⟨hI, .refl _, rfl, rfl, rfl, fun g n e' => (by simp only [Option.some.injEq] at e'; rw [e'] at h2; exact h2), fun e => by cases e⟩
    · exact exactLoop_ok hV hw hs hsteps (fun q hq => by omega) hst htg _ _ _ _ hI h
  | succ p ih =>
    intro start target st r st' hst htg hI h
    unfold exactQuery at h
    split at h
    · rename_i e he
      simp only [Outcome.done.injEq, Prod.mk.injEq] at h
      obtain ⟨rfl, rfl⟩ := h
      have h1 := List.find?_some he
      have h2 := hI.cache _ _ (List.mem_of_find?_eq_some he)
      simp only [decide_eq_true_eq] at h1
      rw [h1] at h2
      exact ⟨hI, .refl _, rfl, rfl, rfl, fun g n e' => (by simp only [Option.some.injEq] at e'; rw [e'] at h2; exact h2), fun e => by cases e⟩
    · exact exactLoop_ok hV hw hs hsteps (fun q hq => by cases hq; exact fun a b st r st' ha hb hi hh => ih a b st r st' ha hb hi hh)
        hst htg _ _ _ _ hI h

/-- What a positive answer of a less-than query on level `p` means. -/
structure LtHit (ts : TS T) (p : Nat) (start target g : Fla T) (n : Nat) : Prop where
  over : ts.Over g
  nonempty : ∃ s, ts.den g s
  bound : n < 2 ^ (p + 1)
  sub : ∀ t, ts.den g t → ts.den target t
  reach : ∀ t, ts.den g t → ∃ s, ts.den start s ∧ ts.sem.Path n s t

/-- The less-than powers over-approximate the paths of fewer than `2 ^ p` steps. -/
structure LtInv (ts : TS T) (st : TpaState T) : Prop where
  zero : st.lt 0 = some ts.identity
  pure : ∀ p f, st.lt p = some f → ts.PureTr f
  sup : ∀ p f s t m, st.lt p = some f → m < 2 ^ p → ts.Rep s → ts.sem.Path m s t → ts.rel f s t

theorem LtInv.of_eq {st st' : TpaState T} (h : LtInv ts st) (e : st'.lt = st.lt) : LtInv ts st' :=
  ⟨e ▸ h.zero, e ▸ h.pure, e ▸ h.sup⟩

theorem PowInv.of_eq {cnt : Prop} {st st' : TpaState T} (h : PowInv ts cnt st) (e : st'.exact = st.exact) (e2 : st'.comps = st.comps)
    (e3 : st'.cache = st.cache) : PowInv ts cnt st' :=
  ⟨e ▸ h.zero, e ▸ h.pure, e ▸ h.sup, e ▸ e2 ▸ h.comps, e3 ▸ h.cache⟩

theorem IsItp.and {A B : List (Fla T)} {I J : Fla T} (hI : IsItp A B I) (hJ : IsItp A B J) : IsItp A B (.and I J) where
  fromA := fun ρ h => ⟨hI.fromA ρ h, hJ.fromA ρ h⟩
  refuteB := fun ρ h => hI.refuteB ρ h.1
  shared := by
    intro x hx
    simp only [Fla.vars, List.mem_append] at hx
    exact hx.elim (hI.shared x) (hJ.shared x)

/-- Strengthening a less-than power. -/
theorem LtInv.store {cnt : Prop} {st st' : TpaState T} (h : LtInv ts st) (hE : PowInv ts cnt st) {p : Nat} {tr : Fla T} (hp : p ≠ 0)
    (hpure : ts.PureTr tr) (hsup : ∀ s t m, m < 2 ^ p → ts.Rep s → ts.sem.Path m s t → ts.rel tr s t)
    (hst : st.storeLt ts p tr = some st') :
    LtInv ts st' ∧ PowInv ts cnt st' ∧ Stronger st st' ∧ (∃ f, st'.lt p = some f ∧ ∀ ρ, f.holds ρ → tr.holds ρ) ∧
      (∀ q, q ≠ p → st'.lt q = st.lt q) ∧ st'.exact = st.exact ∧ st'.left = st.left ∧ st'.right = st.right := by
  unfold TpaState.storeLt at hst
  split at hst
  · cases hst
  simp only [Option.some.injEq] at hst
  subst hst
  have hconj : ∀ c ρ, (conjoin tr c).holds ρ ↔ tr.holds ρ ∧ c.holds ρ := fun c ρ => C31_conjoin tr c ρ
  have hvars : ∀ c, ts.PureTr c → ts.PureTr (conjoin tr c) := by
    intro c hc x hx
    unfold conjoin at hx
    rw [Fla.mem_vars_conj] at hx
    obtain ⟨f, hf, hx⟩ := hx
    simp only [List.mem_append, List.mem_singleton] at hf
    rcases hf with hf | rfl
    · exact hc x (juncts_vars hf x hx)
    · exact hpure x hx
  refine ⟨⟨?_, ?_, ?_⟩, hE.of_eq rfl rfl rfl, ⟨fun p f hf => ⟨f, hf, fun _ h => h⟩, ?_⟩, ?_, ?_, rfl, rfl, rfl⟩
  · simp only [updAt]; rw [if_neg (by omega)]; exact h.zero
  · intro q f hf
    simp only [updAt] at hf
    split at hf
    · rename_i e; subst e
      simp only [Option.some.injEq] at hf
      subst hf
      split
      · exact hpure
      · exact hvars _ (h.pure _ _ (by assumption))
    · exact h.pure q f hf
  · intro q f s t m hf hm hr hpth
    simp only [updAt] at hf
    split at hf
    · rename_i e; subst e
      simp only [Option.some.injEq] at hf
      subst hf
      split
      · exact hsup s t m hm hr hpth
      · rename_i c hc
        have := (TS.rel_and (h.pure _ _ hc)).2 ⟨hsup s t m hm hr hpth, h.sup _ _ s t m hc hm hr hpth⟩
        refine TS.rel_mono (fun ρ hρ => ?_) this
        rw [hconj]; exact hρ
    · exact h.sup q f s t m hf hm hr hpth
  · intro q f hf
    simp only [updAt]
    by_cases e : q = p
    · subst e
      simp only [if_true, hf]
      exact ⟨_, rfl, fun ρ hρ => ((hconj _ _).1 hρ).2⟩
    · rw [if_neg e]; exact ⟨f, hf, fun _ h => h⟩
  · simp only [updAt, if_true]
    refine ⟨_, rfl, fun ρ hρ => ?_⟩
    split at hρ
    · exact hρ
    · exact ((hconj _ _).1 hρ).1
  · intro q hq
    simp only [updAt, if_neg hq]

/-- No start-target pair is related by `f`, or by `f` followed by `e`. -/
def TS.Excl2 (ts : TS T) (start target f e : Fla T) : Prop := ∀ s t, ts.den start s → ts.den target t →
  ¬ ts.rel f s t ∧ ¬ ∃ u, ts.rel f s u ∧ ts.rel e u t

/-- What a less-than query on level `p` establishes. -/
structure LtPost (ts : TS T) (p : Nat) (start target : Fla T) (st : TpaState T) (r : QRes T) (st' : TpaState T) : Prop where
  ex : PowInv ts True st'
  lt : LtInv ts st'
  str : Stronger st st'
  left : st'.left = st.left
  right : st'.right = st.right
  hit : ∀ g n, r = some (g, n) → LtHit ts p start target g n
  miss : r = none → (∃ f e, st'.lt p = some f ∧ st'.exact p = some e ∧ ts.Excl2 start target f e) ∧
    ∃ f, st'.lt (p + 1) = some f ∧ ts.Excl start target f

theorem LtPost.before {p : Nat} {start target : Fla T} {st st1 st' : TpaState T} {r : QRes T}
    (hs : Stronger st st1) (hleft : st1.left = st.left) (hright : st1.right = st.right)
    (h : LtPost ts p start target st1 r st') : LtPost ts p start target st r st' :=
  ⟨h.ex, h.lt, hs.trans h.str, h.left.trans hleft, h.right.trans hright, h.hit, h.miss⟩

/-- Three states and an exact power between the last two have a common valuation. -/
theorem PowInv.val3 {cnt : Prop} {st : TpaState T} (h : PowInv ts cnt st) (hw : ts.WF) (hs : ts.AuxSep) {p : Nat} {e : Fla T}
    (he : st.exact p = some e) {s u t : TS.State T} (hr : ts.Rep s) (hut : ts.rel e u t) :
    ∃ ρ : Valuation T, ts.stateAt ρ 0 = s ∧ ts.stateAt ρ 1 = u ∧ ts.stateAt ρ 2 = t ∧ (sendFla e 1).holds ρ := by
  obtain ⟨ru, rt⟩ := TS.rel_rep hut
  by_cases hp0 : p = 0
  · subst hp0
    rw [h.zero] at he; cases he
    obtain ⟨ρ, hρ, htr, _, _⟩ := TS.realize hw hs (fun i => if i = 0 then s else if i = 1 then u else t)
      (fun i => by by_cases h0 : i = 0 <;> by_cases h1 : i = 1 <;> simp [*]) 0 0
    have t1 := htr 1 (by simpa using TS.rel_trans.1 hut)
    exact ⟨ρ, by simpa using hρ 0, by simpa using hρ 1, by simpa using hρ 2, by simpa using t1⟩
  · obtain ⟨ρ, e0, e1, e2⟩ := TS.exists_val3 hw hr ru rt
    refine ⟨ρ, e0, e1, e2, ?_⟩
    rw [← TS.rel_at (h.pure _ _ hp0 he), e1]
    simpa only [Int.reduceAdd, e2] using hut

theorem ltTwoStep_holds (hw : ts.WF) {f e : Fla T} (hf : ts.PureTr f) {ρ : Valuation T} :
    (ltTwoStep ts f e).holds ρ ↔ ts.rel f (ts.stateAt ρ 0) (ts.stateAt ρ 2) ∨
      (ts.rel f (ts.stateAt ρ 0) (ts.stateAt ρ 1) ∧ (sendFla e 1).holds ρ) := by
  unfold ltTwoStep
  simp only [Fla.holds]
  rw [TS.shiftNext_holds hw hf, TS.rel_iff hf]

/-- The loop of the less-than query. -/
theorem ltLoop_ok (hV : V.Ok) (hw : ts.WF) (hs : ts.AuxSep) {power : Nat}
    {subLt subEx : Fla T → Fla T → TpaState T → Outcome (QRes T × TpaState T)}
    (hsubLt : ∀ q, power = q + 1 → ∀ a b st r st', ts.Over a → ts.Over b → (a = b → ∃ s, ts.den a s) → PowInv ts True st →
      LtInv ts st → subLt a b st = .done (r, st') → LtPost ts q a b st r st')
    (hsubEx : ∀ q, power = q + 1 → ∀ a b st r st', ts.Over a → ts.Over b → PowInv ts True st → subEx a b st = .done (r, st') →
      ExPost ts True q a b st r st')
    {start target : Fla T} (hst : ts.Over start) (htg : ts.Over target) (hne : start = target → ∃ s, ts.den start s) :
    ∀ (fuel : Nat) (st : TpaState T) (r : QRes T) (st' : TpaState T), PowInv ts True st → LtInv ts st →
      ltLoop V ts power subLt subEx start target fuel st = .done (r, st') → LtPost ts power start target st r st' := by
  intro fuel
  induction fuel with
  | zero => intro st r st' _ _ h; simp [ltLoop] at h
  | succ fuel ih =>
    intro st r st' hI hL h
    unfold ltLoop at h
    simp only [Outcome.andThen_done, Outcome.orThrow_done] at h
    obtain ⟨prev, hprev, exact, hexact, h⟩ := h
    have hpp := hL.pure _ _ hprev
    split at h
    · rename_i hunsat
      simp only [Outcome.andThen_done, Outcome.orThrow_done] at h
      obtain ⟨st1, hst1, h⟩ := h
      simp only [Outcome.done.injEq, Prod.mk.injEq] at h
      obtain ⟨rfl, rfl⟩ := h
      have hitp := (hV.S.itp _ [ltTwoStep ts prev exact] [.and start (sendFla target 2)] hunsat (by simp)).and
        (hV.itp2 _ [ltTwoStep ts prev exact] [.and start (sendFla target 2)] hunsat (by simp))
      obtain ⟨l1, l2, l3⟩ := learn_ok hw hV.simp hst htg hitp
      have hA : ∀ ρ, (ltTwoStep ts prev exact).holds ρ → AllHold ρ [ltTwoStep ts prev exact] := by
        intro ρ h f hf; simp only [List.mem_singleton] at hf; subst hf; exact h
      obtain ⟨i1, i2, i3, ⟨f, hf, hff⟩, i5, i6, i7, i8⟩ := hL.store hI (p := power + 1) (by omega) l1 (by
        intro s t m hm hr p
        by_cases hmp : m < 2 ^ power
        · have h1 := hL.sup _ _ _ _ _ hprev hmp hr p
          obtain ⟨ρ, e0, e1, e2⟩ := TS.exists_val3 hw hr hr (TS.rel_rep h1).2
          rw [← e0, ← e2]
          refine l2 ρ (hA ρ ?_)
          rw [ltTwoStep_holds hw hpp, e0, e2]
          exact .inl h1
        · obtain ⟨j, rfl⟩ : ∃ j, m = j + 2 ^ power := ⟨m - 2 ^ power, by omega⟩
          obtain ⟨u, p1, p2⟩ := p.split
          have h1 := hL.sup _ _ _ _ _ hprev (by rw [Nat.pow_succ] at hm; omega) hr p1
          have h2 := hI.sup _ _ _ _ hexact p2
          obtain ⟨ρ, e0, e1, e2, he⟩ := hI.val3 hw hs hexact hr h2
          rw [← e0, ← e2]
          refine l2 ρ (hA ρ ?_)
          rw [ltTwoStep_holds hw hpp, e0, e1]
          exact .inr ⟨h1, he⟩) hst1
      refine ⟨i2, i1, i3, i7, i8, fun g n e => (by cases e), fun _ => ⟨?_, ⟨f, hf, l3.mono hff⟩⟩⟩
      refine ⟨prev, exact, (by rw [i5 _ (by omega)]; exact hprev), (by rw [i6]; exact hexact), ?_⟩
      intro s t h1 h2
      have hno := hV.S.unsat _ hunsat
      have key : ∀ ρ : Valuation T, ts.stateAt ρ 0 = s → ts.stateAt ρ 2 = t → ¬ (ltTwoStep ts prev exact).holds ρ := by
        intro ρ e0 e2 hh
        refine hno ⟨ρ, fun f hf => ?_⟩
        simp only [List.cons_append, List.nil_append, List.mem_cons, List.not_mem_nil, or_false] at hf
        rcases hf with rfl | rfl
        · exact hh
        · exact ⟨(TS.den_zero hst).2 (e0 ▸ h1), (TS.den_send htg).2 (by rw [e2]; exact h2)⟩
      constructor
      · intro hr
        obtain ⟨ρ, e0, e1, e2⟩ := TS.exists_val3 hw (TS.den_rep h1) (TS.den_rep h1) (TS.den_rep h2)
        refine key ρ e0 e2 ?_
        rw [ltTwoStep_holds hw hpp, e0, e2]; exact .inl hr
      · rintro ⟨u, hr1, hr2⟩
        obtain ⟨ρ, e0, e1, e2, he⟩ := hI.val3 hw hs hexact (TS.den_rep h1) hr2
        refine key ρ e0 e2 ?_
        rw [ltTwoStep_holds hw hpp, e0, e1]; exact .inr ⟨hr1, he⟩
    · rename_i hsat
      have hm := hV.S.sat _ hsat
      generalize V.S.model ([ltTwoStep ts prev exact] ++ [.and start (sendFla target 2)]) = m at hm h
      have hm1 : (ltTwoStep ts prev exact).holds m := hm _ (by simp)
      have hm2 : start.holds m ∧ (sendFla target 2).holds m := hm (.and start (sendFla target 2)) (by simp)
      have hsne : ∃ s, ts.den start s := ⟨_, (TS.den_zero hst).1 hm2.1⟩
      split at h
      · rename_i hfirst
        split at h
        · rename_i hp0
          subst hp0
          simp only [Outcome.done.injEq, Prod.mk.injEq] at h
          obtain ⟨rfl, rfl⟩ := h
          have hz := hL.zero
          rw [hprev] at hz; cases hz
          rw [TS.shiftNext_holds hw hpp, TS.rel_identity hw] at hfirst
          have hov : ts.Over (.and start target) := by
            intro x hx
            simp only [Fla.vars, List.mem_append] at hx
            exact hx.elim (hst x) (htg x)
          refine ⟨hI, hL, .refl _, rfl, rfl, fun g n e => ?_, fun e => by cases e⟩
          cases e
          refine ⟨hov, ⟨ts.stateAt m 0, ?_⟩, Nat.pos_of_ne_zero (by simp), ?_, ?_⟩
          · rw [← TS.den_zero hov]
            refine ⟨hm2.1, ?_⟩
            rw [TS.den_zero htg, hfirst.1]
            exact (TS.den_send htg).1 hm2.2
          · rintro t ⟨ρ, hρ, rfl⟩; exact ⟨ρ, hρ.2, rfl⟩
          · rintro t ⟨ρ, hρ, rfl⟩; exact ⟨_, ⟨ρ, hρ.1, rfl⟩, .refl _⟩
        · rename_i hp0
          obtain ⟨q, rfl⟩ : ∃ q, power = q + 1 := ⟨power - 1, by omega⟩
          simp only [Outcome.andThen_done] at h
          obtain ⟨⟨r1, st1⟩, hr1, h⟩ := h
          have P1 := hsubLt q rfl _ _ _ _ _ hst htg hne hI hL hr1
          cases r1 with
          | none => exact LtPost.before P1.str P1.left P1.right (ih _ _ _ P1.ex P1.lt h)
          | some e =>
            simp only [Outcome.done.injEq, Prod.mk.injEq] at h
            obtain ⟨rfl, rfl⟩ := h
            refine ⟨P1.ex, P1.lt, P1.str, P1.left, P1.right, fun g n e' => ?_, fun e => by cases e⟩
            have H := P1.hit g n e'
            exact ⟨H.over, H.nonempty, Nat.lt_of_lt_of_le H.bound (Nat.pow_le_pow_right (by omega) (by omega)), H.sub, H.reach⟩
      · rename_i hfirst
        have hm3 : prev.holds m ∧ (sendFla exact 1).holds m := by
          rcases hm1 with h1 | h1
          · exact absurd h1 hfirst
          · exact h1
        split at h
        · rename_i hp0
          subst hp0
          simp only [Outcome.andThen_done, Outcome.orThrow_done] at h
          obtain ⟨g, hg, h⟩ := h
          simp only [Outcome.done.injEq, Prod.mk.injEq] at h
          obtain ⟨rfl, rfl⟩ := h
          have hz := hI.zero
          rw [hexact] at hz; cases hz
          have hz := hL.zero
          rw [hprev] at hz; cases hz
          obtain ⟨g1, g2, g3⟩ := tpaRefine_ok hV.M hst htg (by
            rw [Fla.holds_conj]; simp [Fla.holds, hm3.1, hm3.2, hm2.1, hm2.2]) hg
          refine ⟨hI, hL, .refl _, rfl, rfl, fun g' n e => ?_, fun e => by cases e⟩
          cases e
          refine ⟨g1, g2, by decide, fun t ht => (g3 t ht).1, fun t ht => ?_⟩
          obtain ⟨_, ρ, hρ, h0, h2⟩ := g3 t ht
          refine ⟨_, h0, ?_⟩
          have s1 := TS.step_at (ts := ts) (i := 1) (ρ := ρ) hρ.2
          have s0 := TS.identity_at.1 hρ.1
          rw [← h2, s0]
          exact .snoc (.refl _) s1
        · rename_i hp0
          obtain ⟨q, rfl⟩ : ∃ q, power = q + 1 := ⟨power - 1, by omega⟩
          simp only [Outcome.andThen_done, Outcome.orThrow_done] at h
          obtain ⟨mid, hmid, ⟨r1, st1⟩, hr1, h⟩ := h
          obtain ⟨hmo, hmd⟩ := tpaMidPoint_ok hV.M hst htg hpp (hI.pure _ _ hp0 hexact) hm2.1 hm3.1 hm3.2 hm2.2 hmid
          have P1 := hsubLt q rfl _ _ _ _ _ hst hmo (fun _ => hsne) hI hL hr1
          cases r1 with
          | none => exact LtPost.before P1.str P1.left P1.right (ih _ _ _ P1.ex P1.lt h)
          | some e =>
            obtain ⟨mid', s1⟩ := e
            have H1 := P1.hit _ _ rfl
            simp only [Outcome.andThen_done] at h
            obtain ⟨⟨r2, st2⟩, hr2, h⟩ := h
            have P2 := hsubEx q rfl _ _ _ _ _ H1.over htg P1.ex hr2
            cases r2 with
            | none =>
              exact LtPost.before (P1.str.trans P2.str) (P2.left.trans P1.left) (P2.right.trans P1.right)
                (ih _ _ _ P2.inv (P1.lt.of_eq P2.lt) h)
            | some e2 =>
              obtain ⟨g, s2⟩ := e2
              have H2 := P2.hit _ _ rfl
              simp only [Outcome.done.injEq, Prod.mk.injEq] at h
              obtain ⟨rfl, rfl⟩ := h
              refine ⟨P2.inv, P1.lt.of_eq P2.lt, P1.str.trans P2.str, P2.left.trans P1.left, P2.right.trans P1.right,
                fun g' n' e => ?_, fun e => by cases e⟩
              cases e
              refine ⟨H2.over, H2.nonempty, ?_, H2.sub, fun t ht => ?_⟩
              · have := H1.bound; rw [H2.count trivial, Nat.pow_succ 2 (q + 1)]; omega
              · obtain ⟨u, hu, p2⟩ := H2.reach t ht
                obtain ⟨s, hs, p1⟩ := H1.reach u hu
                refine ⟨s, hs, ?_⟩
                have := p1.append p2
                rw [H2.count trivial, Nat.add_comm]; exact this
    · cases h

/-- The less-than query. -/
theorem ltQuery_ok (hV : V.Ok) (hw : ts.WF) (hs : ts.AuxSep) (fuel : Nat) :
    ∀ (power : Nat) (start target : Fla T) (st : TpaState T) (r : QRes T) (st' : TpaState T), ts.Over start → ts.Over target →
      (start = target → ∃ s, ts.den start s) → PowInv ts True st → LtInv ts st →
      ltQuery V ts fuel power start target st = .done (r, st') → LtPost ts power start target st r st' := by
  have same : ∀ power (start : Fla T) (st : TpaState T), ts.Over start → (∃ s, ts.den start s) → PowInv ts True st → LtInv ts st →
      LtPost ts power start start st (some (start, 0)) st := by
    intro power start st hst hne hI hL
    refine ⟨hI, hL, .refl _, rfl, rfl, fun g n e => ?_, fun e => by cases e⟩
    cases e
    exact ⟨hst, hne, Nat.pos_of_ne_zero (by simp), fun t ht => ht, fun t ht => ⟨t, ht, .refl _⟩⟩
  intro power
  induction power with
  | zero =>
    intro start target st r st' hst htg hne hI hL h
    unfold ltQuery at h
    split at h
    · rename_i e
      subst e
      simp only [Outcome.done.injEq, Prod.mk.injEq] at h
      obtain ⟨rfl, rfl⟩ := h
      exact same _ _ _ hst (hne rfl) hI hL
    · exact ltLoop_ok hV hw hs (fun q hq => by omega) (fun q hq => by omega) hst htg hne _ _ _ _ hI hL h
  | succ p ih =>
    intro start target st r st' hst htg hne hI hL h
    unfold ltQuery at h
    split at h
    · rename_i e
      subst e
      simp only [Outcome.done.injEq, Prod.mk.injEq] at h
      obtain ⟨rfl, rfl⟩ := h
      exact same _ _ _ hst (hne rfl) hI hL
    · exact ltLoop_ok hV hw hs
        (fun q hq => by cases hq; exact fun a b st r st' ha hb hn hi hl hh => ih a b st r st' ha hb hn hi hl hh)
        (fun q hq => by
          cases hq
          exact fun a b st r st' ha hb hi hh => exactQuery_ok hV hw hs (fun _ _ => rfl) fuel _ a b st r st' ha hb hi hh)
        hst htg hne _ _ _ _ hI hL h

end Golem
