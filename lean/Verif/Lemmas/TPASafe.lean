import Verif.Lemmas.TPASolve
import Verif.Props.KTo1

/-! What a safety explanation of TPA gives: safety, an inductive invariant, a safe superset of the initial states. -/

namespace Golem
variable {T : Theory} {V : TpaEnv T} {S : Smt T} {ts : TS T}

/-- The explanation is about a less-than power. -/
def Expl.isLt : Expl T → Prop
  | .lt _ _ _ => True
  | .eq _ _ _ => False

/-- The restriction of an explanation. -/
def Expl.restr : Expl T → Restriction
  | .lt r _ _ => r
  | .eq r _ _ => r

theorem ltFixLoop_isLt {fuel : Nat} {pw : TpaState T → Nat → Option (Fla T)} :
    ∀ (n i : Nat) (st st' : TpaState T) (e : Expl T), ltFixLoop S ts pw fuel n i st = .done (some e, st') → e.isLt := by
  have side : ∀ (sd : Side) (cur : Fla T) (st st' : TpaState T) (e : Expl T),
      ltFixSide S ts sd fuel cur st = .done (some e, st') → e.isLt := by
    intro sd cur st st' e h
    unfold ltFixSide at h
    simp only [Outcome.andThen_done] at h
    obtain ⟨st1, _, h⟩ := h
    split at h
    · simp only [Outcome.done.injEq, Prod.mk.injEq, Option.some.injEq] at h
      obtain ⟨rfl, _⟩ := h; trivial
    · split at h
      · simp only [Outcome.done.injEq, Prod.mk.injEq, Option.some.injEq] at h
        obtain ⟨rfl, _⟩ := h; trivial
      · simp at h
  intro n
  induction n with
  | zero => intro i st st' e h; simp [ltFixLoop] at h
  | succ n ih =>
    intro i st st' e h
    unfold ltFixLoop at h
    simp only [Outcome.andThen_done, Outcome.orThrow_done] at h
    obtain ⟨cur, _, ⟨r1, st1⟩, h1, h⟩ := h
    split at h
    · rename_i e' he
      simp only at he; subst he
      simp only [Outcome.done.injEq, Prod.mk.injEq, Option.some.injEq] at h
      obtain ⟨rfl, _⟩ := h
      exact side _ _ _ _ _ h1
    · simp only [Outcome.andThen_done] at h
      obtain ⟨⟨r2, st2⟩, h2, h⟩ := h
      split at h
      · rename_i e' he
        simp only at he; subst he
        simp only [Outcome.done.injEq, Prod.mk.injEq, Option.some.injEq] at h
        obtain ⟨rfl, _⟩ := h
        exact side _ _ _ _ _ h2
      · split at h
        · rename_i e' he
          simp only [Outcome.done.injEq, Prod.mk.injEq, Option.some.injEq] at h
          obtain ⟨rfl, _⟩ := h
          unfold invsSafe at he
          split at he
          · cases he; trivial
          · split at he
            · cases he; trivial
            · cases he
        · exact ih _ _ _ _ h

theorem tpaSolve_basic_isLt {fuel : Nat} {st st' : TpaState T} {e : Expl T}
    (h : tpaSolve V .basic ts fuel st = .done (.safe e, st')) : e.isLt := by
  have pw : ∀ (n p : Nat) (st st' : TpaState T) (e : Expl T), tpaPowers V .basic ts fuel n p st = .done (.safe e, st') → e.isLt := by
    intro n
    induction n with
    | zero => intro p st st' e h; cases h
    | succ n ih =>
      intro p st st' e h
      unfold tpaPowers checkPower basicCheckPower at h
      simp only [Outcome.andThen_done] at h
      obtain ⟨⟨r, st1⟩, ⟨⟨r0, st0⟩, h0, h1⟩, h⟩ := h
      split at h
      · rename_i a ha
        simp only at ha; subst ha
        simp only [Outcome.done.injEq, Prod.mk.injEq] at h
        obtain ⟨rfl, rfl⟩ := h
        split at h1
        · simp at h1
        · simp only [Outcome.andThen_done] at h1
          obtain ⟨⟨f, st2⟩, h2, h1⟩ := h1
          split at h1
          · rename_i e' he
            simp only at he; subst he
            simp only [Outcome.done.injEq, Prod.mk.injEq, Option.some.injEq, TpaAnswer.safe.injEq] at h1
            obtain ⟨rfl, _⟩ := h1
            exact ltFixLoop_isLt _ _ _ _ _ h2
          · simp at h1
      · exact ih _ _ _ _ h
  unfold tpaSolve at h
  split at h
  · rename_i e' he
    simp only [Outcome.done.injEq, Prod.mk.injEq, TpaAnswer.safe.injEq] at h
    obtain ⟨rfl, _⟩ := h
    unfold tpaTrivial at he
    split at he
    · cases he; trivial
    · split at he
      · cases he; trivial
      · cases he
  · exact pw _ _ _ _ _ h

/-! ### The relation an explanation stands for -/

/-- The transition invariant of an explanation, as a relation between states. -/
def ExplRel (ts : TS T) (st : TpaState T) (e : Expl T) (s t : TS.State T) : Prop :=
  match e with
  | .lt _ _ inv => ts.rel inv s t
  | .eq _ i _ => ∃ f x, st.lt i = some f ∧ st.exact i = some x ∧ (ts.rel f s t ∨ ∃ u, ts.rel f s u ∧ ts.rel x u t)

/-- What the run provides besides the explanation. -/
def ExplBack (ts : TS T) (st : TpaState T) (e : Expl T) : Prop := e.isLt ∨ (PowInv ts True st ∧ LtInv ts st)

theorem exact_iter {st : TpaState T} {x : Fla T} {i : Nat} (hE : PowInv ts True st) (hx : st.exact i = some x)
    (P Q : TS.State T → Prop)
    (hc : ∀ a b c, P a → Q c → ts.rel x a b → ts.rel x b c → ts.rel x a c) (hPQ : (∀ a, P a) ∨ ∀ c, Q c) :
    ∀ (q : Nat) (a t : TS.State T), P a → Q t → ts.sem.Path ((q + 1) * 2 ^ i) a t → ts.rel x a t := by
  intro q
  induction q with
  | zero => intro a t _ _ p; exact hE.sup i x a t hx (by simpa using p)
  | succ q ih =>
    intro a t ha ht p
    rcases hPQ with hP | hQ
    · rw [show (q + 1 + 1) * 2 ^ i = 2 ^ i + (q + 1) * 2 ^ i by rw [Nat.add_mul (q + 1) 1]; omega] at p
      obtain ⟨b, p1, p2⟩ := p.split
      exact hc a b t ha ht (hE.sup i x a b hx p1) (ih b t (hP b) ht p2)
    · rw [show (q + 1 + 1) * 2 ^ i = (q + 1) * 2 ^ i + 2 ^ i by rw [Nat.add_mul (q + 1) 1]; omega] at p
      obtain ⟨b, p1, p2⟩ := p.split
      exact hc a b t ha ht (ih a b ha (hQ b) p1) (hE.sup i x b t hx p2)

theorem explRel_path {st : TpaState T} {e : Expl T} (hB : ExplBack ts st e) (h : ExplOk ts st e) {n : Nat}
    {s t : TS.State T} (hr : ts.Rep s) (p : ts.sem.Path n s t) (hi : e.restr = .init → ts.sem.Init s)
    (hq : e.restr = .query → ts.sem.Bad t) : ExplRel ts st e s t := by
  cases e with
  | lt r side inv =>
    simp only [ExplRel]
    simp only [Expl.restr] at hi hq
    cases side with
    | right =>
      obtain ⟨h1, h2, h3, h4, h5⟩ := h
      clear hq
      induction p with
      | refl => exact h3 _ hr
      | snoc p st ih => exact h5 _ _ _ (fun e => TS.den_init.2 (hi e)) (ih hr hi) st
    | left =>
      obtain ⟨h1, h2, h3, h4, h5⟩ := h
      clear hi
      induction n generalizing s with
      | zero => cases p; exact h3 _ hr
      | succ n ih =>
        obtain ⟨u, hu, p'⟩ := p.uncons
        exact h5 _ _ _ (fun e => TS.den_query.2 (hq e)) hu (ih (TS.rep_tgt hu) p')
  | eq r i inv =>
    obtain ⟨hE, hL⟩ : PowInv ts True st ∧ LtInv ts st := by
      rcases hB with hB | hB
      · exact hB.elim
      · exact hB
    obtain ⟨h0, f, x, hf, hx, _, _, hc⟩ := h
    simp only [Expl.restr] at hi hq
    refine ⟨f, x, hf, hx, ?_⟩
    have hpos : 0 < 2 ^ i := Nat.two_pow_pos i
    have hm : n % 2 ^ i < 2 ^ i := Nat.mod_lt _ hpos
    have hdm := Nat.mod_add_div n (2 ^ i)
    rw [← hdm] at p
    obtain ⟨a, p1, p2⟩ := p.split
    have hfa := hL.sup i f s a _ hf hm hr p1
    rcases Nat.eq_zero_or_pos (n / 2 ^ i) with hz | hz
    · rw [hz, Nat.mul_zero] at p2
      cases p2
      exact .inl hfa
    · obtain ⟨q, hq'⟩ : ∃ q, n / 2 ^ i = q + 1 := ⟨n / 2 ^ i - 1, by omega⟩
      rw [hq', Nat.mul_comm] at p2
      refine .inr ⟨a, hfa, ?_⟩
      have ha := (TS.rel_rep hfa).2
      have ht := TS.rep_path ha p2
      cases r with
      | whole => exact exact_iter hE hx (fun _ => True) (fun _ => True) (fun a b c _ _ => hc a b c (by simp) (by simp))
                  (.inl fun _ => trivial) q a t trivial trivial p2
      | init => exact exact_iter hE hx (fun a => ∃ s, ts.den ts.init s ∧ ts.rel f s a) (fun _ => True)
                  (fun a b c ha _ => hc a b c (fun _ => ha) (by simp)) (.inr fun _ => trivial) q a t ⟨s, TS.den_init.2 (hi rfl), hfa⟩ trivial p2
      | query => exact exact_iter hE hx (fun _ => True) (fun c => ∃ t, ts.den ts.query t ∧ ts.rel f c t)
                  (fun a b c _ hcc => hc a b c (by simp) (fun _ => hcc)) (.inl fun _ => trivial) q a t trivial
                  ⟨t, TS.den_query.2 (hq rfl), hL.sup i f t t 0 hf hpos ht (.refl t)⟩ p2

theorem explRel_excl {st : TpaState T} {e : Expl T} (h : ExplOk ts st e) {s t : TS.State T} (hs : ts.sem.Init s) (ht : ts.sem.Bad t) :
    ¬ ExplRel ts st e s t := by
  cases e with
  | lt r side inv => cases side <;> exact h.2.2.2.1 s t hs ht
  | eq r i inv =>
    obtain ⟨h0, f, x, hf, hx, _, hex, _⟩ := h
    rintro ⟨f', x', hf', hx', hr⟩
    rw [hf] at hf'; cases hf'
    rw [hx] at hx'; cases hx'
    rcases hr with hr | hr
    · exact (hex s t hs ht).1 hr
    · exact (hex s t hs ht).2 hr

/-- An explanation proves safety. -/
theorem explOk_safe {st : TpaState T} {e : Expl T} (hB : ExplBack ts st e) (h : ExplOk ts st e) : ts.sem.Safe := by
  rintro ⟨n, t, ⟨s, hs, p⟩, ht⟩
  exact explRel_excl h hs ht (explRel_path hB h (TS.den_rep (TS.den_init.2 hs)) p (fun _ => hs) (fun _ => ht))

/-! ### The inductive invariant -/

/-- A relation keeps only what one instant says. -/
theorem keep_at {K : KeepOnly T} (hK : K.Exact) {f g : Fla T} {k : Int} (h : K f (ts.varsAt k) = some g) :
    (∀ x ∈ g.vars, x ∈ ts.varsAt k) ∧
    ∀ ρ : Valuation T, g.holds ρ ↔ ∃ ρ' : Valuation T, ts.stateAt ρ' k = ts.stateAt ρ k ∧ f.holds ρ' := by
  obtain ⟨h1, h2⟩ := hK _ _ _ h
  refine ⟨h1, fun ρ => (h2 ρ).trans ?_⟩
  constructor
  · rintro ⟨ρ', e, hf⟩
    exact ⟨ρ', TS.stateAt_congr.2 fun x hx => e _ (TS.mem_varsAt.2 ⟨x, hx, rfl⟩), hf⟩
  · rintro ⟨ρ', e, hf⟩
    refine ⟨ρ', fun x hx => ?_, hf⟩
    obtain ⟨y, hy, rfl⟩ := TS.mem_varsAt.1 hx
    exact TS.stateAt_congr.1 e y hy

theorem lt_right_den {K : KeepOnly T} (hK : K.Exact) (hn : ts.NoAux) {inv g : Fla T}
    (h : K (.and ts.init inv) (ts.varsAt 1) = some g) :
    ts.Over (sendFla g (-1)) ∧ ∀ t, ts.den (sendFla g (-1)) t ↔ ∃ s, ts.sem.Init s ∧ ts.rel inv s t := by
  obtain ⟨h1, h2⟩ := keep_at hK h
  have hO := TS.send_over (k := 1) h1
  refine ⟨hO, fun t => ?_⟩
  constructor
  · rintro ⟨ρ, hg, rfl⟩
    rw [sendFla_holds, h2] at hg
    obtain ⟨ρ', e, hi, hv⟩ := hg
    rw [TS.stateAt_shift] at e
    refine ⟨ts.stateAt ρ' 0, TS.den_init.1 ((TS.den_zero hn.init).1 hi), ?_⟩
    have := TS.rel_holds (ts := ts) hv
    rw [e] at this
    simpa [TS.stateAt] using this
  · rintro ⟨s, hs, hr⟩
    obtain ⟨ρ', hv, e0, e1⟩ := hr
    refine ⟨fun x => ρ' (shift 1 x), ?_, ?_⟩
    · rw [sendFla_holds, h2]
      refine ⟨ρ', ?_, (TS.den_zero hn.init).2 (by rw [e0]; exact hs), hv⟩
      simp only [shift_shift]; simp [TS.stateAt]
    · rw [← e1]; rfl

theorem lt_left_den {K : KeepOnly T} (hK : K.Exact) (hn : ts.NoAux) {inv g : Fla T}
    (h : K (.and inv (sendFla ts.query 1)) (ts.varsAt 0) = some g) :
    ts.Over (.not g) ∧ ∀ s, ts.den (.not g) s ↔ ts.Rep s ∧ ¬ ∃ t, ts.sem.Bad t ∧ ts.rel inv s t := by
  obtain ⟨h1, h2⟩ := keep_at hK h
  have hO : ts.Over g := fun x hx => by have := h1 x hx; rwa [TS.varsAt_zero] at this
  refine ⟨hO, fun s => ?_⟩
  have key : ∀ ρ : Valuation T, g.holds ρ ↔ ∃ t, ts.sem.Bad t ∧ ts.rel inv (ts.stateAt ρ 0) t := by
    intro ρ
    rw [h2]
    constructor
    · rintro ⟨ρ', e, hv, hq⟩
      refine ⟨ts.stateAt ρ' 1, TS.den_query.1 ((TS.den_send hn.query).1 hq), ?_⟩
      rw [← e]; exact TS.rel_holds hv
    · rintro ⟨t, ht, ρ', hv, e0, e1⟩
      exact ⟨ρ', e0, hv, (TS.den_send hn.query).2 (by rw [e1]; exact ht)⟩
  constructor
  · rintro ⟨ρ, hg, rfl⟩
    refine ⟨⟨ρ, rfl⟩, fun hh => hg ((key ρ).2 ?_)⟩
    rw [TS.stateAt_zero]; exact hh
  · rintro ⟨⟨ρ, rfl⟩, hh⟩
    refine ⟨ρ, fun hg => hh ?_, rfl⟩
    have := (key ρ).1 hg
    rwa [TS.stateAt_zero] at this

theorem eq_den {Q : QElim T} (hQ : Q.Exact) (hw : ts.WF) (hn : ts.NoAux) {f x a b : Fla T} (pf : ts.PureTr f) (px : ts.PureTr x)
    (ha : Q (.and ts.init (.or (ts.shiftNext f) (.and f (sendFla x 1)))) (ts.varsAt 0) = some a)
    (hb : Q a (ts.varsAt 1) = some b) :
    ts.Over (sendFla b (-2)) ∧ ∀ t, ts.den (sendFla b (-2)) t ↔
      ∃ s, ts.sem.Init s ∧ (ts.rel f s t ∨ ∃ u, ts.rel f s u ∧ ts.rel x u t) := by
  obtain ⟨a1, a2⟩ := hQ _ _ _ ha
  obtain ⟨b1, b2⟩ := hQ _ _ _ hb
  have hv : ∀ y ∈ b.vars, y ∈ ts.varsAt 2 := by
    intro y hy
    obtain ⟨c1, c2⟩ := b1 y hy
    obtain ⟨d1, d2⟩ := a1 y c1
    simp only [Fla.vars, List.mem_append] at d1
    rcases d1 with d | d | d | d
    · exact absurd (by rw [TS.varsAt_zero]; exact hn.init y d) d2
    · rcases TS.move_vars (a := 0) (b := 1) (c := 2) hw (by decide) pf y d with h | h
      · exact absurd h d2
      · exact h
    · rcases pf y d with h | h
      · exact absurd h d2
      · exact absurd h c2
    · rcases TS.pure_send px 1 y d with h | h
      · exact absurd h c2
      · exact h
  refine ⟨TS.send_over (k := 2) hv, fun t => ?_⟩
  have hol : ∀ ρ : Valuation T, (Fla.and ts.init (.or (ts.shiftNext f) (.and f (sendFla x 1)))).holds ρ ↔
      ts.sem.Init (ts.stateAt ρ 0) ∧ (ts.rel f (ts.stateAt ρ 0) (ts.stateAt ρ 2) ∨
        (ts.rel f (ts.stateAt ρ 0) (ts.stateAt ρ 1) ∧ ts.rel x (ts.stateAt ρ 1) (ts.stateAt ρ 2))) := by
    intro ρ
    simp only [Fla.holds]
    rw [TS.den_zero hn.init, TS.den_init, TS.shiftNext_holds hw pf, TS.rel_iff pf, ← TS.rel_at px]
    rfl
  have key : ∀ ρ : Valuation T, b.holds ρ ↔ ∃ s, ts.sem.Init s ∧ (ts.rel f s (ts.stateAt ρ 2) ∨
      ∃ u, ts.rel f s u ∧ ts.rel x u (ts.stateAt ρ 2)) := by
    intro ρ
    rw [b2]
    constructor
    · rintro ⟨ρ1, e1, h⟩
      rw [a2] at h
      obtain ⟨ρ2, e2, h⟩ := h
      rw [hol] at h
      have e : ts.stateAt ρ2 2 = ts.stateAt ρ 2 := by
        rw [TS.stateAt_congr]
        intro y hy
        have hm : shift 2 y ∈ ts.varsAt 2 := TS.mem_varsAt.2 ⟨y, hy, rfl⟩
        rw [e2 _ (TS.varsAt_disjoint hw (by decide) hm), e1 _ (TS.varsAt_disjoint hw (by decide) hm)]
      rw [e] at h
      obtain ⟨h1, h2⟩ := h
      refine ⟨_, h1, h2.imp id fun h => ⟨_, h⟩⟩
    · rintro ⟨s, hs, hr⟩
      obtain ⟨u, hu, hr'⟩ : ∃ u, ts.Rep u ∧ (ts.rel f s (ts.stateAt ρ 2) ∨ (ts.rel f s u ∧ ts.rel x u (ts.stateAt ρ 2))) := by
        rcases hr with hr | ⟨u, h1, h2⟩
        · exact ⟨_, (TS.rel_rep hr).1, .inl hr⟩
        · exact ⟨u, (TS.rel_rep h2).1, .inr ⟨h1, h2⟩⟩
      obtain ⟨ρ', e0, e1, e2⟩ := TS.exists_val3 hw (TS.den_rep (TS.den_init.2 hs)) hu (TS.rep_stateAt ts ρ 2)
      -- the variables outside are taken from `ρ`
      classical
      refine ⟨fun y => if y ∈ ts.varsAt 1 then ρ' y else ρ y, fun y hy => by simp [hy], ?_⟩
      rw [a2]
      refine ⟨fun y => if y ∈ ts.varsAt 0 then ρ' y else if y ∈ ts.varsAt 1 then ρ' y else ρ y, fun y hy => by simp [hy], ?_⟩
      rw [hol]
      have f0 : ts.stateAt (fun y => if y ∈ ts.varsAt 0 then ρ' y else if y ∈ ts.varsAt 1 then ρ' y else ρ y) 0 = s := by
        rw [← e0, TS.stateAt_congr]
        intro y hy
        rw [if_pos (TS.mem_varsAt.2 ⟨y, hy, rfl⟩)]
      have f1 : ts.stateAt (fun y => if y ∈ ts.varsAt 0 then ρ' y else if y ∈ ts.varsAt 1 then ρ' y else ρ y) 1 = u := by
        rw [← e1, TS.stateAt_congr]
        intro y hy
        have hm : shift 1 y ∈ ts.varsAt 1 := TS.mem_varsAt.2 ⟨y, hy, rfl⟩
        rw [if_neg (TS.varsAt_disjoint hw (by decide) hm), if_pos hm]
      have f2 : ts.stateAt (fun y => if y ∈ ts.varsAt 0 then ρ' y else if y ∈ ts.varsAt 1 then ρ' y else ρ y) 2 = ts.stateAt ρ 2 := by
        rw [TS.stateAt_congr]
        intro y hy
        have hm : shift 2 y ∈ ts.varsAt 2 := TS.mem_varsAt.2 ⟨y, hy, rfl⟩
        rw [if_neg (TS.varsAt_disjoint hw (by decide) hm), if_neg (TS.varsAt_disjoint hw (by decide) hm)]
      rw [f0, f1, f2]
      exact ⟨hs, hr'⟩
  constructor
  · rintro ⟨ρ, hg, rfl⟩
    rw [sendFla_holds, key, TS.stateAt_shift] at hg
    simpa [TS.stateAt] using hg
  · intro h
    have hr : ts.Rep t := by
      obtain ⟨s, _, h | ⟨u, _, h⟩⟩ := h <;> exact (TS.rel_rep h).2
    obtain ⟨ρ, rfl⟩ := hr
    refine ⟨ρ, ?_, rfl⟩
    rw [sendFla_holds, key, TS.stateAt_shift]
    simpa [TS.stateAt] using h

theorem tpaInvariant_ok (hS : V.S.Sound) (hK : V.K.Exact) (hQ : V.Q.Exact) (hw : ts.WF) (hn : ts.NoAux) {st : TpaState T} {e : Expl T}
    (hB : ExplBack ts st e) (h : ExplOk ts st e) {I : Fla T} (hI : tpaInvariant V ts st e = .done (some I)) :
    ts.Over I ∧ ts.sem.SafeInductive (ts.den I) := by
  have hs := hn.auxSep hw
  cases e with
  | lt r side inv =>
    cases side with
    | left =>
      obtain ⟨h1, h2, h3, h4, h5⟩ := h
      simp only [tpaInvariant, Outcome.andThen_done, Outcome.orThrow_done, Outcome.done.injEq, Option.some.injEq] at hI
      obtain ⟨g, hg, rfl⟩ := hI
      obtain ⟨hO, hd⟩ := lt_left_den hK hn hg
      refine ⟨hO, ⟨⟨fun s hs => (hd s).2 ⟨TS.den_rep (TS.den_init.2 hs), ?_⟩, fun s u hs hst => (hd u).2 ⟨TS.rep_tgt hst, ?_⟩⟩, fun s hs hb => ?_⟩⟩
      · rintro ⟨t, ht, hr⟩
        exact h4 s t hs ht hr
      · rintro ⟨t, ht, hr⟩
        exact ((hd s).1 hs).2 ⟨t, ht, h5 _ _ _ (fun _ => ht) hst hr⟩
      · exact ((hd s).1 hs).2 ⟨s, hb, h3 s (TS.den_rep (TS.den_query.2 hb))⟩
    | right =>
      obtain ⟨h1, h2, h3, h4, h5⟩ := h
      simp only [tpaInvariant, Outcome.andThen_done, Outcome.orThrow_done, Outcome.done.injEq, Option.some.injEq] at hI
      obtain ⟨g, hg, rfl⟩ := hI
      obtain ⟨hO, hd⟩ := lt_right_den hK hn hg
      refine ⟨hO, ⟨⟨fun s hs => (hd s).2 ⟨s, hs, h3 s (TS.den_rep (TS.den_init.2 hs))⟩, fun u t hu hst => ?_⟩, fun s hs hb => ?_⟩⟩
      · obtain ⟨s, hs, hr⟩ := (hd u).1 hu
        exact (hd t).2 ⟨s, hs, h5 _ _ _ (fun _ => hs) hr hst⟩
      · obtain ⟨i, hi, hr⟩ := (hd s).1 hs
        exact h4 _ _ hi hb hr
  | eq r i inv =>
    obtain ⟨hE, hL⟩ : PowInv ts True st ∧ LtInv ts st := by
      rcases hB with hB | hB
      · exact hB.elim
      · exact hB
    obtain ⟨h0, f, x, hf, hx, _, hex, hc⟩ := h
    simp only [tpaInvariant] at hI
    split at hI
    · simp at hI
    rename_i hrq
    split at hI
    · simp at hI
    unfold invFromEquals at hI
    simp only [Outcome.andThen_done, Outcome.orThrow_done] at hI
    obtain ⟨x', hx', f', hf', a, ha, b, hb, hI⟩ := hI
    rw [hf] at hf'; cases hf'
    rw [hx] at hx'; cases hx'
    split at hI
    · simp at hI
    simp only [Outcome.andThen_done, Outcome.orThrow_done, Outcome.done.injEq, Option.some.injEq] at hI
    obtain ⟨R, hR, rfl⟩ := hI
    have pf := hL.pure _ _ hf
    have px := hE.pure _ _ h0 hx
    obtain ⟨hO, hd⟩ := eq_den hQ hw hn pf px ha hb
    have hk : ts.sem.KInductive (2 ^ i) (ts.den (sendFla b (-2))) := by
      constructor
      · rintro m hm t ⟨s, hs, p⟩
        exact (hd t).2 ⟨s, hs, .inl (hL.sup i f s t m hf hm (TS.den_rep (TS.den_init.2 hs)) p)⟩
      · intro s t p
        have hp : ts.sem.Path (2 ^ i) s t ∧ (0 < 2 ^ i → ts.den (sendFla b (-2)) s) := by
          generalize 2 ^ i = k at p
          induction p with
          | refl s => exact ⟨.refl s, fun h => absurd h (Nat.lt_irrefl 0)⟩
          | @snoc n s t u p hp hst ih =>
            refine ⟨.snoc ih.1 hst, fun _ => ?_⟩
            rcases Nat.eq_zero_or_pos n with rfl | hn
            · cases p; exact hp
            · exact ih.2 hn
        obtain ⟨o, ho, hr⟩ := (hd s).1 (hp.2 (Nat.two_pow_pos i))
        have hst := hE.sup i x s t hx hp.1
        refine (hd t).2 ⟨o, ho, .inr ?_⟩
        rcases hr with hr | ⟨u, h1, h2⟩
        · exact ⟨s, hr, hst⟩
        · exact ⟨u, h1, hc u s t (fun _ => ⟨o, ho, h1⟩) (fun e => absurd e hrq) h2 hst⟩
    obtain ⟨r1, r2, r3⟩ := C20_kinductiveToInductive V.S hS ts hw hs _ hO _ hk _ hR
    refine ⟨r1, ⟨r2, fun s hs hb => ?_⟩⟩
    obtain ⟨o, ho, hr⟩ := (hd s).1 (r3 s hs)
    rcases hr with hr | hr
    · exact (hex o s ho hb).1 hr
    · exact (hex o s ho hb).2 hr

/-! ### The safe superset of the initial states -/

theorem tpaExplanation_ok (hS : S.Sound) (hw : ts.WF) (hn : ts.NoAux) {st : TpaState T} {e : Expl T}
    (hB : ExplBack ts st e) (h : ExplOk ts st e) {f : Fla T} (hf : tpaExplanation S ts e = some f) :
    ts.Over f ∧ (∀ s, ts.sem.Init s → ts.den f s) ∧ ∀ n s t, ts.den f s → ts.sem.Path n s t → ¬ ts.sem.Bad t := by
  have hinit : ∀ r, e.restr = r → r = .init → f = ts.init → ts.Over f ∧ (∀ s, ts.sem.Init s → ts.den f s) ∧
      ∀ n s t, ts.den f s → ts.sem.Path n s t → ¬ ts.sem.Bad t := by
    rintro r hr rfl rfl
    exact ⟨hn.init, fun s hs => hs, fun n s t hs p hb => explOk_safe hB h ⟨n, t, ⟨s, hs, p⟩, hb⟩⟩
  have hsup : ∀ (inv target : Fla T), safeSuperset S ts.init inv target = some f → e.restr ≠ .init →
      (∀ s t, ts.sem.Bad t → ExplRel ts st e s t → ∃ ρ, ts.stateAt ρ 0 = s ∧ inv.holds ρ ∧ target.holds ρ) →
      ts.Over f ∧ (∀ s, ts.sem.Init s → ts.den f s) ∧ ∀ n s t, ts.den f s → ts.sem.Path n s t → ¬ ts.sem.Bad t := by
    intro inv target hss hne hrel
    unfold safeSuperset at hss
    split at hss
    swap
    · cases hss
    rename_i hu
    cases hss
    have hI := hS.itp _ [inv, target] [ts.init] hu (by intro g; simp; tauto)
    have hO : ts.Over (.not (S.itp [inv, target] [ts.init])) := by
      intro x hx
      have := (hI.shared x hx).2
      rw [Fla.mem_vars_conj] at this
      obtain ⟨g, hg, hx⟩ := this
      simp only [List.mem_singleton] at hg
      subst hg
      exact hn.init x hx
    refine ⟨hO, ?_, ?_⟩
    · rintro s ⟨ρ, hi, rfl⟩
      refine ⟨ρ, fun hg => hI.refuteB ρ hg ?_, rfl⟩
      intro g hg
      simp only [List.mem_singleton] at hg
      subst hg; exact hi
    · intro n s t hd p hb
      have hr := explRel_path hB h (TS.den_rep hd) p (fun e => absurd e hne) (fun _ => hb)
      obtain ⟨ρ, e0, h1, h2⟩ := hrel s t hb hr
      rw [← e0, ← TS.den_zero hO] at hd
      refine hd (hI.fromA ρ ?_)
      intro g hg
      simp only [List.mem_cons, List.not_mem_nil, or_false] at hg
      rcases hg with rfl | rfl
      · exact h1
      · exact h2
  cases e with
  | lt r side inv =>
    simp only [tpaExplanation] at hf
    split at hf
    · rename_i hr; cases hf; exact hinit r rfl hr rfl
    · rename_i hr
      refine hsup _ _ hf hr ?_
      rintro s t hb ⟨ρ, hv, e0, e1⟩
      exact ⟨ρ, e0, hv, (TS.den_send hn.query).2 (by rw [e1]; exact hb)⟩
  | eq r i inv =>
    simp only [tpaExplanation] at hf
    split at hf
    · rename_i hr; cases hf; exact hinit r rfl hr rfl
    · rename_i hr
      obtain ⟨hE, hL⟩ : PowInv ts True st ∧ LtInv ts st := by
        rcases hB with hB | hB
        · exact hB.elim
        · exact hB
      refine hsup _ _ hf hr ?_
      obtain ⟨h0, lf, x, hlf, hx, rfl, hex, hc⟩ := h
      have pf := hL.pure _ _ hlf
      have px := hE.pure _ _ h0 hx
      rintro s t hb ⟨f', x', hf', hx', hrr⟩
      rw [hlf] at hf'; cases hf'
      rw [hx] at hx'; cases hx'
      obtain ⟨u, hu, hr'⟩ : ∃ u, ts.Rep u ∧ (ts.rel lf s t ∨ (ts.rel lf s u ∧ ts.rel x u t)) := by
        rcases hrr with hr | ⟨u, h1, h2⟩
        · exact ⟨_, (TS.rel_rep hr).1, .inl hr⟩
        · exact ⟨u, (TS.rel_rep h2).1, .inr ⟨h1, h2⟩⟩
      have hrs : ts.Rep s := by rcases hr' with hr | hr; exact (TS.rel_rep hr).1; exact (TS.rel_rep hr.1).1
      obtain ⟨ρ, e0, e1, e2⟩ := TS.exists_val3 hw hrs hu (TS.den_rep (TS.den_query.2 hb))
      refine ⟨ρ, e0, ?_, (TS.den_send hn.query).2 (by rw [e2]; exact hb)⟩
      rw [Fla.holds]
      rcases hr' with hr | ⟨h1, h2⟩
      · left; rw [TS.shiftNext_holds hw pf, e0, e2]; exact hr
      · right
        refine ⟨by rw [← TS.rel_iff pf, e0, e1]; exact h1, ?_⟩
        rw [← TS.rel_at px]
        show ts.rel x (ts.stateAt ρ 1) (ts.stateAt ρ 2)
        rw [e1, e2]; exact h2

/-! ### How far a power looks -/

theorem noBad_of_lt {st : TpaState T} (hL : LtInv ts st) {p : Nat} {f : Fla T} (hf : st.lt p = some f)
    (hx : ts.Excl ts.init ts.query f) {m : Nat} (hm : m < 2 ^ p) : ¬ ts.sem.BadIn m := by
  rintro ⟨t, ⟨s, hs, p'⟩, hb⟩
  exact hx s t hs hb (hL.sup p f s t m hf hm (TS.den_rep (TS.den_init.2 hs)) p')

theorem noBad_of_exact {cnt : Prop} {st : TpaState T} (hE : PowInv ts cnt st) {p : Nat} {f : Fla T} (hf : st.exact p = some f)
    (hx : ts.Excl ts.init ts.query f) : ¬ ts.sem.BadIn (2 ^ p) := by
  rintro ⟨t, ⟨s, hs, p'⟩, hb⟩
  exact hx s t hs hb (hE.sup p f s t hf p')

theorem split_none (hV : V.Ok) (hw : ts.WF) (hn : ts.NoAux) (hne : ts.init = ts.query → ∃ s, ts.sem.Init s) {fuel p : Nat}
    {st st' : TpaState T} (hI : TpaInv .split ts V.S.Complete st) (hl : LvlSplit ts st p)
    (h : splitCheckPower V ts fuel p st = .done (none, st')) : ∀ m, m ≤ 2 ^ (p + 1) → ¬ ts.sem.BadIn m := by
  obtain ⟨⟨hE, hL, _⟩, _, h3⟩ := splitCheckPower_ok hV hw hn hne hI hl h
  obtain ⟨hl', x, hx, hxx⟩ := h3 rfl
  obtain ⟨f, hf, hff⟩ := hl'.one (p + 1) (by omega) (Nat.le_refl _)
  intro m hm
  rcases Nat.lt_or_eq_of_le hm with hm | rfl
  · exact noBad_of_lt hL hf hff hm
  · exact noBad_of_exact hE hx hxx

theorem basic_none (hV : V.Ok) (hw : ts.WF) (hn : ts.NoAux) {fuel p : Nat}
    {st st' : TpaState T} (hI : TpaInv .basic ts V.S.Complete st) (hl : LvlBasic ts st p)
    (h : basicCheckPower V ts fuel p st = .done (none, st')) : ∀ m, m ≤ 2 ^ (p + 1) → ¬ ts.sem.BadIn m := by
  obtain ⟨⟨hE, _⟩, _, h3⟩ := basicCheckPower_ok hV hw hn hI hl h
  obtain ⟨f, hf, hff⟩ := h3 rfl (p + 1) (by omega) (Nat.le_refl _)
  rintro m hm ⟨t, ⟨s, hs, p'⟩, hb⟩
  refine hff s t hs hb (hE.sup (p + 1) f s t hf ?_)
  exact TS.path_reflexive hw (TS.den_rep (TS.den_init.2 hs)) p' hm

/-- How long a counterexample found at power `p` is. -/
theorem split_reached (hV : V.Ok) (hw : ts.WF) (hn : ts.NoAux) (hne : ts.init = ts.query → ∃ s, ts.sem.Init s) {fuel p n : Nat}
    {st st' : TpaState T} {g : Fla T} (hI : TpaInv .split ts V.S.Complete st)
    (h : splitCheckPower V ts fuel p st = .done (some (.reached g n), st')) :
    n < 2 ^ (p + 1) ∨ (n = 2 ^ (p + 1) ∧ ∀ m, m < 2 ^ (p + 1) → ¬ ts.sem.BadIn m) := by
  have hs := hn.auxSep hw
  obtain ⟨hE, hL, hF⟩ := hI
  unfold splitCheckPower at h
  simp only [Outcome.andThen_done] at h
  obtain ⟨⟨r1, st1⟩, h1, h⟩ := h
  have P := ltQuery_ok hV hw hs fuel p _ _ _ _ _ hn.init hn.query hne hE hL h1
  split at h
  · rename_i g n hr
    simp only at hr
    subst hr
    simp only [Outcome.done.injEq, Prod.mk.injEq, Option.some.injEq, TpaAnswer.reached.injEq] at h
    obtain ⟨⟨rfl, rfl⟩, rfl⟩ := h
    exact .inl (P.hit g n rfl).bound
  · rename_i hr
    simp only at hr
    subst hr
    obtain ⟨f', b1, b2⟩ := (P.miss rfl).2
    simp only [Outcome.andThen_done] at h
    obtain ⟨⟨r2, st2⟩, h2, h⟩ := h
    have sp := ltFixLoop_same _ _ _ _ _ h2
    have hE2 : PowInv ts True st2 := P.ex.of_eq sp.exact sp.comps sp.cache
    split at h
    · simp at h
    · simp only [Outcome.andThen_done] at h
      obtain ⟨x, hx, h⟩ := h
      split at h
      · simp at h
      · simp only [Outcome.andThen_done] at h
        obtain ⟨⟨r3, st3⟩, h3, h⟩ := h
        have Q := exactQuery_ok hV hw hs (cnt := True) (fun _ _ => rfl) fuel p _ _ _ _ _ hn.init hn.query hE2 h3
        split at h
        · rename_i g n hr
          simp only at hr
          subst hr
          simp only [Outcome.done.injEq, Prod.mk.injEq, Option.some.injEq, TpaAnswer.reached.injEq] at h
          obtain ⟨⟨rfl, rfl⟩, rfl⟩ := h
          exact .inr ⟨(Q.hit g n rfl).count trivial, fun m hm => noBad_of_lt P.lt b1 b2 hm⟩
        · simp only [Outcome.andThen_done] at h
          obtain ⟨x3, hx3, h⟩ := h
          split at h <;> simp at h

theorem powers_none (hV : V.Ok) {core : Core} (hw : ts.WF) (hn : ts.NoAux)
    (hne : core = .split → ts.init = ts.query → ∃ s, ts.sem.Init s) {fuel p : Nat} {st st' : TpaState T}
    (hI : TpaInv core ts V.S.Complete st) (hl : Lvl core ts st p) (h : checkPower V core ts fuel p st = .done (none, st')) :
    ∀ m, m ≤ 2 ^ (p + 1) → ¬ ts.sem.BadIn m := by
  cases core with
  | split => exact split_none hV hw hn (hne rfl) hI hl h
  | basic => exact basic_none hV hw hn hI hl h

theorem tpaPowers_length (hV : V.Ok) (hw : ts.WF) (hn : ts.NoAux) (hne : ts.init = ts.query → ∃ s, ts.sem.Init s) {fuel : Nat} :
    ∀ (k p : Nat) (st st' : TpaState T) (g : Fla T) (n : Nat), TpaInv .split ts V.S.Complete st → LvlSplit ts st p →
      (p ≠ 0 → ∀ m, m ≤ 2 ^ p → ¬ ts.sem.BadIn m) → tpaPowers V .split ts fuel k p st = .done (.reached g n, st') →
      ∀ m, ts.sem.BadIn m → n ≤ 1 ∨ n < 2 * m := by
  intro k
  induction k with
  | zero => intro p st st' g n _ _ _ h; cases h
  | succ k ih =>
    intro p st st' g n hI hl hp h m hm
    unfold tpaPowers at h
    simp only [Outcome.andThen_done] at h
    obtain ⟨⟨r, st1⟩, h1, h⟩ := h
    simp only [checkPower] at h1
    split at h
    · rename_i x hx
      simp only at hx
      subst hx
      simp only [Outcome.done.injEq, Prod.mk.injEq] at h
      obtain ⟨rfl, rfl⟩ := h
      have hb := split_reached hV hw hn hne hI h1
      have e2 : 2 ^ (p + 1) = 2 * 2 ^ p := by rw [Nat.pow_succ]; omega
      rcases Nat.eq_zero_or_pos p with rfl | hpos
      · rcases hb with hb | ⟨hb, hb'⟩
        · left; omega
        · right
          have : ¬ m < 2 := fun h => hb' m (by simpa using h) hm
          simp at hb
          omega
      · right
        have : ¬ m ≤ 2 ^ p := fun h => hp (by omega) m h hm
        omega
    · rename_i hx
      simp only at hx
      subst hx
      obtain ⟨a1, _, a3⟩ := splitCheckPower_ok hV hw hn hne hI hl h1
      exact ih _ _ _ _ _ a1 (a3 rfl).1 (fun _ => split_none hV hw hn hne hI hl h1) h m hm

end Golem
