import Verif.Lemmas.TPAFix

/-! The main loop of TPA. -/

namespace Golem
variable {T : Theory} {V : TpaEnv T} {S : Smt T} {ts : TS T}

/-! ### Changes that need no assumption on the solver -/

theorem addInvs_same {st : TpaState T} {side : Side} {cs : List (Fla T)} : SamePowers st (st.addInvs side cs) := by
  cases side <;> exact ⟨rfl, rfl, rfl, rfl⟩

theorem ltFixSide_same {side : Side} {fuel : Nat} {cur : Fla T} {st st' : TpaState T} {r : Option (Expl T)}
    (h : ltFixSide S ts side fuel cur st = .done (r, st')) : SamePowers st st' := by
  unfold ltFixSide houdiniCheck at h
  simp only [Outcome.andThen_done] at h
  obtain ⟨st1, ⟨cs, _, h1⟩, h⟩ := h
  simp only [Outcome.done.injEq] at h1
  subst h1
  split at h
  · simp only [Outcome.done.injEq, Prod.mk.injEq] at h
    obtain ⟨_, rfl⟩ := h
    exact addInvs_same
  · split at h
    · simp only [Outcome.done.injEq, Prod.mk.injEq] at h
      obtain ⟨_, rfl⟩ := h
      exact addInvs_same
    · simp only [Outcome.done.injEq, Prod.mk.injEq] at h
      obtain ⟨_, rfl⟩ := h
      exact addInvs_same

theorem ltFixLoop_same {fuel : Nat} {pw : TpaState T → Nat → Option (Fla T)} :
    ∀ (n i : Nat) (st st' : TpaState T) (r : Option (Expl T)), ltFixLoop S ts pw fuel n i st = .done (r, st') →
      SamePowers st st' := by
  intro n
  induction n with
  | zero =>
    intro i st st' r h
    simp only [ltFixLoop, Outcome.done.injEq, Prod.mk.injEq] at h
    obtain ⟨_, rfl⟩ := h
    exact .refl _
  | succ n ih =>
    intro i st st' r h
    unfold ltFixLoop at h
    simp only [Outcome.andThen_done, Outcome.orThrow_done] at h
    obtain ⟨cur, _, ⟨r1, st1⟩, h1, h⟩ := h
    have a := ltFixSide_same h1
    split at h
    · simp only [Outcome.done.injEq, Prod.mk.injEq] at h
      obtain ⟨_, rfl⟩ := h
      exact a
    · simp only [Outcome.andThen_done] at h
      obtain ⟨⟨r2, st2⟩, h2, h⟩ := h
      have b := a.trans (ltFixSide_same h2)
      split at h
      · simp only [Outcome.done.injEq, Prod.mk.injEq] at h
        obtain ⟨_, rfl⟩ := h
        exact b
      · split at h
        · simp only [Outcome.done.injEq, Prod.mk.injEq] at h
          obtain ⟨_, rfl⟩ := h
          exact b
        · exact b.trans (ih _ _ _ _ h)

theorem SamePowers.stronger {st st' : TpaState T} (h : SamePowers st st') : Stronger st st' :=
  ⟨fun _ f hf => ⟨f, by rw [h.exact]; exact hf, fun _ h => h⟩, fun _ f hf => ⟨f, by rw [h.lt]; exact hf, fun _ h => h⟩⟩

theorem FixInv.of_eq {st st' : TpaState T} (h : FixInv ts st) (h1 : st'.left = st.left) (h2 : st'.right = st.right) :
    FixInv ts st' := by
  intro side
  have := h side
  cases side
  · simp only [TpaState.invs, h1]; exact this
  · simp only [TpaState.invs, h2]; exact this

/-! ### The exact fixed point -/

theorem TS.exists_val4 (hw : ts.WF) {a b c d : TS.State T} (ha : ts.Rep a) (hb : ts.Rep b) (hc : ts.Rep c) (hd : ts.Rep d) :
    ∃ ρ : Valuation T, ts.stateAt ρ 0 = a ∧ ts.stateAt ρ 1 = b ∧ ts.stateAt ρ 2 = c ∧ ts.stateAt ρ 3 = d := by
  obtain ⟨ρ, h⟩ := TS.exists_val hw (fun i => if i = 0 then a else if i = 1 then b else if i = 2 then c else d)
    (fun i => by by_cases h0 : i = 0 <;> by_cases h1 : i = 1 <;> by_cases h2 : i = 2 <;> simp [*])
  exact ⟨ρ, by simpa using h 0, by simpa using h 1, by simpa using h 2, by simpa using h 3⟩

theorem exactFixAt_ok (hS : S.Sound) (hw : ts.WF) (hn : ts.NoAux) {st : TpaState T} {f e : Fla T} {i : Nat} (hi : i ≠ 0)
    (hf : st.lt i = some f) (he : st.exact i = some e) (pf : ts.PureTr f) (pe : ts.PureTr e)
    (hex : ts.Excl2 ts.init ts.query f e) {x : Expl T} (h : exactFixAt S ts f e i = some x) : ExplOk ts st x := by
  have key : ∀ (extra : List (Fla T)), S.check (Fla.conj [.and e (sendFla e 1), .not (ts.shiftNext e)] :: extra) = .unsat →
      ∀ a b c, (∃ ρ : Valuation T, ts.stateAt ρ 0 = a ∧ ts.stateAt ρ 1 = b ∧ ts.stateAt ρ 2 = c ∧ AllHold ρ extra) →
        ts.rel e a b → ts.rel e b c → ts.rel e a c := by
    intro extra hu a b c ⟨ρ, e0, e1, e2, hx⟩ hab hbc
    rcases Classical.em (ts.rel e a c) with hg | hg
    · exact hg
    · exfalso
      refine hS.unsat _ hu ⟨ρ, fun g hf => ?_⟩
      rcases List.mem_cons.1 hf with rfl | hf
      · rw [Fla.holds_conj]
        intro g hg'
        simp only [List.mem_cons, List.not_mem_nil, or_false] at hg'
        rcases hg' with rfl | rfl
        · refine ⟨?_, ?_⟩
          · rw [← TS.rel_iff pe, e0, e1]; exact hab
          · rw [← TS.rel_at pe, e1]; simp only [Int.reduceAdd, e2]; exact hbc
        · rw [Fla.holds, TS.shiftNext_holds hw pe, e0, e2]; exact hg
      · exact hx g hf
  unfold exactFixAt at h
  simp only at h
  split at h
  · rename_i hu
    cases h
    refine ⟨hi, f, e, hf, he, rfl, hex, fun a b c _ _ hab hbc => key [] hu a b c ?_ hab hbc⟩
    obtain ⟨ρ, e0, e1, e2⟩ := TS.exists_val3 hw (TS.rel_rep hab).1 (TS.rel_rep hbc).1 (TS.rel_rep hbc).2
    exact ⟨ρ, e0, e1, e2, fun f hf => by cases hf⟩
  · split at h
    · rename_i hu
      cases h
      refine ⟨hi, f, e, hf, he, rfl, hex, fun a b c hs _ hab hbc => key _ hu a b c ?_ hab hbc⟩
      obtain ⟨s, hs, hsa⟩ := hs rfl
      obtain ⟨ρ, e0, e1, e2, e3⟩ := TS.exists_val4 hw (TS.rel_rep hsa).1 (TS.rel_rep hab).1 (TS.rel_rep hbc).1 (TS.rel_rep hbc).2
      refine ⟨fun x => ρ (shift 1 x), ?_, ?_, ?_, ?_⟩
      · rw [TS.stateAt_shift]; exact e1
      · rw [TS.stateAt_shift]; exact e2
      · rw [TS.stateAt_shift]; exact e3
      · intro g hg
        simp only [List.mem_singleton] at hg
        subst hg
        rw [sendFla_holds]
        simp only [shift_shift]
        simp only [Int.reduceNeg, Int.reduceAdd, shift_zero]
        exact ⟨(TS.den_zero hn.init).2 (by rw [e0]; exact hs), by rw [← TS.rel_iff pf, e0, e1]; exact hsa⟩
    · split at h
      · rename_i hu
        cases h
        refine ⟨hi, f, e, hf, he, rfl, hex, fun a b c _ ht hab hbc => key _ hu a b c ?_ hab hbc⟩
        obtain ⟨t, ht, hct⟩ := ht rfl
        obtain ⟨ρ, e0, e1, e2, e3⟩ := TS.exists_val4 hw (TS.rel_rep hab).1 (TS.rel_rep hbc).1 (TS.rel_rep hbc).2 (TS.rel_rep hct).2
        refine ⟨ρ, e0, e1, e2, ?_⟩
        intro g hg
        simp only [List.mem_singleton] at hg
        subst hg
        refine ⟨?_, (TS.den_send hn.query).2 (by rw [e3]; exact ht)⟩
        rw [← TS.rel_at pf, e2]; simp only [Int.reduceAdd, e3]; exact hct
      · cases h

theorem exactFixLoop_ok (hS : S.Sound) (hw : ts.WF) (hn : ts.NoAux) {cnt : Prop} {st : TpaState T} (hE : PowInv ts cnt st)
    (hL : LtInv ts st) : ∀ (n i : Nat) (r : Option (Expl T)), i ≠ 0 →
      (∀ j, i ≤ j → j < i + n → ∃ f e, st.lt j = some f ∧ st.exact j = some e ∧ ts.Excl2 ts.init ts.query f e) →
      exactFixLoop S ts st n i = .done r → ∀ e, r = some e → ExplOk ts st e := by
  intro n
  induction n with
  | zero => intro i r _ _ h e he; cases h; cases he
  | succ n ih =>
    intro i r hi hx h e he
    unfold exactFixLoop at h
    simp only [Outcome.andThen_done, Outcome.orThrow_done] at h
    obtain ⟨ex, hex, lt, hlt, h⟩ := h
    split at h
    · rename_i x hx'
      cases h; cases he
      obtain ⟨f, e, h1, h2, h3⟩ := hx i (by omega) (by omega)
      rw [hlt] at h1; cases h1
      rw [hex] at h2; cases h2
      exact exactFixAt_ok hS hw hn hi hlt hex (hL.pure _ _ hlt) (hE.pure _ _ hi hex) h3 hx'
    · exact ih (i + 1) r (by omega) (fun j h1 h2 => hx j (by omega) (by omega)) h e he

/-! ### What the state of a run satisfies between calls -/

/-- The invariant of the state. -/
def TpaInv (core : Core) (ts : TS T) (complete : Prop) (st : TpaState T) : Prop :=
  match core with
  | .split => PowInv ts True st ∧ LtInv ts st ∧ (complete → FixInv ts st)
  | .basic => PowInv ts.reflexive False st ∧ (complete → FixInv ts st)

/-- Levels on which the current query is excluded: all below `n` and, for a single power, up to `n`. -/
structure LvlSplit (ts : TS T) (st : TpaState T) (n : Nat) : Prop where
  two : ∀ i, i < n → ∃ f e, st.lt i = some f ∧ st.exact i = some e ∧ ts.Excl2 ts.init ts.query f e
  one : ∀ i, 1 ≤ i → i ≤ n → ∃ f, st.lt i = some f ∧ ts.Excl ts.init ts.query f

theorem LvlSplit.mono {st st' : TpaState T} {n : Nat} (h : LvlSplit ts st n) (hs : Stronger st st') : LvlSplit ts st' n := by
  constructor
  · intro i hi
    obtain ⟨f, e, h1, h2, h3⟩ := h.two i hi
    obtain ⟨f', a1, a2⟩ := hs.lt i f h1
    obtain ⟨e', b1, b2⟩ := hs.exact i e h2
    refine ⟨f', e', a1, b1, fun s t h4 h5 => ⟨fun hr => (h3 s t h4 h5).1 (TS.rel_mono a2 hr), ?_⟩⟩
    rintro ⟨u, h6, h7⟩
    exact (h3 s t h4 h5).2 ⟨u, TS.rel_mono a2 h6, TS.rel_mono b2 h7⟩
  · intro i hi hin
    obtain ⟨f, h1, h2⟩ := h.one i hi hin
    obtain ⟨f', a1, a2⟩ := hs.lt i f h1
    exact ⟨f', a1, h2.mono a2⟩

/-- The same for `TPABasic`. -/
def LvlBasic (ts : TS T) (st : TpaState T) (n : Nat) : Prop :=
  ∀ i, 1 ≤ i → i ≤ n → ∃ f, st.exact i = some f ∧ ts.Excl ts.init ts.query f

theorem LvlBasic.mono {st st' : TpaState T} {n : Nat} (h : LvlBasic ts st n) (hs : Stronger st st') : LvlBasic ts st' n := by
  intro i hi hin
  obtain ⟨f, h1, h2⟩ := h i hi hin
  obtain ⟨f', a1, a2⟩ := hs.exact i f h1
  exact ⟨f', a1, h2.mono a2⟩

/-- Levels for both cores. -/
def Lvl (core : Core) (ts : TS T) (st : TpaState T) (n : Nat) : Prop :=
  match core with
  | .split => LvlSplit ts st n
  | .basic => LvlBasic ts st n

/-- What an answer means; `complete` stands for a solver that always decides. -/
def AnsOk (core : Core) (ts : TS T) (complete : Prop) (st : TpaState T) : TpaAnswer T → Prop
  | .safe e => complete → ExplOk ts st e
  | .reached g n => ts.Over g ∧ (∃ s, ts.den g s) ∧ ∀ t, ts.den g t → ts.sem.Bad t ∧ ∃ s, ts.sem.Init s ∧
      ∃ m, ts.sem.Path m s t ∧ (core = .split → m = n)

/-! ### TPASplit -/

theorem splitCheckPower_ok (hV : V.Ok) (hw : ts.WF) (hn : ts.NoAux) (hne : ts.init = ts.query → ∃ s, ts.sem.Init s) {fuel p : Nat}
    {st st' : TpaState T} {r : Option (TpaAnswer T)} (hI : TpaInv .split ts V.S.Complete st) (hl : LvlSplit ts st p)
    (h : splitCheckPower V ts fuel p st = .done (r, st')) :
    TpaInv .split ts V.S.Complete st' ∧ (∀ a, r = some a → AnsOk .split ts V.S.Complete st' a) ∧
      (r = none → LvlSplit ts st' (p + 1) ∧ ∃ f, st'.exact (p + 1) = some f ∧ ts.Excl ts.init ts.query f) := by
  have hs := hn.auxSep hw
  obtain ⟨hE, hL, hF⟩ := hI
  unfold splitCheckPower at h
  simp only [Outcome.andThen_done] at h
  obtain ⟨⟨r1, st1⟩, h1, h⟩ := h
  have P := ltQuery_ok hV hw hs fuel p _ _ _ _ _ hn.init hn.query hne hE hL h1
  have hF1 : V.S.Complete → FixInv ts st1 := by
    intro hc
    exact (hF hc).of_eq P.left P.right
  split at h
  · rename_i g n hr
    simp only at hr
    subst hr
    simp only [Outcome.done.injEq, Prod.mk.injEq] at h
    obtain ⟨rfl, rfl⟩ := h
    have H := P.hit g n rfl
    refine ⟨⟨P.ex, P.lt, hF1⟩, fun a ha => ?_, fun e => by cases e⟩
    cases ha
    refine ⟨H.over, H.nonempty, fun t ht => ⟨H.sub t ht, ?_⟩⟩
    obtain ⟨s, hs, p⟩ := H.reach t ht
    exact ⟨s, hs, n, p, fun _ => rfl⟩
  · rename_i hr
    simp only at hr
    subst hr
    have hl1 : LvlSplit ts st1 (p + 1) := by
      have := hl.mono P.str
      obtain ⟨⟨f, e, a1, a2, a3⟩, ⟨f', b1, b2⟩⟩ := P.miss rfl
      constructor
      · intro i hi
        by_cases e : i = p
        · subst e; exact ⟨f, _, a1, a2, a3⟩
        · exact this.two i (by omega)
      · intro i h1 h2
        by_cases e : i = p + 1
        · subst e; exact ⟨f', b1, b2⟩
        · exact this.one i h1 (by omega)
    simp only [Outcome.andThen_done] at h
    obtain ⟨⟨r2, st2⟩, h2, h⟩ := h
    have sp := ltFixLoop_same _ _ _ _ _ h2
    have hl2 := hl1.mono sp.stronger
    have hE2 : PowInv ts True st2 := P.ex.of_eq sp.exact sp.comps sp.cache
    have hL2 : LtInv ts st2 := P.lt.of_eq sp.lt
    have hfix : V.S.Complete → FixInv ts st2 ∧ ∀ e, r2 = some e → ExplOk ts st2 e := by
      intro hc
      obtain ⟨a1, _, a3⟩ := ltFixLoop_ok hV.S hc hw hn (pw := TpaState.lt) (fun st st' h => h.lt) _ _ _ _ _ (by
        intro j f h1 h2 h3
        obtain ⟨f', b1, b2⟩ := hl1.one j h1 (by omega)
        rw [h3] at b1; cases b1
        refine ⟨P.lt.pure _ _ h3, fun s hr => P.lt.sup j f s s 0 h3 (Nat.pos_of_ne_zero (by simp)) hr (.refl _), b2⟩) (hF1 hc) h2
      exact ⟨a1, a3⟩
    split at h
    · rename_i e he
      simp only at he
      subst he
      simp only [Outcome.done.injEq, Prod.mk.injEq] at h
      obtain ⟨rfl, rfl⟩ := h
      refine ⟨⟨hE2, hL2, fun hc => (hfix hc).1⟩, fun a ha => ?_, fun e => by cases e⟩
      cases ha
      exact fun hc => (hfix hc).2 _ rfl
    · simp only [Outcome.andThen_done] at h
      obtain ⟨x, hx, h⟩ := h
      have hx2 := exactFixLoop_ok hV.S hw hn hE2 hL2 p 1 x (by omega) (fun j h1 h2 => hl2.two j (by omega)) hx
      split at h
      · rename_i e
        simp only [Outcome.done.injEq, Prod.mk.injEq] at h
        obtain ⟨rfl, rfl⟩ := h
        refine ⟨⟨hE2, hL2, fun hc => (hfix hc).1⟩, fun a ha => ?_, fun e => by cases e⟩
        cases ha
        exact fun _ => hx2 _ rfl
      · simp only [Outcome.andThen_done] at h
        obtain ⟨⟨r3, st3⟩, h3, h⟩ := h
        have Q := exactQuery_ok hV hw hs (cnt := True) (fun _ _ => rfl) fuel p _ _ _ _ _ hn.init hn.query hE2 h3
        have hL3 := hL2.of_eq Q.lt
        have hF3 : V.S.Complete → FixInv ts st3 := by
          intro hc
          exact (hfix hc).1.of_eq Q.left Q.right
        have hl3 := hl2.mono Q.str
        split at h
        · rename_i g n hr
          simp only at hr
          subst hr
          simp only [Outcome.done.injEq, Prod.mk.injEq] at h
          obtain ⟨rfl, rfl⟩ := h
          have H := Q.hit g n rfl
          refine ⟨⟨Q.inv, hL3, hF3⟩, fun a ha => ?_, fun e => by cases e⟩
          cases ha
          refine ⟨H.over, H.nonempty, fun t ht => ⟨H.sub t ht, ?_⟩⟩
          obtain ⟨s, hs, p⟩ := H.reach t ht
          exact ⟨s, hs, _, p, fun _ => (H.count trivial).symm⟩
        · rename_i hr
          simp only at hr
          subst hr
          simp only [Outcome.andThen_done] at h
          obtain ⟨x3, hx3, h⟩ := h
          have hxx := exactFixLoop_ok hV.S hw hn Q.inv hL3 p 1 x3 (by omega) (fun j h1 h2 => hl3.two j (by omega)) hx3
          split at h
          · simp only [Outcome.done.injEq, Prod.mk.injEq] at h
            obtain ⟨rfl, rfl⟩ := h
            refine ⟨⟨Q.inv, hL3, hF3⟩, fun a ha => ?_, fun e => by cases e⟩
            cases ha
            exact fun _ => hxx _ rfl
          · simp only [Outcome.done.injEq, Prod.mk.injEq] at h
            obtain ⟨rfl, rfl⟩ := h
            exact ⟨⟨Q.inv, hL3, hF3⟩, fun a ha => (by cases ha), fun _ => ⟨hl3, Q.miss rfl⟩⟩

/-! ### TPABasic -/

theorem TS.reflexive_wf (hw : ts.WF) : ts.reflexive.WF := by
  refine ⟨hw.init, hw.query, ?_, hw.stateCur, hw.auxCur, hw.nodup, hw.sep⟩
  intro x hx
  simp only [TS.reflexive, Fla.vars, List.mem_append] at hx
  rcases hx with hx | hx
  · rcases TS.identity_pure x hx with h | h
    · rw [TS.varsAt_zero] at h; exact .inl h
    · exact .inr (.inl h)
  · exact hw.trans x hx

theorem TS.reflexive_noAux (hn : ts.NoAux) : ts.reflexive.NoAux := ⟨hn.init, hn.query⟩

theorem TS.reflexive_step (hw : ts.WF) {s t : TS.State T} :
    ts.reflexive.sem.Step s t ↔ (s = t ∧ ts.Rep s) ∨ ts.sem.Step s t := by
  rw [← TS.rel_trans, ← TS.rel_trans, ← TS.rel_identity hw]
  constructor
  · rintro ⟨ρ, h, e0, e1⟩
    rcases h with h | h
    · exact .inl ⟨ρ, h, e0, e1⟩
    · exact .inr ⟨ρ, h, e0, e1⟩
  · rintro (⟨ρ, h, e0, e1⟩ | ⟨ρ, h, e0, e1⟩)
    · exact ⟨ρ, .inl h, e0, e1⟩
    · exact ⟨ρ, .inr h, e0, e1⟩

theorem TS.reflexive_path (hw : ts.WF) {n : Nat} {s t : TS.State T} (h : ts.reflexive.sem.Path n s t) :
    ∃ m, m ≤ n ∧ ts.sem.Path m s t := by
  induction h with
  | refl s => exact ⟨0, Nat.le_refl _, .refl s⟩
  | snoc _ st ih =>
    obtain ⟨m, hm, p⟩ := ih
    rcases (TS.reflexive_step hw).1 st with ⟨rfl, _⟩ | st
    · exact ⟨m, by omega, p⟩
    · exact ⟨m + 1, by omega, .snoc p st⟩

theorem TS.path_reflexive (hw : ts.WF) {n m : Nat} {s t : TS.State T} (hr : ts.Rep s) (h : ts.sem.Path m s t) (hm : m ≤ n) :
    ts.reflexive.sem.Path n s t := by
  have base : ts.reflexive.sem.Path m s t := by
    clear hm
    induction h with
    | refl s => exact .refl s
    | snoc _ st ih => exact .snoc (ih hr) ((TS.reflexive_step hw).2 (.inr st))
  have ht := TS.rep_path hr h
  obtain ⟨k, rfl⟩ : ∃ k, n = m + k := ⟨n - m, by omega⟩
  clear hm
  induction k with
  | zero => exact base
  | succ k ih => exact .snoc ih ((TS.reflexive_step hw).2 (.inl ⟨rfl, ht⟩))

theorem basicCheckPower_ok (hV : V.Ok) (hw : ts.WF) (hn : ts.NoAux) {fuel p : Nat}
    {st st' : TpaState T} {r : Option (TpaAnswer T)} (hI : TpaInv .basic ts V.S.Complete st) (hl : LvlBasic ts st p)
    (h : basicCheckPower V ts fuel p st = .done (r, st')) :
    TpaInv .basic ts V.S.Complete st' ∧ (∀ a, r = some a → AnsOk .basic ts V.S.Complete st' a) ∧
      (r = none → LvlBasic ts st' (p + 1)) := by
  have hwr := TS.reflexive_wf hw
  have hnr := TS.reflexive_noAux hn
  obtain ⟨hE, hF⟩ := hI
  unfold basicCheckPower at h
  simp only [Outcome.andThen_done] at h
  obtain ⟨⟨r1, st1⟩, h1, h⟩ := h
  have P := exactQuery_ok hV hwr (hnr.auxSep hwr) (cnt := False) (fun h => h.elim) fuel p _ _ _ _ _ hnr.init hnr.query hE h1
  have hF1 : V.S.Complete → FixInv ts st1 := by
    intro hc
    exact (hF hc).of_eq P.left P.right
  split at h
  · rename_i g n hr
    simp only at hr
    subst hr
    simp only [Outcome.done.injEq, Prod.mk.injEq] at h
    obtain ⟨rfl, rfl⟩ := h
    have H := P.hit g n rfl
    refine ⟨⟨P.inv, hF1⟩, fun a ha => ?_, fun e => by cases e⟩
    cases ha
    refine ⟨H.over, H.nonempty, fun t ht => ⟨H.sub t ht, ?_⟩⟩
    obtain ⟨s, hs, p⟩ := H.reach t ht
    obtain ⟨m, _, p'⟩ := TS.reflexive_path hw p
    exact ⟨s, hs, m, p', fun e => by cases e⟩
  · rename_i hr
    simp only at hr
    subst hr
    have hl1 : LvlBasic ts st1 (p + 1) := by
      have := hl.mono P.str
      obtain ⟨f', b1, b2⟩ := P.miss rfl
      intro i h1 h2
      by_cases e : i = p + 1
      · subst e; exact ⟨f', b1, b2⟩
      · exact this i h1 (by omega)
    simp only [Outcome.andThen_done] at h
    obtain ⟨⟨r2, st2⟩, h2, h⟩ := h
    have sp := ltFixLoop_same _ _ _ _ _ h2
    have hl2 := hl1.mono sp.stronger
    have hE2 : PowInv ts.reflexive False st2 := P.inv.of_eq sp.exact sp.comps sp.cache
    have hfix : V.S.Complete → FixInv ts st2 ∧ ∀ e, r2 = some e → ExplOk ts st2 e := by
      intro hc
      obtain ⟨a1, _, a3⟩ := ltFixLoop_ok hV.S hc hw hn (pw := TpaState.exact) (fun st st' h => h.exact) _ _ _ _ _ (by
        intro j f h1 h2 h3
        obtain ⟨f', b1, b2⟩ := hl1 j h1 (by omega)
        rw [h3] at b1; cases b1
        refine ⟨P.inv.pure _ _ (by omega) h3, fun s hr => P.inv.sup j f s s h3 (TS.path_reflexive hw hr (.refl s) (Nat.zero_le _)),
          b2⟩) (hF1 hc) h2
      exact ⟨a1, a3⟩
    split at h
    · rename_i e he
      simp only at he
      subst he
      simp only [Outcome.done.injEq, Prod.mk.injEq] at h
      obtain ⟨rfl, rfl⟩ := h
      refine ⟨⟨hE2, fun hc => (hfix hc).1⟩, fun a ha => ?_, fun e => by cases e⟩
      cases ha
      exact fun hc => (hfix hc).2 _ rfl
    · simp only [Outcome.done.injEq, Prod.mk.injEq] at h
      obtain ⟨rfl, rfl⟩ := h
      exact ⟨⟨hE2, fun hc => (hfix hc).1⟩, fun a ha => (by cases ha), fun _ => hl2⟩

/-! ### Both cores -/

theorem checkPower_ok (hV : V.Ok) {core : Core} (hw : ts.WF) (hn : ts.NoAux)
    (hne : core = .split → ts.init = ts.query → ∃ s, ts.sem.Init s) {fuel p : Nat}
    {st st' : TpaState T} {r : Option (TpaAnswer T)} (hI : TpaInv core ts V.S.Complete st) (hl : Lvl core ts st p)
    (h : checkPower V core ts fuel p st = .done (r, st')) :
    TpaInv core ts V.S.Complete st' ∧ (∀ a, r = some a → AnsOk core ts V.S.Complete st' a) ∧ (r = none → Lvl core ts st' (p + 1)) := by
  cases core with
  | split =>
    obtain ⟨a, b, c⟩ := splitCheckPower_ok hV hw hn (hne rfl) hI hl h
    exact ⟨a, b, fun e => (c e).1⟩
  | basic => exact basicCheckPower_ok hV hw hn hI hl h

theorem tpaPowers_ok (hV : V.Ok) {core : Core} (hw : ts.WF) (hn : ts.NoAux)
    (hne : core = .split → ts.init = ts.query → ∃ s, ts.sem.Init s) {fuel : Nat} :
    ∀ (n p : Nat) (st st' : TpaState T) (a : TpaAnswer T), TpaInv core ts V.S.Complete st → Lvl core ts st p →
      tpaPowers V core ts fuel n p st = .done (a, st') →
      TpaInv core ts V.S.Complete st' ∧ AnsOk core ts V.S.Complete st' a := by
  intro n
  induction n with
  | zero => intro p st st' a _ _ h; cases h
  | succ n ih =>
    intro p st st' a hI hl h
    unfold tpaPowers at h
    simp only [Outcome.andThen_done] at h
    obtain ⟨⟨r, st1⟩, h1, h⟩ := h
    obtain ⟨a1, a2, a3⟩ := checkPower_ok hV hw hn hne hI hl h1
    split at h
    · rename_i x hx
      simp only at hx
      subst hx
      simp only [Outcome.done.injEq, Prod.mk.injEq] at h
      obtain ⟨rfl, rfl⟩ := h
      exact ⟨a1, a2 _ rfl⟩
    · rename_i hx
      simp only at hx
      exact ih _ _ _ _ a1 (a3 hx) h

theorem lvl_zero {core : Core} {st : TpaState T} : Lvl core ts st 0 := by
  cases core with
  | split => exact ⟨fun i hi => by omega, fun i h1 h2 => by omega⟩
  | basic => exact fun i h1 h2 => by omega

theorem tpaTrivial_ok (hw : ts.WF) {st : TpaState T} {e : Expl T} (h : tpaTrivial ts = some e) : ExplOk ts st e := by
  have htt : ∀ s t, ts.Rep s → ts.Rep t → ts.rel (.tt : Fla T) s t := by
    intro s t hs ht
    obtain ⟨ρ, e0, e1, _⟩ := TS.exists_val3 hw hs ht ht
    exact ⟨ρ, trivial, e0, e1⟩
  unfold tpaTrivial at h
  split at h
  · rename_i hq
    cases h
    refine ⟨by decide, fun x hx => (by simp [Fla.vars] at hx), fun s hr => htt s s hr hr, ?_, fun s u t _ h1 h2 =>
      htt s t (TS.rep_src h1) (TS.rel_rep h2).2⟩
    intro s t _ ht
    rw [hq] at ht
    obtain ⟨ρ, h, _⟩ := ht
    exact h.elim
  · split at h
    · rename_i hq
      cases h
      refine ⟨by decide, fun x hx => (by simp [Fla.vars] at hx), fun s hr => htt s s hr hr, ?_, fun s u t _ h1 h2 =>
        htt s t (TS.rel_rep h1).1 (TS.rep_tgt h2)⟩
      intro s t hs
      rw [hq] at hs
      obtain ⟨ρ, h, _⟩ := hs
      exact h.elim
    · cases h

theorem tpaSolve_ok (hV : V.Ok) {core : Core} (hw : ts.WF) (hn : ts.NoAux)
    (hne : core = .split → ts.init = ts.query → ts.init ≠ .ff → ∃ s, ts.sem.Init s) {fuel : Nat} {st st' : TpaState T} {a : TpaAnswer T}
    (hI : TpaInv core ts V.S.Complete st) (h : tpaSolve V core ts fuel st = .done (a, st')) :
    TpaInv core ts V.S.Complete st' ∧ AnsOk core ts V.S.Complete st' a := by
  unfold tpaSolve at h
  split at h
  · rename_i e he
    simp only [Outcome.done.injEq, Prod.mk.injEq] at h
    obtain ⟨rfl, rfl⟩ := h
    exact ⟨hI, fun _ => tpaTrivial_ok hw he⟩
  · rename_i he
    have hi : ts.init ≠ .ff := by
      intro e
      simp only [tpaTrivial, e, if_true] at he
      split at he <;> cases he
    exact tpaPowers_ok hV hw hn (fun a b => hne a b hi) _ _ _ _ _ hI lvl_zero h

/-! ### Resets -/

theorem fixInv_nil {st : TpaState T} (h1 : st.left = []) (h2 : st.right = []) (hw : ts.WF) : FixInv ts st := by
  intro side
  have e : st.invs side = [] := by cases side <;> assumption
  rw [e]
  refine ⟨fun c hc => (by cases hc), fun c hc => (by cases hc), ?_⟩
  have key : ∀ s t, ts.Rep s → ts.Rep t → ts.rel (Fla.conj ([] : List (Fla T))) s t := fun s t hs ht =>
    (TS.rel_conj hw (fun c hc => by cases hc)).2 ⟨hs, ht, fun c hc => by cases hc⟩
  cases side with
  | right => exact fun s u t h1 h2 => key s t (TS.rel_rep h1).1 (TS.rep_tgt h2)
  | left => exact fun s u t h1 h2 => key s t (TS.rep_src h1) (TS.rel_rep h2).2

theorem exInv_first {cnt : Prop} {tr : Fla T} {st st' : TpaState T} (htr : ts.trans = tr) (h1 : st.exact = fun _ => none)
    (h2 : st.comps = fun _ => []) (h3 : st.cache = fun _ => []) (h : st.storeExact ts 0 tr = some st') : PowInv ts cnt st' := by
  subst htr
  unfold TpaState.storeExact at h
  rw [if_neg (by simp)] at h
  simp only [Option.some.injEq] at h
  subst h
  simp only [h1, h2, h3]
  refine ⟨by simp [updAt], ?_, ?_, ?_, fun p e he => by cases he⟩
  · intro p f hp hf; simp [updAt, hp] at hf
  · intro p f s t hf p'
    simp only [updAt] at hf
    split at hf
    · rename_i e; subst e; cases hf
      cases p' with
      | snoc h st => cases h; exact TS.rel_trans.2 st
    · cases hf
  · intro p ρ
    by_cases e : p = 0
    · subst e
      simp only [updAt, if_true, AllHold, List.nil_append, List.mem_singleton, Option.some.injEq]
      constructor
      · intro hh f hf; subst hf; exact hh _ rfl
      · intro hh f hf; subst hf; exact hh _ rfl
    · simp only [updAt, show ¬ p + 1 = 0 + 1 by omega, if_false, e]
      constructor
      · intro _ f hf; cases hf
      · intro _ f hf; cases hf

theorem tpaReset_ok {core : Core} (hw : ts.WF) {complete : Prop} {st : TpaState T} (h : tpaReset core ts = some st) :
    TpaInv core ts complete st := by
  unfold tpaReset at h
  cases core with
  | split =>
    simp only [Option.map_eq_some_iff] at h
    obtain ⟨st1, h1, rfl⟩ := h
    have hE := exInv_first (ts := ts) (cnt := True) rfl rfl rfl rfl h1
    have hlr : st1.left = [] ∧ st1.right = [] ∧ st1.lt = fun _ => none := by
      unfold TpaState.storeExact at h1
      split at h1
      · cases h1
      · simp only [Option.some.injEq] at h1; subst h1; exact ⟨rfl, rfl, rfl⟩
    refine ⟨hE.of_eq rfl rfl rfl, ⟨by simp [updAt], ?_, ?_⟩, fun _ => fixInv_nil hlr.1 hlr.2.1 hw⟩
    · intro p f hf
      simp only [updAt] at hf
      split at hf
      · cases hf; exact TS.identity_pure
      · rw [hlr.2.2] at hf; cases hf
    · intro p f s t m hf hm hr p'
      simp only [updAt] at hf
      split at hf
      · rename_i e; subst e; cases hf
        have : m = 0 := by simpa using hm
        subst this
        cases p'
        exact (TS.rel_identity hw).2 ⟨rfl, hr⟩
      · rw [hlr.2.2] at hf; cases hf
  | basic =>
    simp only at h
    have hlr : st.left = [] ∧ st.right = [] := by
      unfold TpaState.storeExact at h
      split at h
      · cases h
      · simp only [Option.some.injEq] at h; subst h; exact ⟨rfl, rfl⟩
    exact ⟨exInv_first (ts := ts.reflexive) rfl rfl rfl rfl h, fun _ => fixInv_nil hlr.1 hlr.2 hw⟩

theorem tpaInv_clear {core : Core} {complete : Prop} {st : TpaState T} (h : TpaInv core ts complete st) :
    TpaInv core ts complete st.clear := by
  cases core with
  | split =>
    obtain ⟨a, b, c⟩ := h
    exact ⟨⟨a.zero, a.pure, a.sup, a.comps, fun p e he => by cases he⟩, ⟨b.zero, b.pure, b.sup⟩, c⟩
  | basic =>
    obtain ⟨a, c⟩ := h
    exact ⟨⟨a.zero, a.pure, a.sup, a.comps, fun p e he => by cases he⟩, c⟩

theorem STS.Path.steps {σ : Type} {M M' : STS σ} {n : Nat} {s t : σ} (p : M.Path n s t)
    (h : ∀ s t, M.Step s t → M'.Step s t) : M'.Path n s t := by
  induction p with
  | refl s => exact .refl s
  | snoc _ st ih => exact .snoc ih (h _ _ st)

/-- Changing the initial and the query states keeps the invariant. -/
theorem tpaInv_retarget {core : Core} {complete : Prop} {st : TpaState T} (a b : Fla T) (h : TpaInv core ts complete st) :
    TpaInv core { ts with init := a, query := b } complete st := by
  have exInv : ∀ (ts : TS T) (cnt : Prop), PowInv ts cnt st → PowInv { ts with init := a, query := b } cnt st := by
    intro ts cnt h
    refine ⟨h.zero, h.pure, fun p f s t hf hp => h.sup p f s t hf (hp.steps fun _ _ h => h), h.comps, fun p e he => ?_⟩
    have := h.cache p e he
    refine ⟨this.over, this.nonempty, this.count, this.sub, fun t ht => ?_⟩
    obtain ⟨s, hs, p⟩ := this.reach t ht
    exact ⟨s, hs, p.steps fun _ _ h => h⟩
  have fixInv : FixInv ts st → FixInv { ts with init := a, query := b } st := by
    intro h side
    exact ⟨(h side).pure, (h side).ident, by
      have := (h side).closed
      cases side
      · exact this
      · exact this⟩
  cases core with
  | split =>
    obtain ⟨h1, h2, h3⟩ := h
    exact ⟨exInv ts True h1, ⟨h2.zero, h2.pure, fun p f s t m hf hm hr hp => h2.sup p f s t m hf hm hr (hp.steps fun _ _ h => h)⟩,
      fun hc => fixInv (h3 hc)⟩
  | basic =>
    obtain ⟨h1, h3⟩ := h
    exact ⟨exInv ts.reflexive False h1, fun hc => fixInv (h3 hc)⟩

end Golem
