import Verif.Lemmas.TPAQuery

/-! Houdini and the fixed-point checks of TPA. -/

namespace Golem
variable {T : Theory} {S : Smt T} {ts : TS T}

theorem TS.PureTr.conj {l : List (Fla T)} (h : ∀ c ∈ l, ts.PureTr c) : ts.PureTr (Fla.conj l) := by
  intro x hx
  rw [Fla.mem_vars_conj] at hx
  obtain ⟨f, hf, hx⟩ := hx
  exact h f hf x hx

theorem TS.PureTr.and {f g : Fla T} (hf : ts.PureTr f) (hg : ts.PureTr g) : ts.PureTr (.and f g) := by
  intro x hx
  simp only [Fla.vars, List.mem_append] at hx
  exact hx.elim (hf x) (hg x)

theorem TS.rel_conj (hw : ts.WF) {l : List (Fla T)} (h : ∀ c ∈ l, ts.PureTr c) {s t : TS.State T} :
    ts.rel (Fla.conj l) s t ↔ ts.Rep s ∧ ts.Rep t ∧ ∀ c ∈ l, ts.rel c s t := by
  constructor
  · intro hr
    refine ⟨(TS.rel_rep hr).1, (TS.rel_rep hr).2, fun c hc => TS.rel_mono (fun ρ hρ => ?_) hr⟩
    rw [Fla.holds_conj] at hρ
    exact hρ c hc
  · rintro ⟨rs, rt, hh⟩
    obtain ⟨ρ, e0, e1, _⟩ := TS.exists_val3 hw rs rt rt
    refine ⟨ρ, ?_, e0, e1⟩
    rw [Fla.holds_conj]
    intro c hc
    rw [← TS.rel_iff (h c hc), e0, e1]
    exact hh c hc

/-- Extending a relation by one step on one side gives pairs of another relation. -/
def TS.Closed (ts : TS T) (side : Side) (R R' : TS.State T → TS.State T → Prop) : Prop :=
  match side with
  | .right => ∀ s u t, R s u → ts.sem.Step u t → R' s t
  | .left => ∀ s u t, ts.sem.Step s u → R u t → R' s t

theorem TS.Closed.path {side : Side} {R : TS.State T → TS.State T → Prop} (h : ts.Closed side R R)
    (hid : ∀ s, ts.Rep s → R s s) {m : Nat} {s t : TS.State T} (hr : ts.Rep s) (p : ts.sem.Path m s t) : R s t := by
  cases side with
  | right =>
    induction p with
    | refl s => exact hid s hr
    | snoc p st ih => exact h _ _ _ (ih hr) st
  | left =>
    induction m generalizing s with
    | zero => cases p; exact hid _ hr
    | succ m ih =>
      obtain ⟨u, st, p'⟩ := p.uncons
      exact h _ _ _ st (ih (TS.rep_tgt st) p')

/-- A Houdini query that is not satisfiable shows closedness. -/
theorem houdini_closed (hS : S.Sound) (hc : S.Complete) (hw : ts.WF) (hs : ts.AuxSep) {side : Side} {cands goal : Fla T}
    (h1 : ts.PureTr cands) (h2 : ts.PureTr goal) (h : S.check (houdiniQuery ts side cands goal) ≠ .sat) :
    ts.Closed side (ts.rel cands) (ts.rel goal) := by
  have hu := hS.unsat _ ((hc (houdiniQuery ts side cands goal)).resolve_left h)
  cases side with
  | right =>
    intro s u t hsu hut
    obtain ⟨ρ, hρ, htr, _, _⟩ := TS.realize hw hs (fun i => if i = 0 then s else if i = 1 then u else t)
      (fun i => by
        have := TS.rel_rep hsu
        have := TS.rep_tgt hut
        by_cases h0 : i = 0 <;> by_cases h1 : i = 1 <;> simp [*]) 0 0
    have e0 : ts.stateAt ρ 0 = s := by simpa using hρ 0
    have e1 : ts.stateAt ρ 1 = u := by simpa using hρ 1
    have e2 : ts.stateAt ρ 2 = t := by simpa using hρ 2
    have t1 := htr 1 (by simpa using hut)
    rcases Classical.em (ts.rel goal s t) with hg | hg
    · exact hg
    · exfalso
      refine hu ⟨ρ, fun f hf => ?_⟩
      simp only [houdiniQuery, List.mem_cons, List.not_mem_nil, or_false] at hf
      rcases hf with rfl | rfl
      · simpa using t1
      · refine ⟨?_, ?_⟩
        · rw [← TS.rel_iff h1, e0, e1]; exact hsu
        · rw [Fla.holds, TS.shiftNext_holds hw h2, e0, e2]; exact hg
  | left =>
    intro s u t hsu hut
    obtain ⟨ρ, hρ, htr, _, _⟩ := TS.realize hw hs (fun i => if i = 0 then s else if i = 1 then u else t)
      (fun i => by
        have := TS.rel_rep hut
        have := TS.rep_src hsu
        by_cases h0 : i = 0 <;> by_cases h1 : i = 1 <;> simp [*]) 0 0
    have e0 : ts.stateAt ρ 0 = s := by simpa using hρ 0
    have e1 : ts.stateAt ρ 1 = u := by simpa using hρ 1
    have e2 : ts.stateAt ρ 2 = t := by simpa using hρ 2
    have t1 := htr 0 (by simpa using hsu)
    rcases Classical.em (ts.rel goal s t) with hg | hg
    · exact hg
    · exfalso
      refine hu ⟨ρ, fun f hf => ?_⟩
      simp only [houdiniQuery, List.mem_cons, List.not_mem_nil, or_false] at hf
      rcases hf with rfl | rfl
      · simpa [sendFla] using t1
      · refine ⟨?_, ?_⟩
        · rw [← TS.rel_at h1, e1]; simp only [Int.reduceAdd, e2]; exact hut
        · rw [Fla.holds, TS.shiftNext_holds hw h2, e0, e2]; exact hg

/-- Squashing keeps the conjunction and introduces no variable. -/
theorem squashPass_ok : ∀ (i j : Nat) (cs : List (Fla T)), cs.length = i + 1 →
    (∀ ρ, (∀ c ∈ squashPass i j cs, c.holds ρ) ↔ ∀ c ∈ cs, c.holds ρ) ∧
    ∀ c ∈ squashPass i j cs, ∀ x ∈ c.vars, ∃ d ∈ cs, x ∈ d.vars := by
  intro i
  induction i with
  | zero => intro j cs _; exact ⟨fun _ => Iff.rfl, fun c hc x hx => ⟨c, hc, hx⟩⟩
  | succ i ih =>
    intro j cs hl
    unfold squashPass
    split
    · rename_i hij
      split
      · rename_i a b ha hb
        have hj : j < cs.length := (List.getElem?_eq_some_iff.1 ha).1
        have hmem : ∀ c ∈ cs.dropLast.set j (.and a b), c ∈ cs ∨ c = .and a b := by
          intro c hc
          rcases List.mem_or_eq_of_mem_set hc with h | h
          · exact .inl ((List.dropLast_sublist _).subset h)
          · exact .inr h
        have ham : a ∈ cs := List.mem_of_getElem? ha
        have hbm : b ∈ cs := List.mem_of_getElem? hb
        have hconj : ∀ ρ, (∀ c ∈ cs.dropLast.set j (.and a b), c.holds ρ) ↔ ∀ c ∈ cs, c.holds ρ := by
          intro ρ
          constructor
          · intro h c hc
            have hab : (Fla.and a b).holds ρ := h _ (List.mem_iff_getElem?.2 ⟨j, by
              rw [List.getElem?_set_self (by rw [List.length_dropLast]; omega)]⟩)
            obtain ⟨k, hk⟩ := List.mem_iff_getElem?.1 hc
            have hkl := (List.getElem?_eq_some_iff.1 hk).1
            by_cases e1 : k = j
            · subst e1
              rw [ha] at hk; cases hk
              exact hab.1
            · by_cases e2 : k = i + 1
              · subst e2
                rw [hb] at hk; cases hk
                exact hab.2
              · refine h c (List.mem_iff_getElem?.2 ⟨k, ?_⟩)
                rw [List.getElem?_set_ne (fun e => e1 e.symm), List.getElem?_dropLast, if_pos (by omega)]
                exact hk
          · intro h c hc
            rcases hmem c hc with hm | rfl
            · exact h c hm
            · exact ⟨h a ham, h b hbm⟩
        have hvars : ∀ c ∈ cs.dropLast.set j (.and a b), ∀ x ∈ c.vars, ∃ d ∈ cs, x ∈ d.vars := by
          intro c hc x hx
          rcases hmem c hc with hm | rfl
          · exact ⟨c, hm, hx⟩
          · simp only [Fla.vars, List.mem_append] at hx
            rcases hx with hx | hx
            · exact ⟨a, ham, hx⟩
            · exact ⟨b, hbm, hx⟩
        simp only
        split
        · exact ⟨hconj, hvars⟩
        · obtain ⟨h1, h2⟩ := ih (j + 1) (cs.dropLast.set j (.and a b)) (by simp; omega)
          refine ⟨fun ρ => (h1 ρ).trans (hconj ρ), fun c hc x hx => ?_⟩
          obtain ⟨d, hd, hx⟩ := h2 c hc x hx
          exact hvars d hd x hx
      · exact ⟨fun _ => Iff.rfl, fun c hc x hx => ⟨c, hc, hx⟩⟩
    · exact ⟨fun _ => Iff.rfl, fun c hc x hx => ⟨c, hc, hx⟩⟩

theorem squash_ok : ∀ (fuel : Nat) (cs : List (Fla T)),
    (∀ ρ, (∀ c ∈ squashInvariants fuel cs, c.holds ρ) ↔ ∀ c ∈ cs, c.holds ρ) ∧
    ∀ c ∈ squashInvariants fuel cs, ∀ x ∈ c.vars, ∃ d ∈ cs, x ∈ d.vars := by
  intro fuel
  induction fuel with
  | zero => intro cs; exact ⟨fun _ => Iff.rfl, fun c hc x hx => ⟨c, hc, hx⟩⟩
  | succ fuel ih =>
    intro cs
    unfold squashInvariants
    split
    · obtain ⟨a1, a2⟩ := squashPass_ok (cs.length - 1) 0 cs (by omega)
      obtain ⟨b1, b2⟩ := ih (squashPass (cs.length - 1) 0 cs)
      refine ⟨fun ρ => (b1 ρ).trans (a1 ρ), fun c hc x hx => ?_⟩
      obtain ⟨d, hd, hx⟩ := b2 c hc x hx
      exact a2 d hd x hx
    · exact ⟨fun _ => Iff.rfl, fun c hc x hx => ⟨c, hc, hx⟩⟩

theorem houdiniPass_sub {side : Side} : ∀ (i : Nat) (cs : List (Fla T)), ∀ c ∈ houdiniPass S ts side i cs, c ∈ cs := by
  intro i
  induction i with
  | zero => intro cs c hc; exact hc
  | succ i ih =>
    intro cs c hc
    unfold houdiniPass at hc
    split at hc
    · exact ih cs c hc
    · rename_i d hd
      split at hc
      · have := (List.dropLast_sublist _).subset (ih _ c hc)
        rcases List.mem_or_eq_of_mem_set this with h | h
        · exact h
        · subst h
          cases hg : cs.getLast? with
          | none => simpa using List.mem_of_getElem? hd
          | some e => simpa using List.mem_of_getLast? hg
      · exact ih cs c hc

/-- A set of conjuncts that contains the identity and is closed under steps on one side. -/
structure InvSet (ts : TS T) (side : Side) (l : List (Fla T)) : Prop where
  pure : ∀ c ∈ l, ts.PureTr c
  ident : ∀ c ∈ l, ∀ s, ts.Rep s → ts.rel c s s
  closed : ts.Closed side (ts.rel (Fla.conj l)) (ts.rel (Fla.conj l))

theorem houdiniLoop_ok (hS : S.Sound) (hc : S.Complete) (hw : ts.WF) (hs : ts.AuxSep) {side : Side} :
    ∀ (fuel : Nat) (whole : Fla T) (cs r : List (Fla T)), ts.PureTr whole → (∀ ρ, whole.holds ρ ↔ ∀ c ∈ cs, c.holds ρ) →
      (∀ c ∈ cs, ts.PureTr c) → (∀ c ∈ cs, ∀ s, ts.Rep s → ts.rel c s s) →
      houdiniLoop S ts side fuel whole cs = .done r → InvSet ts side r := by
  intro fuel
  induction fuel with
  | zero => intro whole cs r _ _ _ _ h; cases h
  | succ fuel ih =>
    intro whole cs r hwp heq hp hid h
    unfold houdiniLoop at h
    split at h
    · have hsub := houdiniPass_sub (S := S) (ts := ts) (side := side) cs.length cs
      refine ih _ _ _ (TS.PureTr.conj fun c hc => hp c (hsub c hc)) (fun ρ => Fla.holds_conj) (fun c hc => hp c (hsub c hc))
        (fun c hc => hid c (hsub c hc)) h
    · rename_i hns
      cases h
      refine ⟨hp, hid, ?_⟩
      have := houdini_closed hS hc hw hs hwp hwp hns
      have e : ∀ s t, ts.rel (Fla.conj cs) s t ↔ ts.rel whole s t := fun s t =>
        ⟨TS.rel_mono fun ρ h => (heq ρ).2 (Fla.holds_conj.1 h), TS.rel_mono fun ρ h => Fla.holds_conj.2 ((heq ρ).1 h)⟩
      cases side with
      | right => intro s u t h1 h2; rw [e] at *; exact this s u t h1 h2
      | left => intro s u t h1 h2; rw [e] at *; exact this s u t h1 h2

theorem InvSet.union (hw : ts.WF) {side : Side} {a b c : List (Fla T)} (ha : InvSet ts side a) (hb : InvSet ts side b)
    (h : ∀ f, f ∈ c ↔ f ∈ a ∨ f ∈ b) : InvSet ts side c := by
  have hp : ∀ f ∈ c, ts.PureTr f := fun f hf => ((h f).1 hf).elim (ha.pure f) (hb.pure f)
  refine ⟨hp, fun f hf => ((h f).1 hf).elim (ha.ident f) (hb.ident f), ?_⟩
  have e : ∀ s t, ts.rel (Fla.conj c) s t ↔ ts.rel (Fla.conj a) s t ∧ ts.rel (Fla.conj b) s t := by
    intro s t
    rw [TS.rel_conj hw hp, TS.rel_conj hw ha.pure, TS.rel_conj hw hb.pure]
    constructor
    · rintro ⟨x, y, z⟩
      exact ⟨⟨x, y, fun f hf => z f ((h f).2 (.inl hf))⟩, ⟨x, y, fun f hf => z f ((h f).2 (.inr hf))⟩⟩
    · rintro ⟨⟨x, y, z⟩, ⟨_, _, z'⟩⟩
      exact ⟨x, y, fun f hf => ((h f).1 hf).elim (z f) (z' f)⟩
  cases side with
  | right =>
    intro s u t h1 h2
    rw [e] at *
    exact ⟨ha.closed s u t h1.1 h2, hb.closed s u t h1.2 h2⟩
  | left =>
    intro s u t h1 h2
    rw [e] at *
    exact ⟨ha.closed s u t h1 h2.1, hb.closed s u t h1 h2.2⟩

/-- The invariants kept in the state. -/
def FixInv (ts : TS T) (st : TpaState T) : Prop := ∀ side, InvSet ts side (st.invs side)

/-- Only the invariants differ. -/
structure SamePowers (st st' : TpaState T) : Prop where
  exact : st'.exact = st.exact
  lt : st'.lt = st.lt
  comps : st'.comps = st.comps
  cache : st'.cache = st.cache

theorem SamePowers.refl (st : TpaState T) : SamePowers st st := ⟨rfl, rfl, rfl, rfl⟩

theorem SamePowers.trans {a b c : TpaState T} (h : SamePowers a b) (h' : SamePowers b c) : SamePowers a c :=
  ⟨h'.1.trans h.1, h'.2.trans h.2, h'.3.trans h.3, h'.4.trans h.4⟩

theorem mem_addAll {cs l : List (Fla T)} {f : Fla T} :
    f ∈ cs.foldl (fun l c => if c ∈ l then l else l ++ [c]) l ↔ f ∈ l ∨ f ∈ cs := by
  induction cs generalizing l with
  | nil => simp
  | cons c cs ih =>
    rw [List.foldl_cons, ih]
    split
    · rename_i hc
      simp only [List.mem_cons]
      constructor
      · rintro (h | h)
        · exact .inl h
        · exact .inr (.inr h)
      · rintro (h | rfl | h)
        · exact .inl h
        · exact .inl hc
        · exact .inr h
    · simp only [List.mem_append, List.mem_cons, List.not_mem_nil, or_false, or_assoc]

theorem addInvs_ok (hw : ts.WF) {st : TpaState T} {side : Side} {cs : List (Fla T)} (h : FixInv ts st) (hcs : InvSet ts side cs) :
    FixInv ts (st.addInvs side cs) ∧ SamePowers st (st.addInvs side cs) := by
  refine ⟨fun sd => ?_, ?_⟩
  · cases side <;> cases sd
    · exact (h .left).union hw hcs fun f => mem_addAll
    · exact h .right
    · exact h .left
    · exact (h .right).union hw hcs fun f => mem_addAll
  · cases side <;> exact ⟨rfl, rfl, rfl, rfl⟩

theorem houdiniCheck_ok (hS : S.Sound) (hc : S.Complete) (hw : ts.WF) (hs : ts.AuxSep) {side : Side} {fuel : Nat} {cand : Fla T}
    {st st' : TpaState T} (hp : ts.PureTr cand) (hid : ∀ s, ts.Rep s → ts.rel cand s s) (hI : FixInv ts st)
    (h : houdiniCheck S ts side fuel cand st = .done st') : FixInv ts st' ∧ SamePowers st st' := by
  unfold houdiniCheck at h
  simp only [Outcome.andThen_done] at h
  obtain ⟨r, hr, h⟩ := h
  simp only [Outcome.done.injEq] at h
  subst h
  obtain ⟨q1, q2⟩ := squash_ok (getTopLevelJuncts .conj cand (fun _ => true)).length (getTopLevelJuncts .conj cand (fun _ => true))
  have hj : ∀ ρ, (∀ c ∈ getTopLevelJuncts .conj cand (fun _ => true), c.holds ρ) ↔ cand.holds ρ := fun ρ =>
    C31_juncts_recompose .conj cand ρ
  refine addInvs_ok hw hI (houdiniLoop_ok hS hc hw hs _ _ _ _ hp (fun ρ => ((q1 ρ).trans (hj ρ)).symm) ?_ ?_ hr)
  · intro c hc x hx
    obtain ⟨d, hd, hx⟩ := q2 c hc x hx
    exact hp x (juncts_vars hd x hx)
  · intro c hc s hs
    exact TS.rel_mono (fun ρ hρ => ((q1 ρ).trans (hj ρ)).2 hρ c hc) (hid s hs)

/-- What a SAFE answer rests on: for the relation type LESS_THAN a relation that contains the identity, is closed under steps
(perhaps only for initial states on the left, or query states on the right) and excludes the query; for EQUALS a pair of powers. -/
def ExplOk (ts : TS T) (st : TpaState T) : Expl T → Prop
  | .lt r .right inv => r ≠ .query ∧ ts.PureTr inv ∧ (∀ s, ts.Rep s → ts.rel inv s s) ∧ ts.Excl ts.init ts.query inv ∧
      ∀ s u t, (r = .init → ts.den ts.init s) → ts.rel inv s u → ts.sem.Step u t → ts.rel inv s t
  | .lt r .left inv => r ≠ .init ∧ ts.PureTr inv ∧ (∀ s, ts.Rep s → ts.rel inv s s) ∧ ts.Excl ts.init ts.query inv ∧
      ∀ s u t, (r = .query → ts.den ts.query t) → ts.sem.Step s u → ts.rel inv u t → ts.rel inv s t
  | .eq r i inv => i ≠ 0 ∧ ∃ f e, st.lt i = some f ∧ st.exact i = some e ∧ inv = .or (ts.shiftNext f) (.and f (sendFla e 1)) ∧
      ts.Excl2 ts.init ts.query f e ∧
      ∀ a b c, (r = .init → ∃ s, ts.den ts.init s ∧ ts.rel f s a) → (r = .query → ∃ t, ts.den ts.query t ∧ ts.rel f c t) →
        ts.rel e a b → ts.rel e b c → ts.rel e a c

theorem TS.den_init {s : TS.State T} : ts.den ts.init s ↔ ts.sem.Init s := Iff.rfl
theorem TS.den_query {s : TS.State T} : ts.den ts.query s ↔ ts.sem.Bad s := Iff.rfl

theorem ltFixSide_ok (hS : S.Sound) (hc : S.Complete) (hw : ts.WF) (hn : ts.NoAux) {side : Side} {fuel : Nat} {cur : Fla T}
    {st st' : TpaState T} {r : Option (Expl T)} (hp : ts.PureTr cur) (hid : ∀ s, ts.Rep s → ts.rel cur s s)
    (hex : ts.Excl ts.init ts.query cur) (hI : FixInv ts st) (h : ltFixSide S ts side fuel cur st = .done (r, st')) :
    FixInv ts st' ∧ SamePowers st st' ∧ ∀ e, r = some e → ExplOk ts st' e := by
  have hs := hn.auxSep hw
  unfold ltFixSide at h
  simp only [Outcome.andThen_done] at h
  obtain ⟨st1, h1, h⟩ := h
  obtain ⟨a1, a2⟩ := houdiniCheck_ok hS hc hw hs hp hid hI h1
  have hinv := a1 side
  have hip : ts.PureTr (.and (Fla.conj (st1.invs side)) cur) := (TS.PureTr.conj hinv.pure).and hp
  have hiid : ∀ s, ts.Rep s → ts.rel (.and (Fla.conj (st1.invs side)) cur) s s := fun s hr =>
    (TS.rel_and hp).2 ⟨(TS.rel_conj hw hinv.pure).2 ⟨hr, hr, fun c hc => hinv.ident c hc s hr⟩, hid s hr⟩
  have hiex : ts.Excl ts.init ts.query (.and (Fla.conj (st1.invs side)) cur) := hex.mono fun ρ h => h.2
  have key : ∀ (extra : List (Fla T)) (R : Prop), S.check (ltFixQuery ts side (st1.invs side) cur :: extra) = .unsat →
      match side with
      | .right => ∀ s u t, (∀ ρ : Valuation T, ts.stateAt ρ 0 = s → ts.stateAt ρ 2 = t → AllHold ρ extra) →
          ts.rel (.and (Fla.conj (st1.invs side)) cur) s u → ts.sem.Step u t → ts.rel (.and (Fla.conj (st1.invs side)) cur) s t
      | .left => ∀ s u t, (∀ ρ : Valuation T, ts.stateAt ρ 0 = s → ts.stateAt ρ 2 = t → AllHold ρ extra) →
          ts.sem.Step s u → ts.rel (.and (Fla.conj (st1.invs side)) cur) u t → ts.rel (.and (Fla.conj (st1.invs side)) cur) s t := by
    intro extra _ hu
    have hno := hS.unsat _ hu
    cases side with
    | right =>
      intro s u t hx hsu hut
      rw [TS.rel_and hp] at hsu ⊢
      refine ⟨hinv.closed s u t hsu.1 hut, ?_⟩
      rcases Classical.em (ts.rel cur s t) with hg | hg
      · exact hg
      · exfalso
        obtain ⟨ρ, hρ, htr, _, _⟩ := TS.realize hw hs (fun i => if i = 0 then s else if i = 1 then u else t)
          (fun i => by
            have := TS.rel_rep hsu.1
            have := TS.rep_tgt hut
            by_cases h0 : i = 0 <;> by_cases h1 : i = 1 <;> simp [*]) 0 0
        have e0 : ts.stateAt ρ 0 = s := by simpa using hρ 0
        have e1 : ts.stateAt ρ 1 = u := by simpa using hρ 1
        have e2 : ts.stateAt ρ 2 = t := by simpa using hρ 2
        have t1 := htr 1 (by simpa using hut)
        refine hno ⟨ρ, fun f hf => ?_⟩
        rcases List.mem_cons.1 hf with rfl | hf
        · simp only [ltFixQuery, Fla.holds_conj, List.mem_cons, List.not_mem_nil, or_false, forall_eq_or_imp, forall_eq]
          refine ⟨?_, ?_, by simpa using t1, ?_⟩
          · have := (TS.rel_iff (TS.PureTr.conj hinv.pure) (ρ := ρ)).1 (by rw [e0, e1]; exact hsu.1)
            exact Fla.holds_conj.1 this
          · rw [← TS.rel_iff hp, e0, e1]; exact hsu.2
          · rw [Fla.holds, TS.shiftNext_holds hw hp, e0, e2]; exact hg
        · exact hx ρ e0 e2 f hf
    | left =>
      intro s u t hx hsu hut
      rw [TS.rel_and hp] at hut ⊢
      refine ⟨hinv.closed s u t hsu hut.1, ?_⟩
      rcases Classical.em (ts.rel cur s t) with hg | hg
      · exact hg
      · exfalso
        obtain ⟨ρ, hρ, htr, _, _⟩ := TS.realize hw hs (fun i => if i = 0 then s else if i = 1 then u else t)
          (fun i => by
            have := TS.rel_rep hut.1
            have := TS.rep_src hsu
            by_cases h0 : i = 0 <;> by_cases h1 : i = 1 <;> simp [*]) 0 0
        have e0 : ts.stateAt ρ 0 = s := by simpa using hρ 0
        have e1 : ts.stateAt ρ 1 = u := by simpa using hρ 1
        have e2 : ts.stateAt ρ 2 = t := by simpa using hρ 2
        have t1 := htr 0 (by simpa using hsu)
        refine hno ⟨ρ, fun f hf => ?_⟩
        rcases List.mem_cons.1 hf with rfl | hf
        · simp only [ltFixQuery, Fla.holds_conj, List.mem_cons, List.not_mem_nil, or_false, forall_eq_or_imp, forall_eq]
          refine ⟨by simpa [sendFla] using t1, ?_, ?_, ?_⟩
          · rw [← TS.rel_at (TS.PureTr.conj hinv.pure), e1]; simp only [Int.reduceAdd, e2]; exact hut.1
          · rw [← TS.rel_at hp, e1]; simp only [Int.reduceAdd, e2]; exact hut.2
          · rw [Fla.holds, TS.shiftNext_holds hw hp, e0, e2]; exact hg
        · exact hx ρ e0 e2 f hf
  split at h
  · rename_i hu
    simp only [Outcome.done.injEq, Prod.mk.injEq] at h
    obtain ⟨rfl, rfl⟩ := h
    refine ⟨a1, a2, fun e he => ?_⟩
    cases he
    have := key [] True hu
    cases side with
    | right => exact ⟨by decide, hip, hiid, hiex, fun s u t _ => this s u t (fun ρ _ _ f hf => by cases hf)⟩
    | left => exact ⟨by decide, hip, hiid, hiex, fun s u t _ => this s u t (fun ρ _ _ f hf => by cases hf)⟩
  · split at h
    · rename_i hu
      simp only [Outcome.done.injEq, Prod.mk.injEq] at h
      obtain ⟨rfl, rfl⟩ := h
      refine ⟨a1, a2, fun e he => ?_⟩
      cases he
      have := key [ltRestrict ts side] True hu
      cases side with
      | right =>
        refine ⟨by decide, hip, hiid, hiex, fun s u t hi => this s u t (fun ρ e0 _ f hf => ?_)⟩
        simp only [List.mem_singleton] at hf
        subst hf
        exact (TS.den_zero hn.init).2 (e0 ▸ hi rfl)
      | left =>
        refine ⟨by decide, hip, hiid, hiex, fun s u t hi => this s u t (fun ρ _ e2 f hf => ?_)⟩
        simp only [List.mem_singleton] at hf
        subst hf
        exact (TS.den_send hn.query).2 (by rw [e2]; exact hi rfl)
    · simp only [Outcome.done.injEq, Prod.mk.injEq] at h
      obtain ⟨rfl, rfl⟩ := h
      exact ⟨a1, a2, fun e he => by cases he⟩

theorem invsSafe_ok (hS : S.Sound) (hw : ts.WF) (hn : ts.NoAux) {st : TpaState T} (hI : FixInv ts st) {e : Expl T}
    (h : invsSafe S ts st = some e) : ExplOk ts st e := by
  have key : ∀ side, S.check [Fla.conj [ts.init, Fla.conj (st.invs side), sendFla ts.query 1]] = .unsat →
      ts.Excl ts.init ts.query (Fla.conj (st.invs side)) := by
    intro side hu s t h1 h2 hr
    obtain ⟨ρ, hρ, e0, e1⟩ := hr
    refine hS.unsat _ hu ⟨ρ, fun f hf => ?_⟩
    simp only [List.mem_singleton] at hf
    subst hf
    rw [Fla.holds_conj]
    intro f hf
    simp only [List.mem_cons, List.not_mem_nil, or_false] at hf
    rcases hf with rfl | rfl | rfl
    · exact (TS.den_zero hn.init).2 (e0 ▸ h1)
    · exact hρ
    · exact (TS.den_send hn.query).2 (by rw [e1]; exact h2)
  have hid : ∀ side s, ts.Rep s → ts.rel (Fla.conj (st.invs side)) s s := fun side s hr =>
    (TS.rel_conj hw (hI side).pure).2 ⟨hr, hr, fun c hc => (hI side).ident c hc s hr⟩
  unfold invsSafe at h
  split at h
  · rename_i hu
    cases h
    exact ⟨by decide, TS.PureTr.conj (hI .right).pure, hid .right, key .right hu, fun s u t _ => (hI .right).closed s u t⟩
  · split at h
    · rename_i hu
      cases h
      exact ⟨by decide, TS.PureTr.conj (hI .left).pure, hid .left, key .left hu, fun s u t _ => (hI .left).closed s u t⟩
    · cases h

theorem ltFixLoop_ok (hS : S.Sound) (hc : S.Complete) (hw : ts.WF) (hn : ts.NoAux) {fuel : Nat}
    {pw : TpaState T → Nat → Option (Fla T)} (hpw : ∀ st st', SamePowers st st' → pw st' = pw st) :
    ∀ (n i : Nat) (st st' : TpaState T) (r : Option (Expl T)),
      (∀ j f, i ≤ j → j < i + n → pw st j = some f → ts.PureTr f ∧ (∀ s, ts.Rep s → ts.rel f s s) ∧ ts.Excl ts.init ts.query f) →
      FixInv ts st → ltFixLoop S ts pw fuel n i st = .done (r, st') →
      FixInv ts st' ∧ SamePowers st st' ∧ ∀ e, r = some e → ExplOk ts st' e := by
  intro n
  induction n with
  | zero =>
    intro i st st' r _ hI h
    simp only [ltFixLoop, Outcome.done.injEq, Prod.mk.injEq] at h
    obtain ⟨rfl, rfl⟩ := h
    exact ⟨hI, .refl _, fun e he => by cases he⟩
  | succ n ih =>
    intro i st st' r hp hI h
    unfold ltFixLoop at h
    simp only [Outcome.andThen_done, Outcome.orThrow_done] at h
    obtain ⟨cur, hcur, ⟨r1, st1⟩, h1, h⟩ := h
    obtain ⟨p1, p2, p3⟩ := hp i cur (by omega) (by omega) hcur
    obtain ⟨a1, a2, a3⟩ := ltFixSide_ok hS hc hw hn p1 p2 p3 hI h1
    split at h
    · rename_i e he
      simp only at he
      simp only [Outcome.done.injEq, Prod.mk.injEq] at h
      obtain ⟨rfl, rfl⟩ := h
      exact ⟨a1, a2, fun e' he' => a3 e' (by rw [he]; exact he')⟩
    · simp only [Outcome.andThen_done] at h
      obtain ⟨⟨r2, st2⟩, h2, h⟩ := h
      obtain ⟨b1, b2, b3⟩ := ltFixSide_ok hS hc hw hn p1 p2 p3 a1 h2
      split at h
      · rename_i e he
        simp only at he
        simp only [Outcome.done.injEq, Prod.mk.injEq] at h
        obtain ⟨rfl, rfl⟩ := h
        exact ⟨b1, a2.trans b2, fun e' he' => b3 e' (by rw [he]; exact he')⟩
      · split at h
        · rename_i e he
          simp only at he
          simp only [Outcome.done.injEq, Prod.mk.injEq] at h
          obtain ⟨rfl, rfl⟩ := h
          exact ⟨b1, a2.trans b2, fun e' he' => by cases he'; exact invsSafe_ok hS hw hn b1 he⟩
        · obtain ⟨c1, c2, c3⟩ := ih (i + 1) st2 st' r (fun j f h1 h2 h3 =>
            hp j f (by omega) (by omega) (by rw [← hpw _ _ (a2.trans b2)]; exact h3)) b1 h
          exact ⟨c1, (a2.trans b2).trans c2, c3⟩

end Golem
