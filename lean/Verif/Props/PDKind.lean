import Verif.Lemmas.PDKind

/-! # C50: property-directed k-induction -/

namespace Golem
variable {T : Theory}

/-! ### Frames as sets -/

theorem PdEl.same_iff {a b : PdEl T} : a.same b = true ↔ a.lem = b.lem ∧ a.ctx = b.ctx := by simp [PdEl.same]

theorem mem_pdInsert {F : List (PdEl T)} {e x : PdEl T} (h : x ∈ pdInsert F e) : x ∈ F ∨ x = e := by
  unfold pdInsert at h
  split at h
  · exact Or.inl h
  · simpa using h

theorem pdInsert_sub {F : List (PdEl T)} {e x : PdEl T} (h : x ∈ F) : x ∈ pdInsert F e := by
  unfold pdInsert
  split
  · exact h
  · simp [h]

theorem pdInsert_new (F : List (PdEl T)) (e : PdEl T) : ∃ x ∈ pdInsert F e, e.lem = x.lem ∧ e.ctx = x.ctx := by
  unfold pdInsert
  split
  · rename_i h
    obtain ⟨x, hx, hs⟩ := List.any_eq_true.1 h
    exact ⟨x, hx, PdEl.same_iff.1 hs⟩
  · exact ⟨e, by simp, rfl, rfl⟩

theorem mem_pdErase {F : List (PdEl T)} {e x : PdEl T} : x ∈ pdErase F e ↔ x ∈ F ∧ ¬ (e.lem = x.lem ∧ e.ctx = x.ctx) := by
  unfold pdErase
  rw [List.mem_filter, Bool.not_eq_true', ← Bool.not_eq_true, PdEl.same_iff]

/-- The states that satisfy all lemmas of a frame. -/
def pdHold (ts : TS T) (F : List (PdEl T)) (s : TS.State T) : Prop := ∀ e ∈ F, ts.den e.lem s

theorem pdAbs_over {E : PdEnv T} (hE : E.Ok) {ts : TS T} {F : List (PdEl T)} (hF : ∀ e ∈ F, ts.Over e.lem) :
    ts.Over (pdAbs E F) := by
  refine TS.Over.conj fun f hf => ?_
  obtain ⟨e, he, rfl⟩ := List.mem_map.1 hf
  exact hF e ((hE.ord F e).1 he)

theorem pdAbs_den {E : PdEnv T} (hE : E.Ok) {ts : TS T} {F : List (PdEl T)} (hF : ∀ e ∈ F, ts.Over e.lem) {s : TS.State T}
    (hr : ts.Rep s) : ts.den (pdAbs E F) s ↔ pdHold ts F s := by
  unfold pdAbs pdHold
  rw [den_conj _ hr]
  · constructor
    · intro h e he
      exact h e.lem (List.mem_map.2 ⟨e, (hE.ord F e).2 he, rfl⟩)
    · intro h f hf
      obtain ⟨e, he, rfl⟩ := List.mem_map.1 hf
      exact h e ((hE.ord F e).1 he)
  · intro f hf
    obtain ⟨e, he, rfl⟩ := List.mem_map.1 hf
    exact hF e ((hE.ord F e).1 he)

theorem pdKTrans_path {ts : TS T} {k : Nat} (ρ : Valuation T) (h : (pdKTrans ts k).holds ρ) :
    ts.sem.Path k (ts.stateAt ρ 0) (ts.stateAt ρ k) := by
  refine TS.unroll_path fun i hi => ?_
  unfold pdKTrans at h
  rw [Fla.holds_conj] at h
  exact h _ (List.mem_map.2 ⟨i, by simp [hi], rfl⟩)

/-- UNSAT: after `k` steps through the frame, the formula does not hold. -/
theorem pdKQuery_unsat {E : PdEnv T} (hE : E.Ok) {ts : TS T} (hw : ts.WF) (hs : ts.AuxSep) {F : List (PdEl T)}
    (hF : ∀ e ∈ F, ts.Over e.lem) {k : Nat} (hk : 0 < k) {f : Fla T} (hf : ts.Over f)
    (hu : E.S.check (pdKQuery E ts F k f) = .unsat) {s t : TS.State T} (p : ts.sem.PathIn (pdHold ts F) k s t) :
    ¬ ts.den f t := by
  intro ht
  obtain ⟨ss, h0, hn, hc, hp, hst⟩ := p.toSeq
  have hrt : ts.Rep t := by
    cases k with
    | zero => omega
    | succ k =>
      cases p with
      | snoc _ _ st => exact TS.rep_tgt st
  have hrep := TS.rep_seq hc hrt hst
  obtain ⟨ρ, hρ, htr, -⟩ := TS.realize hw hs ss hrep 0 0
  refine hE.sound.unsat _ hu ⟨ρ, ?_⟩
  intro g hg
  simp only [pdKQuery, List.mem_cons, List.not_mem_nil, or_false] at hg
  rcases hg with rfl | rfl | rfl
  · unfold pdKTrans
    rw [Fla.holds_conj]
    intro g hg
    obtain ⟨i, hi, rfl⟩ := List.mem_map.1 hg
    exact htr i (hst i (by simpa using hi))
  · unfold pdRestrict
    rw [Fla.holds_conj]
    intro g hg
    obtain ⟨i, hi, rfl⟩ := List.mem_map.1 hg
    rw [← TS.den_at (pdAbs_over hE hF), hρ, pdAbs_den hE hF (hrep i)]
    exact hp i (by simpa using hi)
  · rw [← TS.den_at hf, hρ, hn]
    exact ht

/-- SAT: the model is a path of `k` steps that starts in the frame and ends in the formula. -/
theorem pdKQuery_sat {E : PdEnv T} (hE : E.Ok) {ts : TS T} {F : List (PdEl T)} (hF : ∀ e ∈ F, ts.Over e.lem) {k : Nat}
    (hk : 0 < k) {f : Fla T} (h : E.S.check (pdKQuery E ts F k f) = .sat) :
    (pdKTrans ts k).holds (E.S.model (pdKQuery E ts F k f)) ∧ (sendFla f k).holds (E.S.model (pdKQuery E ts F k f)) ∧
      pdHold ts F (ts.stateAt (E.S.model (pdKQuery E ts F k f)) 0) := by
  have hm := hE.sound.sat _ h
  refine ⟨hm _ (by simp [pdKQuery]), hm _ (by simp [pdKQuery]), ?_⟩
  rw [← pdAbs_den hE hF (TS.rep_stateAt ts _ 0), TS.den_at (pdAbs_over hE hF)]
  have := hm (pdRestrict (pdAbs E F) k) (by simp [pdKQuery])
  unfold pdRestrict at this
  rw [Fla.holds_conj] at this
  have := this _ (List.mem_map.2 ⟨0, by simp [hk], rfl⟩)
  simpa using this

/-! ### The invariant of `push` -/

/-- A frame element: every state of the counterexample reaches a bad state in the recorded number of steps, and the lemma
excludes the counterexample. -/
structure PdEl.Ok (ts : TS T) (e : PdEl T) : Prop where
  overL : ts.Over e.lem
  overC : ts.Over e.ctx
  leads : ts.Leads e.steps e.ctx ts.query
  apart : ∀ s, ts.den e.lem s → ¬ ts.den e.ctx s

/-- The lemma holds up to `n` steps. -/
def PdEl.Valid (ts : TS T) (n : Nat) (e : PdEl T) : Prop := ∀ m ≤ n, ts.After m e.lem

/-- `f` holds after `k` steps through the frame. -/
def PdKind (ts : TS T) (F : List (PdEl T)) (k : Nat) (f : Fla T) : Prop :=
  ∀ s t, ts.sem.PathIn (pdHold ts F) k s t → ts.den f t

theorem STS.PathIn.weaken {σ : Type} {M : STS σ} {P Q : σ → Prop} (h : ∀ s, P s → Q s) {n : Nat} {s t : σ}
    (p : M.PathIn P n s t) : M.PathIn Q n s t := by
  induction p with
  | refl s => exact .refl s
  | snoc _ hp st ih => exact .snoc ih (h _ hp) st

theorem PdKind.mono {ts : TS T} {F G : List (PdEl T)} {k : Nat} {f : Fla T} (h : PdKind ts F k f)
    (hs : ∀ s, pdHold ts G s → pdHold ts F s) : PdKind ts G k f := fun s t p => h s t (p.weaken hs)

/-- The part of the invariant that needs a sound solver only. -/
structure PdSt.Ok (ts : TS T) (n : Nat) (st : PdSt T) : Prop where
  el : ∀ e, e ∈ st.frame ∨ e ∈ st.newFrame ∨ e ∈ st.queue → e.Ok ts
  R : st.R.Ok ts

/-- The part that needs a deciding solver. -/
structure PdSt.Good (ts : TS T) (n : Nat) (st : PdSt T) : Prop where
  valid : ∀ e, e ∈ st.frame ∨ e ∈ st.newFrame ∨ e ∈ st.queue → e.Valid ts n
  queued : ∀ e ∈ st.queue, ∀ s, pdHold ts st.frame s → ts.den e.lem s
  pushed : ∀ e ∈ st.newFrame, PdKind ts st.frame (n + 1) e.lem
  frame : ∀ e ∈ st.frame, (∃ o ∈ st.queue, o.lem = e.lem ∧ o.ctx = e.ctx) ∨ PdKind ts st.frame (n + 1) e.lem ∨
    ∀ m < st.np, ts.After m e.lem
  lo : n + 1 ≤ st.np
  query : ∃ e ∈ st.frame, e.ctx = ts.query
  query' : ∃ e, (e ∈ st.queue ∨ e ∈ st.newFrame) ∧ e.ctx = ts.query

/-- One round, sound solver: counterexamples are real, elements stay right. -/
theorem pdRound_ok {E : PdEnv T} (hE : E.Ok) {ts : TS T} (hw : ts.WF) {fuel n : Nat} {o : PdEl T} {st : PdSt T}
    (hI : st.Ok ts n) (ho : o.Ok ts) {r : Nat ⊕ PdSt T} (h : pdRound E ts fuel n o st = .done r) :
    match r with
    | .inl d => ts.sem.BadIn d
    | .inr st' => st'.Ok ts n := by
  have hFo : ∀ e ∈ st.frame, ts.Over e.lem := fun e he => (hI.el e (Or.inl he)).overL
  unfold pdRound at h
  dsimp only at h
  split at h
  · -- pushed
    cases h
    refine ⟨fun e he => ?_, hI.R⟩
    rcases he with he | he | he
    · exact hI.el e (Or.inl he)
    · rcases mem_pdInsert he with he | rfl
      · exact hI.el e (Or.inr (Or.inl he))
      · exact ho
    · exact hI.el e (Or.inr (Or.inr he))
  · rename_i hs1
    split at h
    · rename_i hs2
      split at h
      · cases h
      · rename_i g hg
        obtain ⟨q1, q2, q3⟩ := pdKQuery_sat hE hFo (by omega) hs2
        obtain ⟨g1, g2, g3⟩ := pdGeneralize_ok hE ho.overC pdKTrans_path q1 q2 hg
        have hlead : ts.Leads (o.steps + (n + 1)) g ts.query := by
          intro s hs
          obtain ⟨t, p, ht⟩ := g3 s hs
          obtain ⟨u, q, hu⟩ := ho.leads t ht
          refine ⟨u, ?_, hu⟩
          rw [Nat.add_comm]; exact p.append q
        split at h
        · rename_i s R' hr
          cases h
          obtain ⟨_, _, _, ⟨t, ⟨s0, hi, p⟩, ht⟩, _⟩ := pdCheckFromTo_ok hE hw g1 (by omega) hI.R hr
          obtain ⟨u, q, hu⟩ := hlead t ht
          refine ⟨u, ⟨s0, hi, ?_⟩, hu⟩
          rw [Nat.add_comm]; exact p.append q
        · rename_i e R' hr
          cases h
          obtain ⟨r1, r2⟩ := pdCheckFromTo_ok hE hw g1 (by omega) hI.R hr
          have ho' : PdEl.Ok ts ⟨e, g, o.steps + (n + 1)⟩ := ⟨r2.over, g1, hlead, r2.apart⟩
          refine ⟨fun x hx => ?_, r1⟩
          rcases hx with hx | hx | hx
          · rcases mem_pdInsert hx with hx | rfl
            · exact hI.el x (Or.inl hx)
            · exact ho'
          · exact hI.el x (Or.inr (Or.inl hx))
          · rcases List.mem_append.1 hx with hx | hx
            · exact hI.el x (Or.inr (Or.inr hx))
            · simp only [List.mem_cons, List.not_mem_nil, or_false] at hx
              rcases hx with rfl | rfl
              · exact ho'
              · exact ho
        · cases h
        · cases h
    · rename_i hs2
      split at h
      · cases h
      · rename_i g hg
        obtain ⟨q1, q2, q3⟩ := pdKQuery_sat hE hFo (by omega) hs1
        obtain ⟨g1, g2, g3⟩ := pdGeneralize_ok hE ho.overL.not pdKTrans_path q1 q2 hg
        split at h
        · rename_i s R' hr
          obtain ⟨r1, _⟩ := pdCheckFromTo_ok hE hw g1 (by omega) hI.R hr
          split at h
          · rename_i s' R'' hr'
            cases h
            obtain ⟨r1', _⟩ := pdCheckFromTo_ok hE hw ho.overL.not (by omega) r1 hr'
            have ho' : PdEl.Ok ts ⟨E.norm (.not o.ctx), o.ctx, o.steps⟩ :=
              ⟨hE.norm.over ho.overC.not, ho.overC, ho.leads, fun s hs => den_not_elim ho.overC (hE.norm.den.1 hs)⟩
            refine ⟨fun x hx => ?_, r1'⟩
            rcases hx with hx | hx | hx
            · rcases mem_pdInsert hx with hx | rfl
              · exact hI.el x (Or.inl hx)
              · exact ho'
            · rcases mem_pdInsert hx with hx | rfl
              · exact hI.el x (Or.inr (Or.inl hx))
              · exact ho'
            · exact hI.el x (Or.inr (Or.inr hx))
          · cases h
          · cases h
          · cases h
        · rename_i e R' hr
          cases h
          obtain ⟨r1, r2⟩ := pdCheckFromTo_ok hE hw g1 (by omega) hI.R hr
          have ho' : PdEl.Ok ts ⟨E.norm (.and o.lem e), o.ctx, o.steps⟩ :=
            ⟨hE.norm.over (ho.overL.and r2.over), ho.overC, ho.leads, fun s hs =>
              ho.apart s ((den_and ho.overL).1 (hE.norm.den.1 hs)).1⟩
          refine ⟨fun x hx => ?_, r1⟩
          rcases hx with hx | hx | hx
          · rcases mem_pdInsert (mem_pdErase.1 hx).1 with hx | rfl
            · exact hI.el x (Or.inl hx)
            · exact ho'
          · exact hI.el x (Or.inr (Or.inl hx))
          · rcases List.mem_append.1 hx with hx | hx
            · exact hI.el x (Or.inr (Or.inr hx))
            · simp only [List.mem_cons, List.not_mem_nil, or_false] at hx
              rw [hx]; exact ho'
        · cases h
        · cases h
  · cases h

theorem pdKind_of_unsat {E : PdEnv T} (hE : E.Ok) {ts : TS T} (hw : ts.WF) (hs : ts.AuxSep) {F : List (PdEl T)}
    (hF : ∀ e ∈ F, ts.Over e.lem) {n : Nat} {f g : Fla T} (hf : ts.Over f)
    (hu : E.S.check (pdKQuery E ts F (n + 1) f) = .unsat) (hg : ∀ t, ts.Rep t → ¬ ts.den f t → ts.den g t) :
    PdKind ts F (n + 1) g := by
  intro s t p
  have hrt : ts.Rep t := by
    cases p with
    | snoc _ _ st => exact TS.rep_tgt st
  exact hg t hrt (pdKQuery_unsat hE hw hs hF (by omega) hf hu p)

theorem den_of_not {ts : TS T} {f : Fla T} (hf : ts.Over f) {t : TS.State T} (hr : ts.Rep t) (h : ¬ ts.den (.not f) t) :
    ts.den f t := by
  rw [den_not_iff hf hr] at h
  exact Classical.byContradiction h

/-- One round, deciding solver. -/
theorem pdRound_good {E : PdEnv T} (hE : E.Ok) (hc : E.S.Complete) {ts : TS T} (hw : ts.WF) (hs : ts.AuxSep) {fuel n : Nat}
    {o : PdEl T} {st : PdSt T} (hI : st.Ok ts n) (ho : o.Ok ts) (hG : PdSt.Good ts n { st with queue := o :: st.queue })
    {st' : PdSt T} (h : pdRound E ts fuel n o st = .done (.inr st')) : st'.Good ts n := by
  have hFo : ∀ e ∈ st.frame, ts.Over e.lem := fun e he => (hI.el e (Or.inl he)).overL
  have hov : o.Valid ts n := hG.valid o (Or.inr (Or.inr (by simp)))
  have hval : ∀ e, e ∈ st.frame ∨ e ∈ st.newFrame ∨ e ∈ st.queue → e.Valid ts n := by
    intro e he
    apply hG.valid e
    rcases he with h | h | h
    · exact Or.inl h
    · exact Or.inr (Or.inl h)
    · exact Or.inr (Or.inr (by simp [h]))
  have hq : ∀ e ∈ st.queue, ∀ s, pdHold ts st.frame s → ts.den e.lem s := fun e he => hG.queued e (by simp [he])
  have hqo : ∀ s, pdHold ts st.frame s → ts.den o.lem s := hG.queued o (by simp)
  have hpush : ∀ e ∈ st.newFrame, PdKind ts st.frame (n + 1) e.lem := hG.pushed
  have hframe : ∀ e ∈ st.frame, (o.lem = e.lem ∧ o.ctx = e.ctx) ∨ (∃ o ∈ st.queue, o.lem = e.lem ∧ o.ctx = e.ctx) ∨
      PdKind ts st.frame (n + 1) e.lem ∨ ∀ m < st.np, ts.After m e.lem := by
    intro e he
    rcases hG.frame e he with ⟨o', h1, h2⟩ | h1
    · rcases List.mem_cons.1 h1 with rfl | h1
      · exact Or.inl h2
      · exact Or.inr (Or.inl ⟨o', h1, h2⟩)
    · exact Or.inr (Or.inr h1)
  have hlo : n + 1 ≤ st.np := hG.lo
  have hqu : ∃ e ∈ st.frame, e.ctx = ts.query := hG.query
  have hqu' : o.ctx = ts.query ∨ ∃ e, (e ∈ st.queue ∨ e ∈ st.newFrame) ∧ e.ctx = ts.query := by
    obtain ⟨e, he, h1⟩ := hG.query'
    rcases he with he | he
    · rcases List.mem_cons.1 he with rfl | he
      · exact Or.inl h1
      · exact Or.inr ⟨e, Or.inl he, h1⟩
    · exact Or.inr ⟨e, Or.inr he, h1⟩
  have hsub : ∀ (F : List (PdEl T)) x s, pdHold ts (pdInsert F x) s → pdHold ts F s :=
    fun F x s h e he => h e (pdInsert_sub he)
  unfold pdRound at h
  dsimp only at h
  split at h
  · -- pushed
    rename_i hu
    cases h
    have hk : PdKind ts st.frame (n + 1) o.lem :=
      pdKind_of_unsat hE hw hs hFo ho.overL.not hu fun t hr => den_of_not ho.overL hr
    refine ⟨fun e he => ?_, hq, fun e he => ?_, fun e he => ?_, hlo, hqu, ?_⟩
    · rcases he with he | he | he
      · exact hval e (Or.inl he)
      · rcases mem_pdInsert he with he | rfl
        · exact hval e (Or.inr (Or.inl he))
        · exact hov
      · exact hval e (Or.inr (Or.inr he))
    · rcases mem_pdInsert he with he | rfl
      · exact hpush e he
      · exact hk
    · rcases hframe e he with h1 | h1 | h1
      · right; left; rw [← h1.1]; exact hk
      · exact Or.inl h1
      · exact Or.inr h1
    · rcases hqu' with h1 | ⟨e, h1 | h1, h2⟩
      · obtain ⟨x, hx, _, h3⟩ := pdInsert_new st.newFrame o
        exact ⟨x, Or.inr hx, by rw [← h3]; exact h1⟩
      · exact ⟨e, Or.inl h1, h2⟩
      · exact ⟨e, Or.inr (pdInsert_sub h1), h2⟩
  · rename_i hs1
    split at h
    · -- a counterexample to be excluded
      rename_i hs2
      split at h
      · cases h
      · rename_i g hg
        obtain ⟨q1, q2, q3⟩ := pdKQuery_sat hE hFo (by omega) hs2
        obtain ⟨g1, g2, g3⟩ := pdGeneralize_ok hE ho.overC pdKTrans_path q1 q2 hg
        split at h
        · cases h
        · rename_i e R' hr
          cases h
          obtain ⟨r1, r2⟩ := pdCheckFromTo_ok hE hw g1 (by omega) hI.R hr
          have hm := hsub st.frame ⟨e, g, o.steps + (n + 1)⟩
          refine ⟨fun x hx => ?_, fun x hx s hh => ?_, fun x hx => (hpush x hx).mono hm, fun x hx => ?_, hlo, ?_, ?_⟩
          · have ho' : PdEl.Valid ts n ⟨e, g, o.steps + (n + 1)⟩ := r2.after
            rcases hx with hx | hx | hx
            · rcases mem_pdInsert hx with hx | rfl
              · exact hval x (Or.inl hx)
              · exact ho'
            · exact hval x (Or.inr (Or.inl hx))
            · rcases List.mem_append.1 hx with hx | hx
              · exact hval x (Or.inr (Or.inr hx))
              · simp only [List.mem_cons, List.not_mem_nil, or_false] at hx
                rcases hx with rfl | rfl
                · exact ho'
                · exact hov
          · rcases List.mem_append.1 hx with hx | hx
            · exact hq x hx s (hm s hh)
            · simp only [List.mem_cons, List.not_mem_nil, or_false] at hx
              rcases hx with rfl | rfl
              · obtain ⟨y, hy, h1, _⟩ := pdInsert_new st.frame ⟨e, g, o.steps + (n + 1)⟩
                rw [h1]; exact hh y hy
              · exact hqo s (hm s hh)
          · rcases mem_pdInsert hx with hx | rfl
            · rcases hframe x hx with h1 | ⟨y, hy, h1⟩ | h1 | h1
              · exact Or.inl ⟨o, by simp, h1⟩
              · exact Or.inl ⟨y, by simp [hy], h1⟩
              · exact Or.inr (Or.inl (h1.mono hm))
              · exact Or.inr (Or.inr h1)
            · exact Or.inl ⟨_, List.mem_append_right _ (by simp), rfl, rfl⟩
          · obtain ⟨x, hx, h1⟩ := hqu
            exact ⟨x, pdInsert_sub hx, h1⟩
          · rcases hqu' with h1 | ⟨x, h1 | h1, h2⟩
            · exact ⟨o, Or.inl (by simp), h1⟩
            · exact ⟨x, Or.inl (by simp [h1]), h2⟩
            · exact ⟨x, Or.inr h1, h2⟩
        · cases h
        · cases h
    · rename_i hs2
      have hu2 : E.S.check (pdKQuery E ts st.frame (n + 1) o.ctx) = .unsat := (hc _).resolve_left hs2
      split at h
      · cases h
      · rename_i g hg
        obtain ⟨q1, q2, q3⟩ := pdKQuery_sat hE hFo (by omega) hs1
        obtain ⟨g1, g2, g3⟩ := pdGeneralize_ok hE ho.overL.not pdKTrans_path q1 q2 hg
        split at h
        · -- the weaker obligation
          rename_i s R' hr
          obtain ⟨r1, _⟩ := pdCheckFromTo_ok hE hw g1 (by omega) hI.R hr
          split at h
          · rename_i s' R'' hr'
            cases h
            obtain ⟨r1', hlo', _, _, hun⟩ := pdCheckFromTo_ok hE hw ho.overL.not (by omega) r1 hr'
            have hm := hsub st.frame ⟨E.norm (.not o.ctx), o.ctx, o.steps⟩
            have ho' : PdEl.Valid ts n ⟨E.norm (.not o.ctx), o.ctx, o.steps⟩ := by
              intro m hm s hr
              rw [hE.norm.den, den_not_iff ho.overC (TS.rep_reach hr)]
              exact ho.apart s (hov m hm s hr)
            have hk : PdKind ts st.frame (n + 1) (E.norm (.not o.ctx)) :=
              pdKind_of_unsat hE hw hs hFo ho.overC hu2 fun t hr hn => by
                rw [hE.norm.den, den_not_iff ho.overC hr]; exact hn
            refine ⟨fun x hx => ?_, fun x hx s hh => hq x hx s (hm s hh), fun x hx => ?_, fun x hx => ?_, ?_, ?_, ?_⟩
            · rcases hx with hx | hx | hx
              · rcases mem_pdInsert hx with hx | rfl
                · exact hval x (Or.inl hx)
                · exact ho'
              · rcases mem_pdInsert hx with hx | rfl
                · exact hval x (Or.inr (Or.inl hx))
                · exact ho'
              · exact hval x (Or.inr (Or.inr hx))
            · rcases mem_pdInsert hx with hx | rfl
              · exact (hpush x hx).mono hm
              · exact hk.mono hm
            · rcases mem_pdInsert hx with hx | rfl
              · rcases hframe x hx with h1 | h1 | h1 | h1
                · right; right
                  intro m hmm s hr
                  rw [← h1.1]
                  have hmm' : m < s' := Nat.lt_of_lt_of_le hmm (Nat.min_le_right _ _)
                  by_cases hmn : m ≤ n
                  · exact hov m hmn s hr
                  · exact den_of_not ho.overL (TS.rep_reach hr) (hun m (by omega) hmm' s hr)
                · exact Or.inl h1
                · exact Or.inr (Or.inl (h1.mono hm))
                · refine Or.inr (Or.inr fun m hmm => h1 m ?_)
                  exact Nat.lt_of_lt_of_le hmm (Nat.min_le_left _ _)
              · exact Or.inr (Or.inl (hk.mono hm))
            · exact Nat.le_min.2 ⟨hlo, hlo'⟩
            · obtain ⟨x, hx, h1⟩ := hqu
              exact ⟨x, pdInsert_sub hx, h1⟩
            · rcases hqu' with h1 | ⟨x, h1 | h1, h2⟩
              · obtain ⟨x, hx, _, h3⟩ := pdInsert_new st.newFrame ⟨E.norm (.not o.ctx), o.ctx, o.steps⟩
                exact ⟨x, Or.inr hx, by rw [← h3]; exact h1⟩
              · exact ⟨x, Or.inl h1, h2⟩
              · exact ⟨x, Or.inr (pdInsert_sub h1), h2⟩
          · cases h
          · cases h
          · cases h
        · -- the strengthened obligation
          rename_i e R' hr
          cases h
          obtain ⟨r1, r2⟩ := pdCheckFromTo_ok hE hw g1 (by omega) hI.R hr
          have hne : E.norm (.and o.lem e) ≠ o.lem := by
            intro heq
            have h2 : ∀ s, ts.den o.lem s → ts.den (E.norm (.and o.lem e)) s := by rw [heq]; exact fun _ h => h
            have h1 := h2 _ (hqo _ q3)
            rw [hE.norm.den, den_and ho.overL] at h1
            exact r2.apart _ h1.2 g2
          obtain ⟨y, hy, hy1, hy2⟩ := pdInsert_new st.frame ⟨E.norm (.and o.lem e), o.ctx, o.steps⟩
          have hyF : y ∈ pdErase (pdInsert st.frame ⟨E.norm (.and o.lem e), o.ctx, o.steps⟩) o :=
            mem_pdErase.2 ⟨hy, fun hh => hne (hy1.trans hh.1.symm)⟩
          have hstr : ∀ s, pdHold ts (pdErase (pdInsert st.frame ⟨E.norm (.and o.lem e), o.ctx, o.steps⟩) o) s →
              ts.den (E.norm (.and o.lem e)) s := by
            intro s hh
            have := hh y hyF
            rwa [← hy1] at this
          have hm : ∀ s, pdHold ts (pdErase (pdInsert st.frame ⟨E.norm (.and o.lem e), o.ctx, o.steps⟩) o) s →
              pdHold ts st.frame s := by
            intro s hh x hx
            by_cases hsame : o.lem = x.lem ∧ o.ctx = x.ctx
            · rw [← hsame.1]
              exact ((den_and ho.overL).1 (hE.norm.den.1 (hstr s hh))).1
            · exact hh x (mem_pdErase.2 ⟨pdInsert_sub hx, hsame⟩)
          refine ⟨fun x hx => ?_, fun x hx s hh => ?_, fun x hx => (hpush x hx).mono hm, fun x hx => ?_, hlo, ?_, ?_⟩
          · have ho' : PdEl.Valid ts n ⟨E.norm (.and o.lem e), o.ctx, o.steps⟩ := by
              intro m hmm s hr
              rw [hE.norm.den, den_and ho.overL]
              exact ⟨hov m hmm s hr, r2.after m hmm s hr⟩
            rcases hx with hx | hx | hx
            · rcases mem_pdInsert (mem_pdErase.1 hx).1 with hx | rfl
              · exact hval x (Or.inl hx)
              · exact ho'
            · exact hval x (Or.inr (Or.inl hx))
            · rcases List.mem_append.1 hx with hx | hx
              · exact hval x (Or.inr (Or.inr hx))
              · simp only [List.mem_cons, List.not_mem_nil, or_false] at hx
                rw [hx]; exact ho'
          · rcases List.mem_append.1 hx with hx | hx
            · exact hq x hx s (hm s hh)
            · simp only [List.mem_cons, List.not_mem_nil, or_false] at hx
              rw [hx]
              exact hstr s hh
          · obtain ⟨hx1, hx2⟩ := mem_pdErase.1 hx
            rcases mem_pdInsert hx1 with hx | rfl
            · rcases hframe x hx with h1 | ⟨y, hy, h1⟩ | h1 | h1
              · exact absurd h1 hx2
              · exact Or.inl ⟨y, by simp [hy], h1⟩
              · exact Or.inr (Or.inl (h1.mono hm))
              · exact Or.inr (Or.inr h1)
            · exact Or.inl ⟨_, List.mem_append_right _ (by simp), rfl, rfl⟩
          · obtain ⟨x, hx, h1⟩ := hqu
            by_cases hsame : o.lem = x.lem ∧ o.ctx = x.ctx
            · refine ⟨y, hyF, ?_⟩
              rw [← hy2]
              exact hsame.2.trans h1
            · exact ⟨x, mem_pdErase.2 ⟨pdInsert_sub hx, hsame⟩, h1⟩
          · rcases hqu' with h1 | ⟨x, h1 | h1, h2⟩
            · exact ⟨_, Or.inl (List.mem_append_right _ (List.mem_cons_self ..)), h1⟩
            · exact ⟨x, Or.inl (by simp [h1]), h2⟩
            · exact ⟨x, Or.inr h1, h2⟩
        · cases h
        · cases h
  · cases h

/-- One round raises no exception, with a deciding solver and a total projection. -/
theorem pdRound_total {E : PdEnv T} (hE : E.Ok) (hc : E.S.Complete) (hM : E.M.Total) {ts : TS T} (hw : ts.WF) {fuel n : Nat}
    {o : PdEl T} {st : PdSt T} (hI : st.Ok ts n) (ho : o.Ok ts) (hov : o.Valid ts n) :
    pdRound E ts fuel n o st ≠ .thrown := by
  have hFo : ∀ e ∈ st.frame, ts.Over e.lem := fun e he => (hI.el e (Or.inl he)).overL
  have hgen : ∀ {f : Fla T}, E.S.check (pdKQuery E ts st.frame (n + 1) f) = .sat →
      pdGeneralize E ts (E.S.model (pdKQuery E ts st.frame (n + 1) f)) (pdKTrans ts (n + 1)) (sendFla f ((n + 1 : Nat) : Int)) ≠
        none := by
    intro f hs hg
    obtain ⟨q1, q2, q3⟩ := pdKQuery_sat hE hFo (by omega) hs
    obtain ⟨p, hp⟩ := hM (.and (pdKTrans ts (n + 1)) (sendFla f ((n + 1 : Nat) : Int)))
      ((Fla.and (pdKTrans ts (n + 1)) (sendFla f ((n + 1 : Nat) : Int))).vars.filter fun x => decide (x ∉ ts.stateVars)) _ ⟨q1, q2⟩
    unfold pdGeneralize mbpKeepOnly at hg
    rw [hg] at hp
    cases hp
  intro h
  unfold pdRound at h
  dsimp only at h
  split at h
  · cases h
  · rename_i hs1
    split at h
    · rename_i hs2
      split at h
      · rename_i hg; exact hgen hs2 hg
      · rename_i g hg
        obtain ⟨q1, q2, q3⟩ := pdKQuery_sat hE hFo (by omega) hs2
        obtain ⟨g1, g2, g3⟩ := pdGeneralize_ok hE ho.overC pdKTrans_path q1 q2 hg
        split at h
        · cases h
        · cases h
        · rename_i hr
          exact pdCheck_total hE hc hM hw fuel g1 (n + 1 - 0) 0 st.R (by omega) hI.R (fun j hj => by omega) hr
        · cases h
    · split at h
      · rename_i hg; exact hgen hs1 hg
      · rename_i g hg
        obtain ⟨q1, q2, q3⟩ := pdKQuery_sat hE hFo (by omega) hs1
        obtain ⟨g1, g2, g3⟩ := pdGeneralize_ok hE ho.overL.not pdKTrans_path q1 q2 hg
        split at h
        · rename_i s R' hr
          obtain ⟨r1, _, _, ⟨t, ⟨s0, hi, p⟩, ht⟩, _⟩ := pdCheckFromTo_ok hE hw g1 (by omega) hI.R hr
          split at h
          · cases h
          · rename_i e R'' hr'
            obtain ⟨_, r2⟩ := pdCheckFromTo_ok hE hw ho.overL.not (by omega) r1 hr'
            obtain ⟨u, q, hu⟩ := g3 t ht
            exact r2.unreach (Nat.le_refl _) u ⟨s0, hi, p.append q⟩ hu
          · rename_i hr'
            refine pdCheck_total hE hc hM hw fuel ho.overL.not _ (n + 1) R' (by omega) r1 (fun j hj u hu => ?_) hr'
            rw [den_not_iff ho.overL (TS.rep_reach hu)]
            exact fun hn => hn (hov j (by omega) u hu)
          · cases h
        · cases h
        · rename_i hr
          exact pdCheck_total hE hc hM hw fuel g1 (n + 1 - 0) 0 st.R (by omega) hI.R (fun j hj => by omega) hr
        · cases h
  · rename_i h1 h2
    rcases hc (pdKQuery E ts st.frame (n + 1) (.not o.lem)) with h3 | h3
    · exact h2 h3
    · exact h1 h3

/-! ### The loops -/

theorem pdPushLoop_ok {E : PdEnv T} (hE : E.Ok) {ts : TS T} (hw : ts.WF) {rfuel n : Nat} :
    ∀ (fuel : Nat) (st : PdSt T), st.Ok ts n →
      (∀ d, pdPushLoop E ts rfuel n fuel st = .done (.inl d) → ts.sem.BadIn d) ∧
      ∀ st', pdPushLoop E ts rfuel n fuel st = .done (.inr st') → st'.Ok ts n ∧ st'.queue = [] := by
  intro fuel
  induction fuel with
  | zero => intro st _; simp [pdPushLoop]
  | succ fuel ih =>
    intro st hI
    rw [pdPushLoop]
    split
    · rename_i hq
      refine ⟨fun d h => (by cases h), fun st' h => ?_⟩
      cases h
      exact ⟨hI, hq⟩
    · rename_i o q hq
      have hI' : PdSt.Ok ts n { st with queue := q } := by
        refine ⟨fun e he => hI.el e ?_, hI.R⟩
        rcases he with h | h | h
        · exact Or.inl h
        · exact Or.inr (Or.inl h)
        · exact Or.inr (Or.inr (by rw [hq]; simp only at h; simp [h]))
      have ho : o.Ok ts := hI.el o (Or.inr (Or.inr (by rw [hq]; simp)))
      split
      · rename_i s hr
        have := pdRound_ok hE hw hI' ho hr
        refine ⟨fun d h => ?_, fun st' h => (by cases h)⟩
        cases h
        exact this
      · rename_i st1 hr
        exact ih st1 (pdRound_ok hE hw hI' ho hr)
      · exact ⟨fun d h => (by cases h), fun st' h => (by cases h)⟩
      · exact ⟨fun d h => (by cases h), fun st' h => (by cases h)⟩

theorem pdPushLoop_good {E : PdEnv T} (hE : E.Ok) (hc : E.S.Complete) {ts : TS T} (hw : ts.WF) (hs : ts.AuxSep) {rfuel n : Nat} :
    ∀ (fuel : Nat) (st : PdSt T), st.Ok ts n → st.Good ts n →
      (E.M.Total → pdPushLoop E ts rfuel n fuel st ≠ .thrown) ∧
      ∀ st', pdPushLoop E ts rfuel n fuel st = .done (.inr st') → st'.Good ts n := by
  intro fuel
  induction fuel with
  | zero => intro st _ _; simp [pdPushLoop]
  | succ fuel ih =>
    intro st hI hG
    rw [pdPushLoop]
    split
    · refine ⟨fun _ h => (by cases h), fun st' h => ?_⟩
      cases h
      exact hG
    · rename_i o q hq
      have hI' : PdSt.Ok ts n { st with queue := q } := by
        refine ⟨fun e he => hI.el e ?_, hI.R⟩
        rcases he with h | h | h
        · exact Or.inl h
        · exact Or.inr (Or.inl h)
        · exact Or.inr (Or.inr (by rw [hq]; simp only at h; simp [h]))
      have ho : o.Ok ts := hI.el o (Or.inr (Or.inr (by rw [hq]; simp)))
      have hG' : PdSt.Good ts n { { st with queue := q } with queue := o :: ({ st with queue := q } : PdSt T).queue } := by
        have : ({ { st with queue := q } with queue := o :: ({ st with queue := q } : PdSt T).queue } : PdSt T) = st := by
          cases st; simp at hq; simp [hq]
        rw [this]; exact hG
      split
      · exact ⟨fun _ h => (by cases h), fun st' h => (by cases h)⟩
      · rename_i st1 hr
        exact ih st1 (pdRound_ok hE hw hI' ho hr) (pdRound_good hE hc hw hs hI' ho hG' hr)
      · rename_i hr
        refine ⟨fun hM _ => ?_, fun st' h => (by cases h)⟩
        exact pdRound_total hE hc hM hw hI' ho (hG.valid o (Or.inr (Or.inr (by rw [hq]; simp)))) hr
      · exact ⟨fun _ h => (by cases h), fun st' h => (by cases h)⟩

/-- A formula that holds after `k` steps through the frame holds after `m` steps from an initial state if the frame holds
before. -/
theorem PdKind.after {ts : TS T} {F : List (PdEl T)} {k m : Nat} {f : Fla T} (h : PdKind ts F k f) (hk : k ≤ m)
    (hF : ∀ i < m, ∀ s, ts.sem.ReachIn i s → pdHold ts F s) : ts.After m f := by
  rintro t ⟨s, hs, p⟩
  obtain ⟨a, rfl⟩ : ∃ a, m = a + k := ⟨m - k, by omega⟩
  obtain ⟨u, p1, p2⟩ := STS.Path.split p
  refine h u t ?_
  have key : ∀ j v, j ≤ k → ts.sem.Path j u v → ts.sem.PathIn (pdHold ts F) j u v := by
    intro j
    induction j with
    | zero => intro v _ q; cases q; exact .refl _
    | succ j ih =>
      intro v hj q
      cases q with
      | snoc q st => exact .snoc (ih _ (by omega) q) (hF (a + j) (by omega) _ ⟨s, hs, p1.append q⟩) st
  exact key k t (Nat.le_refl _) p2

/-- When the queue is empty, the frame holds before `np` steps. -/
theorem PdSt.Good.before {ts : TS T} {n : Nat} {st : PdSt T} (hG : st.Good ts n) (hq : st.queue = []) :
    ∀ m < st.np, ∀ s, ts.sem.ReachIn m s → pdHold ts st.frame s := by
  intro m
  induction m using Nat.strongRecOn with
  | _ m ih =>
    intro hm s hr e he
    by_cases hmn : m ≤ n
    · exact hG.valid e (Or.inl he) m hmn s hr
    · rcases hG.frame e he with ⟨o, ho, _⟩ | h1 | h1
      · rw [hq] at ho; simp at ho
      · exact h1.after (by omega) (fun i hi => ih i hi (by omega)) s hr
      · exact h1 m hm s hr

/-- and the new frame holds up to `np` steps. -/
theorem PdSt.Good.next {ts : TS T} {n : Nat} {st : PdSt T} (hG : st.Good ts n) (hq : st.queue = []) :
    ∀ e ∈ st.newFrame, e.Valid ts st.np := by
  intro e he m hm s hr
  by_cases hmn : m ≤ n
  · exact hG.valid e (Or.inr (Or.inl he)) m hmn s hr
  · exact (hG.pushed e he).after (by omega) (fun i hi => hG.before hq i (by omega)) s hr

theorem STS.KInductive.mono {σ : Type} {M : STS σ} {P : σ → Prop} {k k' : Nat} (h : M.KInductive k P) (hk : k ≤ k') :
    M.KInductive k' P where
  base := fun m _ t hr => h.reach m t hr
  step := by
    intro s t p
    obtain ⟨a, rfl⟩ : ∃ a, k' = a + k := ⟨k' - k, by omega⟩
    have key : ∀ j v, M.PathIn P (a + j) s v → ∃ u, M.PathIn P j u v := by
      intro j
      induction j with
      | zero => intro v _; exact ⟨v, .refl _⟩
      | succ j ih =>
        intro v q
        cases q with
        | snoc q hp st =>
          obtain ⟨u, q'⟩ := ih _ q
          exact ⟨u, .snoc q' hp st⟩
    obtain ⟨u, q⟩ := key k t p
    exact h.step u t q

/-- The two frames are equal: the frame is `np`-inductive. -/
theorem PdSt.Good.inductive {E : PdEnv T} (hE : E.Ok) {ts : TS T} {n : Nat} {st : PdSt T} (hI : st.Ok ts n) (hG : st.Good ts n)
    (heq : pdEq st.frame st.newFrame = true) : ts.sem.KInductive st.np (ts.den (pdAbs E st.frame)) := by
  have hFo : ∀ e ∈ st.frame, ts.Over e.lem := fun e he => (hI.el e (Or.inl he)).overL
  have hk : ∀ e ∈ st.frame, PdKind ts st.frame (n + 1) e.lem := by
    intro e he
    simp only [pdEq, Bool.and_eq_true, List.all_eq_true, List.any_eq_true] at heq
    obtain ⟨x, hx, hs⟩ := heq.1 e he
    rw [(PdEl.same_iff.1 hs).1]
    exact hG.pushed x hx
  refine STS.KInductive.mono (k := n + 1) ⟨fun m hm t hr => ?_, fun s t p => ?_⟩ hG.lo
  · rw [pdAbs_den hE hFo (TS.rep_reach hr)]
    exact fun e he => hG.valid e (Or.inl he) m (by omega) t hr
  · have hrt : ts.Rep t := by
      cases p with
      | snoc _ _ st => exact TS.rep_tgt st
    rw [pdAbs_den hE hFo hrt]
    intro e he
    refine hk e he s t (p.weaken fun u hu => ?_)
    have hru : ts.Rep u := by
      obtain ⟨ρ, _, e⟩ := hu
      exact ⟨ρ, e⟩
    exact (pdAbs_den hE hFo hru).1 hu

theorem pdAbs_safe {E : PdEnv T} (hE : E.Ok) {ts : TS T} {n : Nat} {st : PdSt T} (hI : st.Ok ts n)
    (hG : st.Good ts n) {s : TS.State T} (h : ts.den (pdAbs E st.frame) s) : ¬ ts.sem.Bad s := by
  have hFo : ∀ e ∈ st.frame, ts.Over e.lem := fun e he => (hI.el e (Or.inl he)).overL
  have hrs : ts.Rep s := by
    obtain ⟨ρ, _, e⟩ := h
    exact ⟨ρ, e⟩
  obtain ⟨e, he, hc⟩ := hG.query
  have h1 := (pdAbs_den hE hFo hrs).1 h e he
  have h2 := (hI.el e (Or.inl he)).apart s h1
  rw [hc] at h2
  exact h2

/-- What holds at the start of a round of the main loop, for a sound solver. -/
structure PdOk (ts : TS T) (F : List (PdEl T)) (R : PdR T) : Prop where
  el : ∀ e ∈ F, e.Ok ts
  R : R.Ok ts

/-- and for a deciding one. -/
structure PdGood (ts : TS T) (n : Nat) (F : List (PdEl T)) : Prop where
  valid : ∀ e ∈ F, e.Valid ts n
  query : ∃ e ∈ F, e.ctx = ts.query

theorem PdOk.start {E : PdEnv T} (hE : E.Ok) {ts : TS T} {F : List (PdEl T)} {R : PdR T} (h : PdOk ts F R) (n : Nat) :
    PdSt.Ok ts n ⟨F, [], E.ord F, n + (n + 1), R⟩ := by
  refine ⟨fun e he => h.el e ?_, h.R⟩
  rcases he with h1 | h1 | h1
  · exact h1
  · simp at h1
  · exact (hE.ord F e).1 h1

theorem PdGood.start {E : PdEnv T} (hE : E.Ok) {ts : TS T} {F : List (PdEl T)} (R : PdR T) {n : Nat} (h : PdGood ts n F) :
    PdSt.Good ts n ⟨F, [], E.ord F, n + (n + 1), R⟩ := by
  refine ⟨fun e he => h.valid e ?_, fun e he s hh => hh e ((hE.ord F e).1 he), fun e he => by simp at he,
    fun e he => Or.inl ⟨e, (hE.ord F e).2 he, rfl, rfl⟩, by simp only; omega, h.query, ?_⟩
  · rcases he with h1 | h1 | h1
    · exact h1
    · simp at h1
    · exact (hE.ord F e).1 h1
  · obtain ⟨e, he, h1⟩ := h.query
    exact ⟨e, Or.inl ((hE.ord F e).2 he), h1⟩

theorem pdLoop_unsafe {E : PdEnv T} (hE : E.Ok) {w : Bool} {ts : TS T} (hw : ts.WF) {rfuel pfuel : Nat} {d : Nat} :
    ∀ (fuel n : Nat) (F : List (PdEl T)) (R : PdR T), PdOk ts F R →
      pdLoop E w ts rfuel pfuel fuel n F R = .done (.unsafeAt d) → ts.sem.BadIn d := by
  intro fuel
  induction fuel with
  | zero => intro n F R _ h; simp [pdLoop] at h
  | succ fuel ih =>
    intro n F R hI h
    rw [pdLoop] at h
    have hp := pdPushLoop_ok hE hw (rfuel := rfuel) pfuel _ (hI.start hE n)
    split at h
    · rename_i s hr
      cases h
      exact hp.1 _ hr
    · rename_i st hr
      obtain ⟨h1, h2⟩ := hp.2 _ hr
      split at h
      · split at h
        · split at h
          · cases h
          · cases h
        · cases h
      · exact ih _ _ _ ⟨fun e he => h1.el e (Or.inr (Or.inl he)), h1.R⟩ h
    · cases h
    · cases h

theorem PdSt.Good.step {ts : TS T} {n : Nat} {st : PdSt T} (hG : st.Good ts n) (hq : st.queue = []) :
    PdGood ts st.np st.newFrame := by
  refine ⟨hG.next hq, ?_⟩
  obtain ⟨e, he, h1⟩ := hG.query'
  rcases he with he | he
  · rw [hq] at he; simp at he
  · exact ⟨e, he, h1⟩

theorem pdLoop_safe {E : PdEnv T} (hE : E.Ok) (hc : E.S.Complete) {w : Bool} {ts : TS T} (hw : ts.WF) (hs : ts.AuxSep)
    {rfuel pfuel : Nat} {I : Fla T} :
    ∀ (fuel n : Nat) (F : List (PdEl T)) (R : PdR T), PdOk ts F R → PdGood ts n F →
      pdLoop E w ts rfuel pfuel fuel n F R = .done (.safeInv I) →
      ts.sem.Safe ∧ (w = true → ts.Over I ∧ ts.sem.SafeInductive (ts.den I)) := by
  intro fuel
  induction fuel with
  | zero => intro n F R _ _ h; simp [pdLoop] at h
  | succ fuel ih =>
    intro n F R hI hG h
    rw [pdLoop] at h
    have hp := pdPushLoop_ok hE hw (rfuel := rfuel) pfuel _ (hI.start hE n)
    have hg := pdPushLoop_good hE hc hw hs (rfuel := rfuel) pfuel _ (hI.start hE n) (hG.start hE R)
    split at h
    · cases h
    · rename_i st hr
      obtain ⟨h1, h2⟩ := hp.2 _ hr
      have h3 := hg.2 _ hr
      split at h
      · rename_i heq
        have hk := h3.inductive hE h1 heq
        have hsafe : ts.sem.Safe := by
          rintro ⟨m, t, hr, hb⟩
          exact pdAbs_safe hE h1 h3 (hk.reach m t hr) hb
        split at h
        · split at h
          · rename_i I' hi
            cases h
            have hFo : ∀ e ∈ st.frame, ts.Over e.lem := fun e he => (h1.el e (Or.inl he)).overL
            obtain ⟨i1, i2, i3⟩ := C20_kinductiveToInductive E.S hE.sound ts hw hs _ (pdAbs_over hE hFo) st.np hk I hi
            exact ⟨hsafe, fun _ => ⟨i1, i2, fun s hs => pdAbs_safe hE h1 h3 (i3 s hs)⟩⟩
          · cases h
        · rename_i hwf
          cases h
          exact ⟨hsafe, fun h => absurd h hwf⟩
      · exact ih _ _ _ ⟨fun e he => h1.el e (Or.inr (Or.inl he)), h1.R⟩ (h3.step h2) h
    · cases h
    · cases h

theorem pdLoop_total {E : PdEnv T} (hE : E.Ok) (hc : E.S.Complete) (hM : E.M.Total) {w : Bool} {ts : TS T} (hw : ts.WF)
    (hs : ts.AuxSep) {rfuel pfuel : Nat} :
    ∀ (fuel n : Nat) (F : List (PdEl T)) (R : PdR T), PdOk ts F R → PdGood ts n F →
      pdLoop E w ts rfuel pfuel fuel n F R ≠ .thrown := by
  intro fuel
  induction fuel with
  | zero => intro n F R _ _ h; simp [pdLoop] at h
  | succ fuel ih =>
    intro n F R hI hG h
    rw [pdLoop] at h
    have hp := pdPushLoop_ok hE hw (rfuel := rfuel) pfuel _ (hI.start hE n)
    have hg := pdPushLoop_good hE hc hw hs (rfuel := rfuel) pfuel _ (hI.start hE n) (hG.start hE R)
    split at h
    · cases h
    · rename_i st hr
      obtain ⟨h1, h2⟩ := hp.2 _ hr
      have h3 := hg.2 _ hr
      split at h
      · rename_i heq
        have hk := h3.inductive hE h1 heq
        split at h
        · split at h
          · cases h
          · rename_i hi
            have hFo : ∀ e ∈ st.frame, ts.Over e.lem := fun e he => (h1.el e (Or.inl he)).overL
            unfold kinductiveToInductive at hi
            split at hi
            · cases hi
            · have := C20_no_throw E.S hE.sound hc ts _ (pdAbs_over hE hFo) st.np hk
              rw [hi] at this
              cases this
        · cases h
      · exact ih _ _ _ ⟨fun e he => h1.el e (Or.inr (Or.inl he)), h1.R⟩ (h3.step h2) h
    · rename_i hr
      exact hg.1 hM hr
    · cases h

/-- The main loop goes through at most as many rounds as the system needs steps to a bad state. -/
theorem pdLoop_rounds {E : PdEnv T} (hE : E.Ok) (hc : E.S.Complete) {w : Bool} {ts : TS T} (hw : ts.WF) (hs : ts.AuxSep)
    {rfuel pfuel d : Nat} (hb : ts.sem.BadIn d) :
    ∀ (fuel n : Nat) (F : List (PdEl T)) (R : PdR T), PdOk ts F R → PdGood ts n F → d < n + fuel →
      pdLoop E w ts rfuel pfuel fuel n F R = .outOfFuel →
      ∃ n' F' R', n' < d ∧ PdOk ts F' R' ∧ PdGood ts n' F' ∧ pdPush E ts rfuel pfuel n' F' R' = .outOfFuel := by
  have lt : ∀ {n : Nat} {F : List (PdEl T)} {R : PdR T}, PdOk ts F R → PdGood ts n F → n < d := by
    intro n F R hI hG
    refine Classical.byContradiction fun hn => ?_
    obtain ⟨t, hr, hbt⟩ := hb
    obtain ⟨e, he, hq⟩ := hG.query
    have h1 := (hI.el e he).apart t (hG.valid e he d (by omega) t hr)
    rw [hq] at h1
    exact h1 hbt
  intro fuel
  induction fuel with
  | zero => intro n F R hI hG hd h; have := lt hI hG; omega
  | succ fuel ih =>
    intro n F R hI hG hd h
    rw [pdLoop] at h
    have hp := pdPushLoop_ok hE hw (rfuel := rfuel) pfuel _ (hI.start hE n)
    have hg := pdPushLoop_good hE hc hw hs (rfuel := rfuel) pfuel _ (hI.start hE n) (hG.start hE R)
    split at h
    · cases h
    · rename_i st hr
      obtain ⟨h1, h2⟩ := hp.2 _ hr
      have h3 := hg.2 _ hr
      split at h
      · split at h
        · split at h
          · cases h
          · cases h
        · cases h
      · have := h3.lo
        exact ih _ _ _ ⟨fun e he => h1.el e (Or.inr (Or.inl he)), h1.R⟩ (h3.step h2) (by omega) h
    · cases h
    · rename_i hr
      exact ⟨n, F, R, lt hI hG, hI, hG, hr⟩

/-! ### The engine -/

theorem pdOk_start {E : PdEnv T} (hE : E.Ok) {ts : TS T} (hq : ts.Over ts.query) :
    PdOk ts [⟨E.norm (.not ts.query), ts.query, 0⟩] (fun _ => []) := by
  refine ⟨fun e he => ?_, fun i f hf => by simp at hf, fun i f hf => by simp at hf⟩
  simp only [List.mem_cons, List.not_mem_nil, or_false] at he
  subst he
  exact ⟨hE.norm.over hq.not, hq, fun s hs => ⟨s, .refl _, hs⟩, fun s hs => den_not_elim hq (hE.norm.den.1 hs)⟩

theorem pdGood_start {E : PdEnv T} (hE : E.Ok) (hc : E.S.Complete) {ts : TS T} (hq : ts.Over ts.query)
    (h0 : E.S.check [ts.init, ts.query] ≠ .sat) : PdGood ts 0 [⟨E.norm (.not ts.query), ts.query, 0⟩] := by
  refine ⟨fun e he => ?_, ⟨E.norm (.not ts.query), ts.query, 0⟩, by simp, rfl⟩
  simp only [List.mem_cons, List.not_mem_nil, or_false] at he
  subst he
  intro m hm s hr
  rw [hE.norm.den, den_not_iff hq (TS.rep_reach hr)]
  intro hb
  have : m = 0 := by omega
  subst this
  obtain ⟨s0, ⟨ρ, hi, rfl⟩, p⟩ := hr
  cases p
  refine hE.sound.unsat _ ((hc _).resolve_left h0) ⟨ρ, fun f hf => ?_⟩
  simp only [List.mem_cons, List.not_mem_nil, or_false] at hf
  rcases hf with rfl | rfl
  · exact hi
  · exact (TS.den_iff hq).1 hb

/-- **C50** UNSAFE: a bad state is reachable in exactly the reported number of steps. The solver need not decide. -/
theorem C50_unsafe (E : PdEnv T) (hE : E.Ok) (w hasArrays : Bool) (ts : TS T) (hw : ts.WF) (hq : ts.Over ts.query)
    (rfuel pfuel fuel d : Nat) (h : pdkindSolve E w hasArrays ts rfuel pfuel fuel = .done (.unsafeAt d)) : ts.sem.BadIn d := by
  unfold pdkindSolve at h
  split at h
  · cases h
  · split at h
    · cases h
    · split at h
      · rename_i hs
        cases h
        have hm := hE.sound.sat _ hs
        exact ⟨_, ⟨_, ⟨_, hm _ (by simp), rfl⟩, .refl _⟩, ⟨_, hm _ (by simp), rfl⟩⟩
      · exact pdLoop_unsafe hE hw _ _ _ _ (pdOk_start hE hq) h

/-- **C50** SAFE: no bad state is reachable, and when a witness is asked for, the formula is a safe inductive invariant over the
state variables. -/
theorem C50_safe (E : PdEnv T) (hE : E.Ok) (hc : E.S.Complete) (w hasArrays : Bool) (ts : TS T) (hw : ts.WF) (hs : ts.AuxSep)
    (hq : ts.Over ts.query) (rfuel pfuel fuel : Nat) (I : Fla T)
    (h : pdkindSolve E w hasArrays ts rfuel pfuel fuel = .done (.safeInv I)) :
    ts.sem.Safe ∧ (w = true → ts.Over I ∧ ts.sem.SafeInductive (ts.den I)) := by
  unfold pdkindSolve at h
  split at h
  · cases h
  · split at h
    · rename_i hu
      cases h
      have hno : ∀ s, ¬ ts.sem.Init s := by
        rintro s ⟨ρ, hi, _⟩
        exact hE.sound.unsat _ hu ⟨ρ, fun f hf => by simp at hf; rw [hf]; exact hi⟩
      have hff : ∀ s, ¬ ts.den .ff s := by rintro s ⟨ρ, h, _⟩; exact h
      have hi : ts.sem.SafeInductive (ts.den .ff) :=
        ⟨⟨fun s h => absurd h (hno s), fun s t h => absurd h (hff s)⟩, fun s h => absurd h (hff s)⟩
      exact ⟨hi.isSafe, fun _ => ⟨fun x hx => by simp [Fla.vars] at hx, hi⟩⟩
    · split at h
      · cases h
      · rename_i h0
        exact pdLoop_safe hE hc hw hs _ _ _ _ (pdOk_start hE hq) (pdGood_start hE hc hq h0) h

/-- **C50** No exception is raised, with a deciding solver and a total projection: the assertions of the code hold, and the
conversion of the invariant succeeds. -/
theorem C50_no_error (E : PdEnv T) (hE : E.Ok) (hc : E.S.Complete) (hM : E.M.Total) (w hasArrays : Bool) (ts : TS T)
    (hw : ts.WF) (hs : ts.AuxSep) (hq : ts.Over ts.query) (rfuel pfuel fuel : Nat) :
    pdkindSolve E w hasArrays ts rfuel pfuel fuel ≠ .thrown := by
  intro h
  unfold pdkindSolve at h
  split at h
  · cases h
  · split at h
    · cases h
    · split at h
      · cases h
      · rename_i h0
        exact pdLoop_total hE hc hM hw hs _ _ _ _ (pdOk_start hE hq) (pdGood_start hE hc hq h0) h

/-- **C50** If a bad state is reachable in `d` steps, the main loop goes through at most `d` rounds: with `d + 1` rounds
allowed the only way not to get an answer is a `push` that does not end. -/
theorem C50_rounds (E : PdEnv T) (hE : E.Ok) (hc : E.S.Complete) (w : Bool) (ts : TS T) (hw : ts.WF) (hs : ts.AuxSep)
    (hq : ts.Over ts.query) (rfuel pfuel fuel d : Nat) (hb : ts.sem.BadIn d) (hd : d < fuel)
    (h : pdkindSolve E w false ts rfuel pfuel fuel = .outOfFuel) :
    ∃ n F R, n < d ∧ pdPush E ts rfuel pfuel n F R = .outOfFuel := by
  unfold pdkindSolve at h
  split at h
  · cases h
  · split at h
    · cases h
    · split at h
      · cases h
      · rename_i h0
        obtain ⟨n, F, R, h1, _, _, h2⟩ := pdLoop_rounds hE hc hw hs hb _ _ _ _ (pdOk_start hE hq) (pdGood_start hE hc hq h0)
          (by omega) h
        exact ⟨n, F, R, h1, h2⟩

theorem pdkind_answerOk {E : PdEnv T} (hE : E.Ok) (hc : E.S.Complete) {w hasArrays : Bool} {ts : TS T} (hw : ts.WF)
    (hs : ts.AuxSep) (hq : ts.Over ts.query) {rfuel pfuel fuel : Nat} {r : TSResult T}
    (h : pdkindSolve E w hasArrays ts rfuel pfuel fuel = .done r) :
    (r.answer = .unsafeAns → ts.sem.Unsafe) ∧ (r.answer = .safe → ts.sem.Safe) ∧ (w = true → TSAnswerOk ts r) := by
  cases r with
  | safeInv I =>
    obtain ⟨h1, h2⟩ := C50_safe E hE hc w hasArrays ts hw hs hq rfuel pfuel fuel I h
    exact ⟨fun e => (by cases e), fun _ => h1, h2⟩
  | unsafeAt k =>
    have h1 := C50_unsafe E hE w hasArrays ts hw hq rfuel pfuel fuel k h
    exact ⟨fun _ => ⟨k, h1⟩, fun e => (by cases e), fun _ => h1⟩
  | unknown => exact ⟨fun e => (by cases e), fun e => (by cases e), fun _ => trivial⟩

/-- `ensureNoAuxiliaryVariablesInQuery`: the query has no auxiliary variables afterwards and the system means the same. -/
theorem C18_ensureNoAuxQuery {Q : QElim T} (hQ : Q.Exact) {ts ts' : TS T} (hw : ts.WF) (hs : ts.AuxSep)
    (h : ensureNoAuxQuery Q ts = some ts') : ts'.WF ∧ ts'.AuxSep ∧ ts'.Over ts'.query ∧ ts'.Same ts := by
  unfold ensureNoAuxQuery at h
  split at h
  · rename_i he
    cases h
    rw [List.isEmpty_iff] at he
    refine ⟨hw, hs, fun x hx => ?_, .refl _⟩
    rcases hw.query x hx with h | h
    · exact h
    · rw [he] at h; simp at h
  · simp only [Option.bind_eq_bind, Option.bind_eq_some_iff, Option.pure_def, Option.some.injEq] at h
    obtain ⟨q, hq, rfl⟩ := h
    have vq := (elimAux_spec hQ hq).1
    have nq : ∀ x ∈ q.vars, x ∈ ts.stateVars := fun x hx => (hw.query x (vq x hx).1).resolve_right (vq x hx).2
    refine ⟨⟨hw.init, fun x hx => .inl (nq x hx), hw.trans, hw.stateCur, hw.auxCur, hw.nodup, hw.sep⟩,
      ⟨hs.it, fun x hx _ hxq => hw.sep x (nq x hxq) hx, fun x hx _ hxq => hw.sep x (nq x hxq) hx⟩,
      nq, rfl, fun s => Iff.rfl, fun _ _ => Iff.rfl, fun s => elimAux_den hQ hw hq s⟩

/-- **C50** PDKind on a graph that is a transition system, with a solver that decides. Auxiliary variables stay in the
initial states (`src/engine/PDKind.cc:184-186`). -/
theorem C50_graph {E : PdEnv T} (hE : E.Ok) (hc : E.S.Complete) {R : PRepr} (hR : R.WF) {L : ElimExcept T} (hL : L.Exact)
    {Q : QElim T} (hQ : Q.Exact) {G : LGraph T}
    (hG : isTransitionSystem G = true) (hn : G.NoStray) (hl : ∀ e ∈ G, e.LabelOk R) (hd : G.AuxDisjoint R)
    (hid : (G.map LEdge.id).Nodup) (w hasArrays : Bool) (rfuel pfuel fuel : Nat) {res : VerificationResult T}
    (h : solveTSGraph E.S R L (ensureNoAuxQuery Q) (fun ts => pdkindSolve E w hasArrays ts rfuel pfuel fuel) w G = .done res) :
    GraphResultOk R G res ∧ (w = true → res.witness = .none → res.answer = .unknown) := by
  refine solveTSGraph_ok hE.sound hR hL hG hn hl hd hid (fun ts ts' hw hs e => (C18_ensureNoAuxQuery hQ hw hs e).2.2.2)
    (fun ts ts' r hw hs e hr => ?_) h
  obtain ⟨hwf, hsep, hq, _⟩ := C18_ensureNoAuxQuery hQ hw hs e
  exact pdkind_answerOk hE hc hwf hsep hq hr

/-- **C50** PDKind on an arbitrary linear graph, through its single-loop system, whose query must have no auxiliary variables
(the code does not eliminate them there). -/
theorem C50_linear {E : PdEnv T} (hE : E.Ok) (hc : E.S.Complete) {R : PRepr} {N : Pred} {G : LGraph T} (h : SLOk R N G)
    (hn : G.NoStray) {L : ElimExcept T} (hL : L.Exact)
    (hin : ∃ e ∈ G, e.src = .tru) (hout : ∃ e ∈ G, e.tgt = .fls) {Q : KeepOnly T} (hQ : Q.Exact) {Q' : QElim T} (hQ' : Q'.Exact)
    {simp : Fla T → Fla T} (hsi : SimplifierOk simp) (w hasArrays : Bool) (rfuel pfuel fuel : Nat)
    (hna : isTransitionSystem G = false → ∀ ts, singleLoop E.S R L N G = some ts → ts.Over ts.query) {res : VerificationResult T}
    (hres : tsEngineGraph E.S R L Q simp N (ensureNoAuxQuery Q') (fun ts => pdkindSolve E w hasArrays ts rfuel pfuel fuel) w G =
      .done res) : GraphResultOk R G res := by
  refine C17_ts_engine hE.sound h hn hL hin hout hQ hsi (fun ts ts' hw hs e => (C18_ensureNoAuxQuery hQ' hw hs e).2.2.2)
    (fun ts ts' r hw hs hor hr => ?_) hres
  obtain ⟨hwf, hsep, hq⟩ : ts'.WF ∧ ts'.AuxSep ∧ ts'.Over ts'.query := by
    rcases hor with e | ⟨hts, e, rfl⟩
    · obtain ⟨a, b, c, _⟩ := C18_ensureNoAuxQuery hQ' hw hs e
      exact ⟨a, b, c⟩
    · exact ⟨hw, hs, hna hts _ e⟩
  exact pdkind_answerOk hE hc hwf hsep hq hr

/-! ### Examples -/

namespace PDKindEx
open QEEx (boolMbp boolMbp_sound)

def env (S : Smt propTheory) : PdEnv propTheory := ⟨S, boolMbp, id, id⟩

theorem env_ok {S : Smt propTheory} (hS : S.Sound) : (env S).Ok := ⟨hS, boolMbp_sound, simplifierOk_id, fun _ _ => Iff.rfl⟩

theorem env_total (S : Smt propTheory) : (env S).M.Total := fun _ _ _ _ => ⟨_, rfl⟩

/-- Concrete runs: a system proved safe (with a witness), one refuted in one step and one in three. -/
theorem C50_example : (∃ I, pdkindSolve (env propSmt) true false exTS2 9 9 5 = .done (.safeInv I)) ∧
    exTS2.WF ∧ exTS2.AuxSep ∧ exTS2.Over exTS2.query ∧ (env propSmt).Ok ∧ (env propSmt).S.Complete ∧ (env propSmt).M.Total ∧
    pdkindSolve (env propSmt) true false exTS 9 9 5 = .done (.unsafeAt 1) ∧
    pdkindSolve (env propSmt) true false exCounter 9 30 5 = .done (.unsafeAt 3) := by
  refine ⟨?_, exTS2_wf, exTS2_noAux.auxSep exTS2_wf, exTS2_noAux.query, env_ok propSmt_sound, propSmt_complete, env_total _,
    by decide +kernel, by decide +kernel⟩
  have : (match pdkindSolve (env propSmt) true false exTS2 9 9 5 with | .done (.safeInv _) => true | _ => false) = true := by
    decide +kernel
  revert this
  cases pdkindSolve (env propSmt) true false exTS2 9 9 5 with
  | done r => cases r <;> simp
  | thrown => simp
  | outOfFuel => simp

/-- A backend that gives up on one query. -/
def lazySmt (q : List (Fla propTheory)) : Smt propTheory where
  check := fun fs => if fs = q then .unknown else propSmt.check fs
  model := propSmt.model
  itp := propSmt.itp

theorem lazySmt_sound (q : List (Fla propTheory)) : (lazySmt q).Sound where
  sat := by
    intro fs h
    simp only [lazySmt] at h ⊢
    split at h
    · cases h
    · exact propSmt_sound.sat fs h
  unsat := by
    intro fs h
    simp only [lazySmt] at h
    split at h
    · cases h
    · exact propSmt_sound.unsat fs h
  itp := by
    intro fs A B h
    simp only [lazySmt] at h ⊢
    split at h
    · cases h
    · exact propSmt_sound.itp fs A B h
  path := by
    intro fs A C B h
    simp only [lazySmt] at h ⊢
    split at h
    · cases h
    · exact propSmt_sound.path fs A C B h

/-- The second check of the first round on `exTS`. -/
def q2 : List (Fla propTheory) :=
  pdKQuery (env propSmt) exTS [⟨.not exTS.query, exTS.query, 0⟩] 1 exTS.query

/-- **C50** The hypothesis that the solver decides is needed: an UNKNOWN answer to the question whether the counterexample can be
reached is taken for "no" (`src/engine/PDKind.cc:320-322`). If the lemma is the negation of the counterexample, the weaker
obligation is the obligation itself, the frame counts as inductive, and the engine answers SAFE for an unsafe system, with a
witness that is not an invariant (for `k = 1` the conversion does not check it). -/
theorem C50_unknown_unsound : (env (lazySmt q2)).Ok ∧ exTS.WF ∧ exTS.AuxSep ∧ exTS.Over exTS.query ∧ exTS.sem.Unsafe ∧
    ∃ I, pdkindSolve (env (lazySmt q2)) true false exTS 9 9 5 = .done (.safeInv I) := by
  refine ⟨env_ok (lazySmt_sound _), exTS_wf, exTS_noAux.auxSep exTS_wf, exTS_noAux.query, ⟨1, C19_example.2.1⟩, ?_⟩
  have : (match pdkindSolve (env (lazySmt q2)) true false exTS 9 9 5 with | .done (.safeInv _) => true | _ => false) = true := by
    decide +kernel
  revert this
  cases pdkindSolve (env (lazySmt q2)) true false exTS 9 9 5 with
  | done r => cases r <;> simp
  | thrown => simp
  | outOfFuel => simp

end PDKindEx

end Golem
