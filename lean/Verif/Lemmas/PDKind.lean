import Verif.Model.Engines.PDKind
import Verif.Props.Dar
import Verif.Lemmas.SpacerTotal

/-! Invariants of property-directed k-induction (`src/engine/PDKind.cc`). -/

namespace Golem
variable {T : Theory}

/-- What the engine may assume of its services. -/
structure PdEnv.Ok (E : PdEnv T) : Prop where
  sound : E.S.Sound
  mbp : E.M.Sound
  norm : SimplifierOk E.norm
  ord : ∀ l e, e ∈ E.ord l ↔ e ∈ l

theorem SimplifierOk.over {N : Fla T → Fla T} (h : SimplifierOk N) {ts : TS T} {f : Fla T} (hf : ts.Over f) : ts.Over (N f) :=
  fun x hx => hf x (h.vars f x hx)

theorem SimplifierOk.den {N : Fla T → Fla T} (h : SimplifierOk N) {ts : TS T} {f : Fla T} {s : TS.State T} :
    ts.den (N f) s ↔ ts.den f s := by
  constructor
  · rintro ⟨ρ, h1, h2⟩; exact ⟨ρ, (h.equiv f ρ).1 h1, h2⟩
  · rintro ⟨ρ, h1, h2⟩; exact ⟨ρ, (h.equiv f ρ).2 h1, h2⟩

theorem TS.Over.or {ts : TS T} {a b : Fla T} (ha : ts.Over a) (hb : ts.Over b) : ts.Over (.or a b) := by
  intro x hx
  rcases List.mem_append.1 hx with h | h
  · exact ha x h
  · exact hb x h

theorem TS.Over.not {ts : TS T} {a : Fla T} (ha : ts.Over a) : ts.Over (.not a) := ha

theorem TS.Over.conj {ts : TS T} {l : List (Fla T)} (h : ∀ f ∈ l, ts.Over f) : ts.Over (Fla.conj l) := by
  intro x hx
  obtain ⟨f, hf, hx⟩ := Fla.mem_vars_conj.1 hx
  exact h f hf x hx

theorem den_conj {ts : TS T} {l : List (Fla T)} (h : ∀ f ∈ l, ts.Over f) {s : TS.State T} (hr : ts.Rep s) :
    ts.den (Fla.conj l) s ↔ ∀ f ∈ l, ts.den f s := by
  obtain ⟨ρ, rfl⟩ := hr
  rw [TS.den_iff (TS.Over.conj h), Fla.holds_conj]
  constructor
  · intro hh f hf; exact (TS.den_iff (h f hf)).2 (hh f hf)
  · intro hh f hf; exact (TS.den_iff (h f hf)).1 (hh f hf)

theorem den_not_iff {ts : TS T} {q : Fla T} (hq : ts.Over q) {s : TS.State T} (hr : ts.Rep s) :
    ts.den (.not q) s ↔ ¬ ts.den q s := by
  obtain ⟨ρ, rfl⟩ := hr
  rw [TS.den_iff hq, TS.den_iff (TS.Over.not hq)]
  exact Iff.rfl

theorem TS.rep_reach {ts : TS T} {n : Nat} {t : TS.State T} (h : ts.sem.ReachIn n t) : ts.Rep t := by
  obtain ⟨s, hs, p⟩ := h
  exact TS.rep_path (TS.rep_init hs) p

/-- Every state of `g` reaches a state of `f` in exactly `k` steps. -/
def TS.Leads (ts : TS T) (k : Nat) (g f : Fla T) : Prop := ∀ s, ts.den g s → ∃ t, ts.sem.Path k s t ∧ ts.den f t

/-- `f` cannot be reached in `m` steps. -/
def TS.Unreach (ts : TS T) (m : Nat) (f : Fla T) : Prop := ∀ s, ts.sem.ReachIn m s → ¬ ts.den f s

/-- `f` holds after `m` steps. -/
def TS.After (ts : TS T) (m : Nat) (f : Fla T) : Prop := ∀ s, ts.sem.ReachIn m s → ts.den f s

theorem TS.Unreach.leads {ts : TS T} {k m : Nat} {f g : Fla T} (h : ts.Unreach (m + k) f) (hl : ts.Leads k g f) :
    ts.Unreach m g := by
  rintro s ⟨s0, hi, p⟩ hs
  obtain ⟨t, q, ht⟩ := hl s hs
  exact h t ⟨s0, hi, p.append q⟩ ht

/-- `generalize`: the result is over the state variables, contains the state of the model, and leads to the formula. -/
theorem pdGeneralize_ok {E : PdEnv T} (hE : E.Ok) {ts : TS T} {k : Nat} {trans f g : Fla T} (hf : ts.Over f)
    {ρ : Valuation T} (hp : ∀ ρ : Valuation T, trans.holds ρ → ts.sem.Path k (ts.stateAt ρ 0) (ts.stateAt ρ k))
    (h1 : trans.holds ρ) (h2 : (sendFla f k).holds ρ) (h : pdGeneralize E ts ρ trans (sendFla f k) = some g) :
    ts.Over g ∧ ts.den g (ts.stateAt ρ 0) ∧ ts.Leads k g f := by
  unfold pdGeneralize mbpKeepOnly at h
  obtain ⟨a, b, c⟩ := hE.mbp (.and trans (sendFla f k)) _ ρ g ⟨h1, h2⟩ h
  refine ⟨fun x hx => ?_, ⟨ρ, a, (TS.stateAt_zero ts ρ).symm⟩, ?_⟩
  · obtain ⟨hm, hn⟩ := b x hx
    refine Classical.byContradiction fun hx' => hn ?_
    simp [hm, hx']
  · rintro s ⟨ρ', hρ', rfl⟩
    obtain ⟨ρ'', hag, h3, h4⟩ := c ρ' hρ'
    refine ⟨ts.stateAt ρ'' k, ?_, (TS.den_at hf).2 h4⟩
    have e : ts.stateVars.map ρ' = ts.stateAt ρ'' 0 := by
      rw [TS.stateAt_zero]
      apply List.map_congr_left
      intro x hx
      exact (hag x (by simp [hx])).symm
    rw [e]
    exact hp ρ'' h3

/-- The lemmas of frame `i` hold in all states reachable in at most `i` steps. -/
structure PdR.Ok (ts : TS T) (R : PdR T) : Prop where
  over : ∀ i, ∀ f ∈ R i, ts.Over f
  after : ∀ i, ∀ f ∈ R i, ∀ m ≤ i, ts.After m f

theorem PdR.Ok.add {ts : TS T} {R : PdR T} (h : R.Ok ts) {k : Nat} {e : Fla T} (he : ts.Over e) (ha : ∀ m ≤ k, ts.After m e) :
    (R.add k e).Ok ts where
  over := by
    intro i f hf
    unfold PdR.add at hf
    split at hf
    · rcases List.mem_append.1 hf with h1 | h1
      · exact h.over i f h1
      · simp at h1; rw [h1]; exact he
    · exact h.over i f hf
  after := by
    intro i f hf m hm
    unfold PdR.add at hf
    split at hf
    · rename_i hi
      rcases List.mem_append.1 hf with h1 | h1
      · exact h.after i f h1 m hm
      · simp at h1; rw [h1]; exact ha m (by omega)
    · exact h.after i f hf m hm

/-- An explanation why `f` cannot be reached in at most `n` steps. -/
structure PdExplains (ts : TS T) (n : Nat) (f e : Fla T) : Prop where
  over : ts.Over e
  after : ∀ m ≤ n, ts.After m e
  apart : ∀ s, ts.den e s → ¬ ts.den f s

theorem PdExplains.unreach {ts : TS T} {n : Nat} {f e : Fla T} (h : PdExplains ts n f e) {m : Nat} (hm : m ≤ n) :
    ts.Unreach m f := fun s hs => h.apart s (h.after m hm s hs)

/-- What an answer about `k` steps says. -/
def PdSays (ts : TS T) (k : Nat) (f : Fla T) : PdReach T → Prop
  | .reach _ => ∃ s, ts.sem.ReachIn k s ∧ ts.den f s
  | .unreach e => PdExplains ts k f e

theorem pdZero_ok {S : Smt T} (hS : S.Sound) {ts : TS T} {f : Fla T} (hf : ts.Over f) {r : PdReach T}
    (h : pdZero S ts f = .done r) : PdSays ts 0 f r := by
  unfold pdZero at h
  split at h
  · rename_i hu
    cases h
    have hi := hS.itp _ [ts.init] [f] hu (by simp)
    have hov : ts.Over (S.itp [ts.init] [f]) := by
      intro x hx
      have := (hi.shared x hx).2
      simp [Fla.mem_vars_conj] at this
      exact hf x this
    refine ⟨hov, ?_, ?_⟩
    · intro m hm s hs
      obtain ⟨s0, ⟨ρ, h1, rfl⟩, p⟩ := hs
      have : m = 0 := by omega
      subst this
      cases p
      exact ⟨ρ, hi.fromA ρ (by intro g hg; simp at hg; rw [hg]; exact h1), rfl⟩
    · rintro s ⟨ρ, h1, rfl⟩ h2
      refine hi.refuteB ρ h1 ?_
      intro g hg
      simp at hg; rw [hg]
      exact (TS.den_iff hf).1 h2
  · rename_i hu
    cases h
    have hm := hS.sat _ hu
    refine ⟨_, ⟨_, ⟨S.model [ts.init, f], hm _ (by simp), rfl⟩, .refl _⟩, ?_⟩
    exact (TS.den_iff hf).2 (hm _ (by simp))
  · cases h

theorem pdQuery_path {ts : TS T} (ρ : Valuation T) (h : ts.trans.holds ρ) :
    ts.sem.Path 1 (ts.stateAt ρ 0) (ts.stateAt ρ ((1 : Nat) : Int)) := by
  refine .snoc (.refl _) ?_
  have := TS.step_at (ts := ts) (ρ := ρ) (i := 0) (by simpa [sendFla] using h)
  simpa using this

/-- One call of the recursion is right. -/
def PdRight (ts : TS T) (k : Nat) (f : Fla T) (r : PdReach T × PdR T) : Prop :=
  r.2.Ok ts ∧ PdSays ts k f r.1

theorem pdReachLoop_ok {E : PdEnv T} (hE : E.Ok) {ts : TS T} (hw : ts.WF)
    {rec : Fla T → PdR T → Outcome (PdReach T × PdR T)} {k : Nat}
    (hrec : ∀ g R r, ts.Over g → PdR.Ok ts R → rec g R = .done r → PdRight ts k g r) {f : Fla T} (hf : ts.Over f) :
    ∀ (fuel : Nat) (R : PdR T) (r : PdReach T × PdR T), R.Ok ts → pdReachLoop E ts rec k f fuel R = .done r →
      PdRight ts (k + 1) f r := by
  intro fuel
  induction fuel with
  | zero => intro R r _ h; simp [pdReachLoop] at h
  | succ fuel ih =>
    intro R r hR h
    rw [pdReachLoop] at h
    split at h
    · rename_i hsat
      have hm := hE.sound.sat _ hsat
      split at h
      · cases h
      · rename_i g hg
        have ht : ts.trans.holds (E.S.model (pdQuery ts R k f)) := hm _ (by simp [pdQuery])
        have hf1 : (sendFla f ((1 : Nat) : Int)).holds (E.S.model (pdQuery ts R k f)) := hm _ (by simp [pdQuery])
        obtain ⟨g1, _, g3⟩ := pdGeneralize_ok hE (k := 1) hf pdQuery_path ht hf1 hg
        split at h
        · rename_i m R' hr
          cases h
          obtain ⟨h1, s, ⟨s0, hi, p⟩, h3⟩ := hrec g R _ g1 hR hr
          obtain ⟨t, q, h4⟩ := g3 s h3
          exact ⟨h1, t, ⟨s0, hi, p.append q⟩, h4⟩
        · rename_i e R' hr
          obtain ⟨h1, h2⟩ := hrec g R _ g1 hR hr
          exact ih _ r (h1.add h2.over h2.after) h
        · cases h
        · cases h
    · rename_i hu
      have hover : ts.Over (Fla.conj (R k)) := TS.Over.conj (hR.over k)
      obtain ⟨i1, i2, i3⟩ := dar_itp_forward hE.sound hw hover hf hu
      dsimp only at h
      split at h
      · rename_i e he
        cases h
        have hz : PdExplains ts 0 f e := pdZero_ok hE.sound hf he
        refine ⟨hR, hE.norm.over (TS.Over.or i1 hz.over), ?_, ?_⟩
        · intro m hm s hs
          rw [hE.norm.den, den_or]
          obtain ⟨s0, hi, p⟩ := hs
          cases p with
          | refl _ => exact Or.inr (hz.after 0 (by omega) s ⟨s, hi, .refl _⟩)
          | @snoc m' _ t _ p st =>
            left
            have hr : ts.sem.ReachIn m' t := ⟨s0, hi, p⟩
            exact i2 t s ((den_conj (hR.over k) (TS.rep_reach hr)).2 fun g hg => hR.after k g hg m' (by omega) t hr) st
        · intro s hs
          rw [hE.norm.den, den_or] at hs
          rcases hs with h1 | h1
          · exact i3 s h1
          · exact hz.apart s h1
      · cases h
      · cases h
      · cases h
    · cases h

/-- `reachable(k, f)` answers correctly, and keeps the frames correct. Soundness of the solver is enough. -/
theorem pdReachable_ok {E : PdEnv T} (hE : E.Ok) {ts : TS T} (hw : ts.WF) (fuel : Nat) :
    ∀ (k : Nat) (f : Fla T) (R : PdR T) (r : PdReach T × PdR T), ts.Over f → R.Ok ts →
      pdReachable E ts fuel k f R = .done r → PdRight ts k f r := by
  intro k
  induction k with
  | zero =>
    intro f R r hf hR h
    rw [pdReachable] at h
    split at h
    · rename_i r' hz
      cases h
      exact ⟨hR, pdZero_ok hE.sound hf hz⟩
    · cases h
    · cases h
  | succ k ih =>
    intro f R r hf hR h
    rw [pdReachable] at h
    exact pdReachLoop_ok hE hw ih hf fuel R r hR h

/-- What a range of reachability checks says. -/
def PdRangeRight (ts : TS T) (lo hi : Nat) (f : Fla T) (r : PdReach T × PdR T) : Prop :=
  r.2.Ok ts ∧ match r.1 with
    | .reach j => lo ≤ j ∧ j ≤ hi ∧ (∃ s, ts.sem.ReachIn j s ∧ ts.den f s) ∧ ∀ i, lo ≤ i → i < j → ts.Unreach i f
    | .unreach e => PdExplains ts hi f e

theorem pdCheck_ok {E : PdEnv T} (hE : E.Ok) {ts : TS T} (hw : ts.WF) (fuel : Nat) {f : Fla T} (hf : ts.Over f) {lo : Nat} :
    ∀ (m i : Nat) (R : PdR T) (r : PdReach T × PdR T), lo ≤ i → R.Ok ts → (∀ j, lo ≤ j → j < i → ts.Unreach j f) →
      pdCheck E ts fuel f m i R = .done r → PdRangeRight ts lo (i + m - 1) f r := by
  intro m
  induction m with
  | zero => intro i R r _ _ _ h; simp [pdCheck] at h
  | succ m ih =>
    intro i R r hi hR hun h
    rw [pdCheck] at h
    split at h
    · rename_i j R' hr
      cases h
      obtain ⟨h1, h2⟩ := pdReachable_ok hE hw fuel i f R _ hf hR hr
      exact ⟨h1, hi, by omega, h2, hun⟩
    · rename_i e R' hr
      obtain ⟨h1, h2⟩ := pdReachable_ok hE hw fuel i f R _ hf hR hr
      split at h
      · rename_i hm
        cases h
        subst hm
        exact ⟨h1, h2⟩
      · have := ih (i + 1) R' r (by omega) h1 (fun j h3 h4 => h2.unreach (by omega)) h
        rw [show i + 1 + m - 1 = i + (m + 1) - 1 by omega] at this
        exact this
    · cases h
    · cases h

theorem pdCheckFromTo_ok {E : PdEnv T} (hE : E.Ok) {ts : TS T} (hw : ts.WF) {fuel : Nat} {f : Fla T} (hf : ts.Over f)
    {lo hi : Nat} (hlh : lo ≤ hi) {R : PdR T} (hR : R.Ok ts) {r : PdReach T × PdR T}
    (h : pdCheckFromTo E ts fuel lo hi f R = .done r) : PdRangeRight ts lo hi f r := by
  have := pdCheck_ok hE hw fuel hf (hi + 1 - lo) lo R r (Nat.le_refl _) hR (fun j h1 h2 => by omega) h
  rwa [show lo + (hi + 1 - lo) - 1 = hi by omega] at this

/-! ### No exceptions -/

theorem pdZero_total {S : Smt T} (hc : S.Complete) {ts : TS T} {f : Fla T} : pdZero S ts f ≠ .thrown := by
  unfold pdZero
  rcases hc [ts.init, f] with h | h <;> rw [h] <;> simp

theorem pdReachLoop_total {E : PdEnv T} (hE : E.Ok) (hc : E.S.Complete) (hM : E.M.Total) {ts : TS T}
    {rec : Fla T → PdR T → Outcome (PdReach T × PdR T)} {k : Nat}
    (hrec : ∀ g R r, ts.Over g → PdR.Ok ts R → rec g R = .done r → PdRight ts k g r)
    (htot : ∀ g R, ts.Over g → PdR.Ok ts R → (∀ m, m < k → ts.Unreach m g) → rec g R ≠ .thrown)
    {f : Fla T} (hf : ts.Over f) (hun : ∀ m, m < k + 1 → ts.Unreach m f) :
    ∀ (fuel : Nat) (R : PdR T), R.Ok ts → pdReachLoop E ts rec k f fuel R ≠ .thrown := by
  intro fuel
  induction fuel with
  | zero => intro R _ h; simp [pdReachLoop] at h
  | succ fuel ih =>
    intro R hR h
    rw [pdReachLoop] at h
    split at h
    · rename_i hsat
      have hm := hE.sound.sat _ hsat
      have ht : ts.trans.holds (E.S.model (pdQuery ts R k f)) := hm _ (by simp [pdQuery])
      have hf1 : (sendFla f ((1 : Nat) : Int)).holds (E.S.model (pdQuery ts R k f)) := hm _ (by simp [pdQuery])
      split at h
      · rename_i hg
        obtain ⟨p, hp⟩ := hM (.and ts.trans (sendFla f 1)) ((Fla.and ts.trans (sendFla f 1)).vars.filter
          fun x => decide (x ∉ ts.stateVars)) _ ⟨ht, hf1⟩
        unfold pdGeneralize mbpKeepOnly at hg
        rw [hg] at hp
        cases hp
      · rename_i g hg
        obtain ⟨g1, _, g3⟩ := pdGeneralize_ok hE (k := 1) hf pdQuery_path ht hf1 hg
        split at h
        · cases h
        · rename_i e R' hr
          obtain ⟨h1, h2⟩ := hrec g R _ g1 hR hr
          exact ih _ (h1.add h2.over h2.after) h
        · rename_i hr
          exact htot g R g1 hR (fun m hm => (hun (m + 1) (by omega)).leads g3) hr
        · cases h
    · dsimp only at h
      split at h
      · cases h
      · rename_i hz
        obtain ⟨s, h1, h2⟩ := pdZero_ok hE.sound hf hz
        exact hun 0 (by omega) s h1 h2
      · rename_i hz
        exact pdZero_total hc hz
      · cases h
    · rename_i h1 h2
      rcases hc (pdQuery ts R k f) with h3 | h3
      · exact h1 h3
      · exact h2 h3

theorem pdReachable_total {E : PdEnv T} (hE : E.Ok) (hc : E.S.Complete) (hM : E.M.Total) {ts : TS T} (hw : ts.WF) (fuel : Nat) :
    ∀ (k : Nat) (f : Fla T) (R : PdR T), ts.Over f → R.Ok ts → (∀ m, m < k → ts.Unreach m f) →
      pdReachable E ts fuel k f R ≠ .thrown := by
  intro k
  induction k with
  | zero =>
    intro f R _ _ _ h
    rw [pdReachable] at h
    split at h
    · cases h
    · rename_i hz; exact pdZero_total hc hz
    · cases h
  | succ k ih =>
    intro f R hf hR hun h
    rw [pdReachable] at h
    exact pdReachLoop_total hE hc hM (fun g R r => pdReachable_ok hE hw fuel k g R r) ih hf hun fuel R hR h

theorem pdCheck_total {E : PdEnv T} (hE : E.Ok) (hc : E.S.Complete) (hM : E.M.Total) {ts : TS T} (hw : ts.WF) (fuel : Nat)
    {f : Fla T} (hf : ts.Over f) :
    ∀ (m i : Nat) (R : PdR T), 0 < m → R.Ok ts → (∀ j, j < i → ts.Unreach j f) → pdCheck E ts fuel f m i R ≠ .thrown := by
  intro m
  induction m with
  | zero => intro i R h0; omega
  | succ m ih =>
    intro i R _ hR hun h
    rw [pdCheck] at h
    split at h
    · cases h
    · rename_i e R' hr
      obtain ⟨h1, h2⟩ := pdReachable_ok hE hw fuel i f R _ hf hR hr
      split at h
      · cases h
      · exact ih (i + 1) R' (by omega) h1 (fun j h4 => h2.unreach (by omega)) h
    · rename_i hr
      exact pdReachable_total hE hc hM hw fuel i f R hf hR hun hr
    · cases h

end Golem
