import Verif.Lemmas.TRLStep
import Verif.Lemmas.TPAQuery
import Verif.Lemmas.SpacerWitness

/-! Lemmas for C66: the loop in a trace, and the invariant of the search. -/

namespace Golem

variable {ts : TS LIA}

/-! ### The loop -/

/-- Two equal steps at the positions `a < b`. -/
def Repeats (fs : List (Fla LIA)) (a b : Nat) : Prop := a < b ∧ ∃ f, fs[a]? = some f ∧ fs[b]? = some f

def BestOk (fs : List (Fla LIA)) (i : Nat) : Option TrlLoop → Prop
  | none => ∀ a b, b < i → ¬ Repeats fs a b
  | some l => (l.start + l.len < i ∧ Repeats fs l.start (l.start + l.len)) ∧ ∀ a b, b < i → Repeats fs a b → l.len ≤ b - a

structure KnownOk (fs : List (Fla LIA)) (i : Nat) (known : List (Fla LIA × Nat)) : Prop where
  found : ∀ f j, known.lookup f = some j → j < i ∧ fs[j]? = some f ∧ ∀ j', j < j' → j' < i → fs[j']? ≠ some f
  missing : ∀ f, known.lookup f = none → ∀ j < i, fs[j]? ≠ some f

theorem getLoopFrom_spec (fs rest : List (Fla LIA)) (i : Nat) (known : List (Fla LIA × Nat)) (best : Option TrlLoop)
    (hrest : fs.drop i = rest) (hi : i ≤ fs.length) (hk : KnownOk fs i known) (hb : BestOk fs i best) :
    BestOk fs fs.length (getLoopFrom rest i known best) := by
  induction rest generalizing i known best with
  | nil =>
    have : i = fs.length := by
      have := congrArg List.length hrest
      simp at this; omega
    subst this
    exact hb
  | cons f rest ih =>
    have hlt : i < fs.length := by
      have := congrArg List.length hrest
      simp at this; omega
    have hfi : fs[i]? = some f := by
      have := congrArg (fun l => l[0]?) hrest
      simpa using this
    unfold getLoopFrom
    refine ih (i + 1) _ _ ?_ hlt ?_ ?_
    · have := congrArg (List.drop 1) hrest
      simpa using this
    · refine ⟨fun g j h => ?_, fun g h j hj => ?_⟩
      · rw [List.lookup_cons] at h
        by_cases e : (g == f) = true
        · rw [e] at h
          simp only [Option.some.injEq] at h
          subst h
          rw [beq_iff_eq] at e
          subst e
          exact ⟨by omega, hfi, fun j' h1 h2 => by omega⟩
        · rw [Bool.not_eq_true] at e
          rw [e] at h
          obtain ⟨h1, h2, h3⟩ := hk.found g j h
          refine ⟨by omega, h2, fun j' h4 h5 => ?_⟩
          rcases Nat.lt_succ_iff_lt_or_eq.1 h5 with h5 | rfl
          · exact h3 j' h4 h5
          · rw [hfi]; intro e'
            rw [Option.some.inj e'] at e
            simp at e
      · rw [List.lookup_cons] at h
        by_cases e : (g == f) = true
        · rw [e] at h; cases h
        · rw [Bool.not_eq_true] at e
          rw [e] at h
          rcases Nat.lt_succ_iff_lt_or_eq.1 hj with hj | rfl
          · exact hk.missing g h j hj
          · rw [hfi]; intro e'
            rw [Option.some.inj e'] at e
            simp at e
    · cases hl : known.lookup f with
      | none =>
        have hno : ∀ a, ¬ Repeats fs a i := by
          rintro a ⟨h1, g, h2, h3⟩
          rw [hfi] at h3
          obtain rfl := Option.some.inj h3
          exact hk.missing f hl a h1 h2
        simp only
        cases best with
        | none =>
          intro a b hb' hre
          rcases Nat.lt_succ_iff_lt_or_eq.1 hb' with h | rfl
          · exact hb a b h hre
          · exact hno a hre
        | some l =>
          refine ⟨⟨by have := hb.1.1; omega, hb.1.2⟩, fun a b hb' hre => ?_⟩
          rcases Nat.lt_succ_iff_lt_or_eq.1 hb' with h | rfl
          · exact hb.2 a b h hre
          · exact absurd hre (hno a)
      | some prev =>
        obtain ⟨h1, h2, h3⟩ := hk.found f prev hl
        have hrep : Repeats fs prev (prev + (i - prev)) := by
          rw [show prev + (i - prev) = i by omega]
          exact ⟨h1, f, h2, hfi⟩
        have hnear : ∀ a, Repeats fs a i → i - prev ≤ i - a := by
          rintro a ⟨h4, g, h5, h6⟩
          rw [hfi] at h6
          obtain rfl := Option.some.inj h6
          by_cases h : prev < a
          · exact absurd h5 (h3 a h h4)
          · omega
        simp only
        cases best with
        | none =>
          simp only [if_true]
          refine ⟨⟨by simp only; omega, hrep⟩, fun a b hb' hre => ?_⟩
          rcases Nat.lt_succ_iff_lt_or_eq.1 hb' with h | rfl
          · exact absurd hre (hb a b h)
          · exact hnear a hre
        | some l =>
          simp only [decide_eq_true_eq]
          split
          · rename_i hlt'
            refine ⟨⟨by simp only; omega, hrep⟩, fun a b hb' hre => ?_⟩
            rcases Nat.lt_succ_iff_lt_or_eq.1 hb' with h | rfl
            · have := hb.2 a b h hre
              simp only; omega
            · exact hnear a hre
          · rename_i hge
            refine ⟨⟨by have := hb.1.1; omega, hb.1.2⟩, fun a b hb' hre => ?_⟩
            rcases Nat.lt_succ_iff_lt_or_eq.1 hb' with h | rfl
            · exact hb.2 a b h hre
            · have := hnear a hre; omega

theorem getLoop_spec (trace : List (Fla LIA)) :
    BestOk (trace.zipIdx.map fun p => sendFla p.1 (-(p.2 : Int))) trace.length (getLoop trace) := by
  have := getLoopFrom_spec (trace.zipIdx.map fun p => sendFla p.1 (-(p.2 : Int))) _ 0 [] none rfl (Nat.zero_le _)
    ⟨fun f j h => by simp at h, fun f _ j h => absurd h (Nat.not_lt_zero _)⟩ (fun a b h => absurd h (Nat.not_lt_zero _))
  simpa [getLoop] using this

theorem getLoop_some {trace : List (Fla LIA)} {l : TrlLoop} (h : getLoop trace = some l) : 0 < l.len ∧ l.start + l.len < trace.length := by
  have := getLoop_spec trace
  rw [h] at this
  have h1 := this.1.1
  have h2 := this.1.2.1
  exact ⟨by omega, h1⟩

/-! ### Learned relations have the right variables -/

theorem learned_vars (hr : TrlReady ts) {l : TrlLoop} (hlen : 0 < l.len) {c : Nat} {ρ₀ : Valuation LIA} {F : Fla LIA} (hF : Projection ts l c ρ₀ F) :
    RelVars ts (trlUnshiftFrom ts (sendFla F (-(l.start : Int))) 0 l.len) := by
  intro x hx
  unfold trlUnshiftFrom varSubstitute at hx
  obtain ⟨z, hz, hxz⟩ := Fla.mem_vars_subst.1 hx
  obtain ⟨w, hw, rfl⟩ := mem_vars_sendFla.1 hz
  rcases hF.vars w hw with ⟨y, hy, rfl⟩ | ⟨y, hy, rfl⟩ | rfl
  · rw [shift_shift, show (l.start : Int) + -(l.start : Int) = 0 by omega, shift_zero, unshift_fn_state hr.wf _ hy] at hxz
    simp only [Tm.vars, List.mem_singleton] at hxz
    exact .inl (hxz ▸ hy)
  · rw [shift_shift, show ((l.start + l.len : Nat) : Int) + -(l.start : Int) = l.len by omega, unshift_fn_next hr.wf hlen hy] at hxz
    simp only [Tm.vars, List.mem_singleton] at hxz
    exact .inr (.inl (hxz ▸ List.mem_map.2 ⟨y, hy, rfl⟩))
  · have hcnt := hr.cnt c
    rw [shift_shift, show (l.start : Int) + -(l.start : Int) = 0 by omega, shift_zero, unshift_fn_other] at hxz
    · simp only [Tm.vars, List.mem_singleton] at hxz
      subst hxz
      refine .inr (.inr ⟨rfl, hcnt.1, fun h => ?_, by simp [trlCounter, trlIdx]⟩)
      rcases hr.wf.init _ h with h | h
      · exact hcnt.1 h
      · exact hcnt.2 h
    · intro y hy k e
      have h1 := hr.wf.stateCur y hy
      cases y <;> simp [trlCounter, shift, Var.isCurrent] at e h1
      obtain ⟨rfl, e⟩ := e
      subst h1
      exact hcnt.1 hy

/-! ### The invariant of the search -/

/-- A blocking clause: a learned relation known to the levels where the loop begins and after it. -/
def BlockOk (ts : TS LIA) (st : TrlState) (c : Fla LIA) (d : Nat) : Prop :=
  ∃ s i r, s ≤ d ∧ 1 ≤ i ∧ st.relations[i]? = some r ∧
    (∀ (j : Nat) (l : TrlLevel), s ≤ j → st.levels[j]? = some l → i < l.rels.length) ∧
    (∀ x ∈ c.vars, (∃ y ∈ ts.stateVars, ∃ m : Nat, m ≤ d + 1 ∧ x = shift m y) ∨ x = shift s trlIdx) ∧
    ∀ ρ : Valuation LIA, ¬ c.holds ρ → RelSem ts r (ts.stateAt ρ s) (ts.stateAt ρ ((d + 1 : Nat) : Int)) ∧
      (s = d → (ρ (shift s trlIdx) : Int) ≤ 0)

structure TrlInv (ts : TS LIA) (st : TrlState) : Prop where
  levels : LevelsOk ts st.relations st.levels
  first : st.relations[0]? = some ts.trans
  blocks : ∀ b ∈ st.blocks, BlockOk ts st b.1 b.2
  query : ∀ m < st.levels.length, ¬ SatList (trlStack ts (st.levels.take m) ++ [sendFla ts.query m])

theorem trans_relVars (hr : TrlReady ts) : RelVars ts ts.trans := by
  intro x hx
  by_cases h1 : x ∈ ts.stateVars
  · exact .inl h1
  by_cases h2 : x ∈ ts.nextVars
  · exact .inr (.inl h2)
  · rcases hr.wf.trans x hx with h | h | h
    · exact absurd h h1
    · exact absurd h h2
    · exact .inr (.inr ⟨hr.wf.auxCur x h, h1, fun hi => hr.sep.it x h hi hx, fun e => hr.idx.2 (e ▸ h)⟩)

theorem start_inv (hr : TrlReady ts) : TrlInv ts (trlStart ts) := by
  refine ⟨⟨fun r hm => ?_, fun i r h hi => ?_, fun j l h => ?_, fun j l h => ?_, fun j l h => ?_⟩, rfl, fun b h => ?_, fun m h => ?_⟩
  · simp only [trlStart, List.mem_singleton] at hm
    exact hm ▸ trans_relVars hr
  · simp only [trlStart, List.getElem?_singleton] at h
    split at h
    · omega
    · cases h
  all_goals simp [trlStart] at h

/-- Pushing a level. -/
theorem push_inv {st : TrlState} (h : TrlInv ts st) (hq : ¬ SatList (trlStack ts st.levels ++ [sendFla ts.query st.levels.length])) :
    TrlInv ts { st with levels := st.levels ++ [st.nextLevel] } := by
  have hget : ∀ (j : Nat) (l : TrlLevel), (st.levels ++ [st.nextLevel])[j]? = some l →
      st.levels[j]? = some l ∨ (j = st.levels.length ∧ l = st.nextLevel) := by
    intro j l hj
    by_cases hlt : j < st.levels.length
    · rw [List.getElem?_append_left hlt] at hj
      exact .inl hj
    · rw [List.getElem?_append_right (by omega), List.getElem?_singleton] at hj
      split at hj
      · exact .inr ⟨by omega, (Option.some.inj hj).symm⟩
      · cases hj
  refine ⟨⟨h.levels.vars, h.levels.trans, fun j l hj => ?_, fun j l hj => ?_, fun j l hj c hc => ?_⟩, h.first, fun b hb => ?_, fun m hm => ?_⟩
  · rcases hget j l hj with hj | ⟨-, rfl⟩
    · exact h.levels.pre j l hj
    · exact List.prefix_refl _
  · rcases hget j l hj with hj | ⟨-, rfl⟩
    · exact h.levels.first j l hj
    · exact h.first
  · rcases hget j l hj with hj | ⟨rfl, rfl⟩
    · obtain ⟨s, i, r, h1, h2, ⟨l', h3, h3'⟩, h4, h5⟩ := h.levels.clauses j l hj c hc
      refine ⟨s, i, r, h1, h2, ⟨l', ?_, h3'⟩, h4, h5⟩
      rw [List.getElem?_append_left (List.getElem?_eq_some_iff.1 h3).1]
      exact h3
    · simp only [TrlState.nextLevel, List.mem_map, List.mem_filter, decide_eq_true_eq] at hc
      obtain ⟨b, ⟨hb, hd⟩, rfl⟩ := hc
      obtain ⟨s, i, r, h1, h2, h3, h4, h5, h6⟩ := h.blocks b hb
      rw [hd] at h1 h5 h6
      refine ⟨s, i, r, h1, h2, ?_, h5, h6⟩
      rcases Nat.lt_or_eq_of_le h1 with hlt | rfl
      · obtain ⟨l', hl'⟩ : ∃ l', st.levels[s]? = some l' := ⟨_, List.getElem?_eq_getElem hlt⟩
        refine ⟨l', by rw [List.getElem?_append_left hlt]; exact hl', ?_⟩
        have hi := h4 s l' (Nat.le_refl s) hl'
        have := rels_index h.levels hl' (List.getElem?_eq_getElem hi)
        rw [h3] at this
        rw [this]
        exact List.getElem?_eq_getElem hi
      · exact ⟨st.nextLevel, by simp, h3⟩
  · obtain ⟨s, i, r, h1, h2, h3, h4, h5, h6⟩ := h.blocks b hb
    refine ⟨s, i, r, h1, h2, h3, fun j l hs hj => ?_, h5, h6⟩
    rcases hget j l hj with hj | ⟨-, rfl⟩
    · exact h4 j l hs hj
    · exact (List.getElem?_eq_some_iff.1 h3).1
  · simp only [List.length_append, List.length_singleton] at hm
    rcases Nat.lt_succ_iff_lt_or_eq.1 hm with hm | rfl
    · rw [List.take_append_of_le_length (Nat.le_of_lt hm)]
      exact h.query m hm
    · rw [List.take_left]
      exact hq

/-- Going back to the beginning of a loop, with a new blocking clause. -/
theorem back_inv {st : TrlState} (h : TrlInv ts st) {R : List (Fla LIA)} (hR : st.relations <+: R) (hv : ∀ r ∈ R, RelVars ts r)
    (ht : ∀ (i : Nat) r, R[i]? = some r → 1 ≤ i → ∀ a b c, RelSem ts r a b → RelSem ts r b c → RelSem ts r a c)
    {b : Fla LIA} {s d c : Nat} (hs : s ≤ d) {i : Nat} {r : Fla LIA} (hi : 1 ≤ i) (hri : R[i]? = some r)
    (hbv : ∀ x ∈ b.vars, (∃ y ∈ ts.stateVars, ∃ m : Nat, m ≤ d + 1 ∧ x = shift m y) ∨ x = shift s trlIdx)
    (hb : ∀ ρ : Valuation LIA, ¬ b.holds ρ → RelSem ts r (ts.stateAt ρ s) (ts.stateAt ρ ((d + 1 : Nat) : Int)) ∧
      (s = d → (ρ (shift s trlIdx) : Int) ≤ 0)) :
    TrlInv ts ⟨R, st.blocks ++ [(b, d)], st.levels.take s, c⟩ := by
  have hget : ∀ (j : Nat) (l : TrlLevel), (st.levels.take s)[j]? = some l → j < s ∧ st.levels[j]? = some l := by
    intro j l hj
    rw [List.getElem?_take] at hj
    split at hj
    · exact ⟨by assumption, hj⟩
    · cases hj
  have hidx : ∀ (i : Nat) r, st.relations[i]? = some r → R[i]? = some r := by
    intro i r h
    obtain ⟨e, he⟩ := hR
    rw [← he]
    exact List.getElem?_append_left (List.getElem?_eq_some_iff.1 h).1 ▸ h
  refine ⟨⟨hv, ht, fun j l hj => (h.levels.pre j l (hget j l hj).2).trans hR, fun j l hj => h.levels.first j l (hget j l hj).2,
    fun j l hj c hc => ?_⟩, hidx _ _ h.first, fun b' hb' => ?_, fun m hm => ?_⟩
  · obtain ⟨s', i', r', h1, h2, ⟨l', h3, h3'⟩, h4, h5⟩ := h.levels.clauses j l (hget j l hj).2 c hc
    refine ⟨s', i', r', h1, h2, ⟨l', ?_, h3'⟩, h4, h5⟩
    have := (hget j l hj).1
    simp only
    rw [List.getElem?_take, if_pos (by omega)]
    exact h3
  · simp only [List.mem_append, List.mem_singleton] at hb'
    rcases hb' with hb' | rfl
    · obtain ⟨s', i', r', h1, h2, h3, h4, h5, h6⟩ := h.blocks b' hb'
      exact ⟨s', i', r', h1, h2, hidx _ _ h3, fun j l hs' hj => h4 j l hs' (hget j l hj).2, h5, h6⟩
    · refine ⟨s, i, r, hs, hi, hri, fun j l hs' hj => ?_, hbv, hb⟩
      have := (hget j l hj).1
      omega
  · simp only [List.length_take] at hm
    simp only
    rw [List.take_take, Nat.min_eq_left (by omega)]
    exact h.query m (by omega)

/-! ### The trace -/

/-- The relation that the model uses in step `i`. -/
theorem step_relation {st : TrlState} (h : LevelsOk ts st.relations st.levels) {ρ : Valuation LIA} (hρ : AllHold ρ (trlStack ts st.levels))
    {i : Nat} (hi : i < st.levels.length) :
    ∃ (v : Nat) (r : Fla LIA), st.relations[v]? = some r ∧ (ρ (shift i trlIdx) : Int) = v ∧ (sendFla r i).holds ρ := by
  obtain ⟨l, hl⟩ : ∃ l, st.levels[i]? = some l := ⟨_, List.getElem?_eq_getElem hi⟩
  obtain ⟨v, r, h1, h2, h3⟩ := (allHold_level.1 ((allHold_stack.1 hρ).2 i l hl)).2.1
  exact ⟨v, r, rels_index h hl h1, h3, h2⟩

theorem trace_spec (hr : TrlReady ts) {V : TrlEnv} (hM : MbpInt V.M) {st : TrlState} (h : LevelsOk ts st.relations st.levels)
    {ρ : Valuation LIA} (hρ : AllHold ρ (trlStack ts st.levels)) {k : Nat} (hk : k + 1 = st.levels.length) {tr : List (Fla LIA)}
    (ht : trlTrace V ts st.relations ρ k = some tr) :
    tr.length = k + 1 ∧ ∀ (i : Nat) t, tr[i]? = some t → t.holds ρ ∧ ∀ x ∈ t.vars, ∃ y ∈ ts.stateVars ++ ts.nextVars, x = shift i y := by
  obtain ⟨h1, h2⟩ := mapM_get ht
  rw [List.length_range] at h1
  refine ⟨h1, fun i t hit => ?_⟩
  have hi : i < k + 1 := by
    have := (List.getElem?_eq_some_iff.1 hit).1
    omega
  obtain ⟨t', ht', he⟩ := h2 i i (by rw [List.getElem?_range hi])
  rw [hit] at ht'
  obtain rfl := Option.some.inj ht'
  simp only [Option.bind_eq_bind, Option.bind_eq_some_iff] at he
  obtain ⟨r, hr1, hr2⟩ := he
  obtain ⟨v, r', g1, g2, g3⟩ := step_relation h hρ (i := i) (by omega)
  rw [g2, Int.toNat_natCast, g1] at hr1
  obtain rfl := Option.some.inj hr1
  have hv := h.vars r' (List.mem_of_getElem? g1)
  obtain ⟨p1, p2, -⟩ := projectTo_spec hM (tmp_notin (sendFla_versioned (relVars_versioned hr hv) _)) g3 hr2
  exact ⟨p1, fun x hx => by
    obtain ⟨y, hy, e⟩ := List.mem_map.1 (p2 x hx).2
    exact ⟨y, hy, e.symm⟩⟩

/-- The formula of the loop holds in the model. -/
theorem loop_formula (hw : ts.WF) {ρ : Valuation LIA} {tr : List (Fla LIA)}
    (h : ∀ (i : Nat) t, tr[i]? = some t → t.holds ρ ∧ ∀ x ∈ t.vars, ∃ y ∈ ts.stateVars ++ ts.nextVars, x = shift i y) (a b : Nat) :
    (Fla.conj ((tr.drop a).take b)).holds ρ ∧ ∀ x ∈ (Fla.conj ((tr.drop a).take b)).vars, x.versioned := by
  have hmem : ∀ t ∈ (tr.drop a).take b, ∃ i : Nat, tr[i]? = some t := fun t ht => List.mem_iff_getElem?.1 (List.mem_of_mem_drop (List.mem_of_mem_take ht))
  refine ⟨Fla.holds_conj.2 fun t ht => ?_, fun x hx => ?_⟩
  · obtain ⟨i, hi⟩ := hmem t ht
    exact (h i t hi).1
  · obtain ⟨t, ht, hx⟩ := Fla.mem_vars_conj.1 hx
    obtain ⟨i, hi⟩ := hmem t ht
    obtain ⟨y, hy, rfl⟩ := (h i t hi).2 x hx
    refine versioned_shift ?_ _
    rcases List.mem_append.1 hy with hy | hy
    · exact versioned_of_isCurrent (hw.stateCur y hy)
    · obtain ⟨z, hz, rfl⟩ := List.mem_map.1 hy
      exact versioned_shift (versioned_of_isCurrent (hw.stateCur z hz)) 1

/-! ### One iteration -/

theorem learn_inv (hr : TrlReady ts) {V : TrlEnv} (hS : V.S.Correct) (hM : MbpInt V.M) {st st' : TrlState} (h : TrlInv ts st)
    {ρ : Valuation LIA} {tr : List (Fla LIA)} {l : TrlLoop} (hlen : 0 < l.len)
    (htr : ∀ (i : Nat) t, tr[i]? = some t → t.holds ρ ∧ ∀ x ∈ t.vars, ∃ y ∈ ts.stateVars ++ ts.nextVars, x = shift i y)
    (hl : trlLearn V ts st tr ρ l = some st') : TrlInv ts st' := by
  simp only [trlLearn, Option.bind_eq_bind, Option.bind_eq_some_iff, Prod.exists] at hl
  obtain ⟨r, R, c, hsel, hl⟩ := hl
  split at hl
  · rename_i hsat
    simp only [Option.bind_eq_some_iff, Option.pure_def, Option.some.injEq] at hl
    obtain ⟨b, hb, rfl⟩ := hl
    have hrho : r.holds (V.S.model (List.map (fun p => Fla.eq (.var p.1) (.const (p.2 : Int))) (loopValuation ts l ρ) ++ [r])) :=
      hS.sat _ hsat r (by simp)
    have hfacts : st.relations <+: R ∧ (∀ r ∈ R, RelVars ts r) ∧
        (∀ (i : Nat) r, R[i]? = some r → 1 ≤ i → ∀ a b c, RelSem ts r a b → RelSem ts r b c → RelSem ts r a c) ∧
        ∃ i, 1 ≤ i ∧ R[i]? = some r := by
      split at hsel
      · rename_i r' hfind
        simp only [Option.some.injEq, Prod.mk.injEq] at hsel
        obtain ⟨rfl, rfl, rfl⟩ := hsel
        refine ⟨List.prefix_refl _, h.levels.vars, h.levels.trans, ?_⟩
        obtain ⟨i, hi⟩ := List.mem_iff_getElem?.1 (List.mem_of_find?_eq_some hfind)
        rw [List.getElem?_drop] at hi
        exact ⟨1 + i, by omega, hi⟩
      · simp only [Option.bind_eq_some_iff, Option.pure_def, Option.some.injEq, Prod.mk.injEq] at hsel
        obtain ⟨p, hp, rfl, rfl, rfl⟩ := hsel
        obtain ⟨hf1, hf2⟩ := loop_formula hr.wf htr l.start l.len
        obtain ⟨F, hF, rfl⟩ := transitiveProjection_spec hr hM hf2 hf1 hp
        have h0 := (List.getElem?_eq_some_iff.1 h.first).1
        refine ⟨List.prefix_append _ _, fun r' hr' => ?_, fun i r' hi hi1 => ?_, st.relations.length, h0, by simp⟩
        · rcases List.mem_append.1 hr' with hr' | hr'
          · exact h.levels.vars r' hr'
          · rw [List.mem_singleton.1 hr']
            exact learned_vars hr hlen hF
        · by_cases hlt : i < st.relations.length
          · rw [List.getElem?_append_left hlt] at hi
            exact h.levels.trans i r' hi hi1
          · rw [List.getElem?_append_right (by omega), List.getElem?_singleton] at hi
            split at hi
            · obtain rfl := Option.some.inj hi
              exact fun a b d => learned_trans hr hlen hF
            · cases hi
    obtain ⟨h1, h2, h3, i, hi, hri⟩ := hfacts
    obtain ⟨c1, c2, -⟩ := blockingClause_spec hr hM hlen (h2 r (List.mem_of_getElem? hri)) hrho hb
    have hd : l.start + l.len - 1 + 1 = l.start + l.len := by omega
    refine back_inv h h1 h2 h3 (by omega) hi hri (fun x hx => ?_) (fun σ hσ => ?_)
    · rw [hd]; exact c1 x hx
    · rw [hd]
      exact ⟨(c2 σ hσ).1, fun e => (c2 σ hσ).2 (by omega)⟩
  · cases hl

theorem step_inv (hr : TrlReady ts) {V : TrlEnv} (hS : V.S.Correct) (hM : MbpInt V.M) {st st' : TrlState} (h : TrlInv ts st) {fin : Bool}
    (hs : trlStep V ts st = .done (some (st', fin))) : TrlInv ts st' ∧ (fin = true → Exhausted ts st'.levels) := by
  unfold trlStep at hs
  simp only at hs
  split at hs
  · rename_i hq
    have hp := push_inv h (hS.unsat _ hq)
    split at hs
    · rename_i hu
      simp only [Outcome.done.injEq, Option.some.injEq, Prod.mk.injEq] at hs
      obtain ⟨rfl, rfl⟩ := hs
      exact ⟨hp, fun _ => ⟨hp.query, hS.unsat _ hu⟩⟩
    · rename_i hsat
      simp only [Outcome.andThen_done, Outcome.orThrow_done] at hs
      obtain ⟨tr, htr, hs⟩ := hs
      obtain ⟨-, hall⟩ := trace_spec hr hM hp.levels (hS.sat _ hsat) (k := st.levels.length) (by simp) htr
      split at hs
      · rename_i l hl
        simp only [Outcome.andThen_done, Outcome.orThrow_done, Outcome.done.injEq, Option.some.injEq, Prod.mk.injEq] at hs
        obtain ⟨st'', hle, rfl, rfl⟩ := hs
        exact ⟨learn_inv hr hS hM hp (getLoop_some hl).1 hall hle, fun e => by cases e⟩
      · simp only [Outcome.done.injEq, Option.some.injEq, Prod.mk.injEq] at hs
        obtain ⟨rfl, rfl⟩ := hs
        exact ⟨hp, fun e => by cases e⟩
    · cases hs
  · cases hs

theorem search_inv (hr : TrlReady ts) {V : TrlEnv} (hS : V.S.Correct) (hM : MbpInt V.M) (fuel : Nat) {st st' : TrlState} (h : TrlInv ts st)
    (hs : trlSearch V ts fuel st = .done (some st')) : TrlInv ts st' ∧ Exhausted ts st'.levels := by
  induction fuel generalizing st with
  | zero => cases hs
  | succ fuel ih =>
    unfold trlSearch at hs
    simp only [Outcome.andThen_done] at hs
    obtain ⟨o, ho, hs⟩ := hs
    match o, ho, hs with
    | none, _, hs => cases hs
    | some (st2, true), ho, hs =>
      simp only [Outcome.done.injEq, Option.some.injEq] at hs
      subst hs
      obtain ⟨h1, h2⟩ := step_inv hr hS hM h ho
      exact ⟨h1, h2 rfl⟩
    | some (st2, false), ho, hs => exact ih (step_inv hr hS hM h ho).1 hs

end Golem
