import Verif.Model.Engines.TRL
import Verif.Lemmas.TransitionSystem
import Verif.Lemmas.MBPPoly
import Verif.Props.MBP
import Verif.Props.NormalForms

/-! Lemmas for C66: why an exhausted search means that the system is safe. -/

namespace Golem

/-- What a relation formula means: pairs of states (the other variables are existential). -/
def RelSem (ts : TS LIA) (r : Fla LIA) (s t : TS.State LIA) : Prop :=
  ∃ ρ : Valuation LIA, r.holds ρ ∧ ts.stateVars.map ρ = s ∧ ts.nextVars.map ρ = t

/-- The variables of a relation: the current state, the next state, and others of its own. -/
def RelVars (ts : TS LIA) (r : Fla LIA) : Prop := ∀ x ∈ r.vars, x ∈ ts.stateVars ∨ x ∈ ts.nextVars ∨
  (x.isCurrent ∧ x ∉ ts.stateVars ∧ x ∉ ts.init.vars ∧ x ≠ trlIdx)

/-- A blocking clause of level `j` is false only if a learned relation of an earlier level (or of the same) leads from the state before
that level to the state after level `j`; and if the two levels are the same, only if the step is not a learned one. -/
def ClauseOk (ts : TS LIA) (ls : List TrlLevel) (j : Nat) (c : Fla LIA) : Prop :=
  ∃ s i r, s ≤ j ∧ 1 ≤ i ∧ (∃ l : TrlLevel, ls[s]? = some l ∧ l.rels[i]? = some r) ∧
    (∀ x ∈ c.vars, (∃ y ∈ ts.stateVars, ∃ m : Nat, m ≤ j + 1 ∧ x = shift m y) ∨ x = shift s trlIdx) ∧
    ∀ ρ : Valuation LIA, ¬ c.holds ρ → RelSem ts r (ts.stateAt ρ s) (ts.stateAt ρ ((j + 1 : Nat) : Int)) ∧
      (s = j → (ρ (shift s trlIdx) : Int) ≤ 0)

structure LevelsOk (ts : TS LIA) (R : List (Fla LIA)) (ls : List TrlLevel) : Prop where
  vars : ∀ r ∈ R, RelVars ts r
  trans : ∀ (i : Nat) r, R[i]? = some r → 1 ≤ i → ∀ a b c, RelSem ts r a b → RelSem ts r b c → RelSem ts r a c
  pre : ∀ (j : Nat) (l : TrlLevel), ls[j]? = some l → l.rels <+: R
  first : ∀ (j : Nat) (l : TrlLevel), ls[j]? = some l → l.rels[0]? = some ts.trans
  clauses : ∀ (j : Nat) (l : TrlLevel), ls[j]? = some l → ∀ c ∈ l.clauses, ClauseOk ts ls j c

/-- The system is well formed and does not use the names that the engine makes up. -/
structure TrlReady (ts : TS LIA) : Prop where
  wf : ts.WF
  sep : ts.AuxSep
  idx : trlIdx ∉ ts.stateVars ∧ trlIdx ∉ ts.auxVars
  cnt : ∀ c, trlCounter c ∉ ts.stateVars ∧ trlCounter c ∉ ts.auxVars

variable {ts : TS LIA}

theorem idx_isCurrent : trlIdx.isCurrent := rfl

/-! ### Changing a valuation after the first `m` levels -/

/-- The variables that the first `m` levels may mention. -/
def OldVar (ts : TS LIA) (m : Nat) (x : Var) : Prop :=
  (x.cur ∈ ts.stateVars ∧ x.time ≤ m) ∨ (x.cur ∉ ts.stateVars ∧ (x.time < m ∨ x ∈ ts.init.vars))

open Classical in
/-- A step with valuation `τ` of its relation `g` after `m` steps, with index `v`. -/
noncomputable def stepVal (ts : TS LIA) (ρ : Valuation LIA) (m : Nat) (g : Fla LIA) (τ : Valuation LIA) (v : Int) : Valuation LIA := fun x =>
  if x.cur ∈ ts.stateVars then (if x.time = m + 1 then τ (shift 1 x.cur) else ρ x)
  else if x = shift m trlIdx then v
  else if x.time = m ∧ x.cur ∈ g.vars ∧ x ∉ ts.init.vars then τ x.cur
  else ρ x

theorem stepVal_old (hr : TrlReady ts) {ρ : Valuation LIA} {m : Nat} {g : Fla LIA} {τ : Valuation LIA} {v : Int} {x : Var} (hx : OldVar ts m x) :
    stepVal ts ρ m g τ v x = ρ x := by
  unfold stepVal
  rcases hx with ⟨h1, h2⟩ | ⟨h1, h2⟩
  · rw [if_pos h1, if_neg (by omega)]
  · rw [if_neg h1]
    have hne : x ≠ shift m trlIdx := by
      rintro rfl
      rcases h2 with h | h
      · rw [Var.time_shift idx_isCurrent] at h; omega
      · rcases hr.wf.init _ h with h' | h'
        · have := hr.wf.stateCur _ h'
          have e := Var.cur_shift idx_isCurrent m
          rw [Var.cur_of_isCurrent this] at e
          rw [e] at h'; exact hr.idx.1 h'
        · have := hr.wf.auxCur _ h'
          have e := Var.cur_shift idx_isCurrent m
          rw [Var.cur_of_isCurrent this] at e
          rw [e] at h'; exact hr.idx.2 h'
    rw [if_neg hne, if_neg]
    rintro ⟨a, -, b⟩
    rcases h2 with h | h
    · omega
    · exact b h

theorem stepVal_holds (hr : TrlReady ts) {ρ : Valuation LIA} {m : Nat} {g : Fla LIA} {τ : Valuation LIA} {v : Int} {f : Fla LIA}
    (h : ∀ x ∈ f.vars, OldVar ts m x) : f.holds (stepVal ts ρ m g τ v) ↔ f.holds ρ :=
  Fla.holds_congr fun x hx => stepVal_old hr (h x hx)

theorem oldVar_state (hw : ts.WF) {y : Var} (hy : y ∈ ts.stateVars) {i m : Nat} (h : i ≤ m) : OldVar ts m (shift i y) := by
  have hc := hw.stateCur y hy
  exact .inl ⟨by rw [Var.cur_shift hc]; exact hy, by rw [Var.time_shift hc]; exact h⟩

theorem oldVar_idx (hr : TrlReady ts) {i m : Nat} (h : i < m) : OldVar ts m (shift i trlIdx) :=
  .inr ⟨by rw [Var.cur_shift idx_isCurrent]; exact hr.idx.1, .inl (by rw [Var.time_shift idx_isCurrent]; exact h)⟩

theorem stepVal_state (hr : TrlReady ts) {ρ : Valuation LIA} {m : Nat} {g : Fla LIA} {τ : Valuation LIA} {v : Int} {i : Nat} (h : i ≤ m) :
    ts.stateAt (stepVal ts ρ m g τ v) i = ts.stateAt ρ i :=
  List.map_congr_left fun _ hy => stepVal_old hr (oldVar_state hr.wf hy h)

theorem stepVal_next (hr : TrlReady ts) {ρ : Valuation LIA} {m : Nat} {g : Fla LIA} {τ : Valuation LIA} {v : Int} :
    ts.stateAt (stepVal ts ρ m g τ v) ((m + 1 : Nat) : Int) = ts.nextVars.map τ := by
  unfold TS.nextVars TS.stateAt
  rw [List.map_map]
  refine List.map_congr_left fun y hy => ?_
  have hc := hr.wf.stateCur y hy
  simp only [stepVal, Var.cur_shift hc, hy, Var.time_shift hc, if_true, Function.comp]

theorem stepVal_idx (hr : TrlReady ts) {ρ : Valuation LIA} {m : Nat} {g : Fla LIA} {τ : Valuation LIA} {v : Int} :
    stepVal ts ρ m g τ v (shift m trlIdx) = v := by
  unfold stepVal
  rw [if_neg (by rw [Var.cur_shift idx_isCurrent]; exact hr.idx.1), if_pos rfl]

theorem stepVal_rel (hr : TrlReady ts) {ρ : Valuation LIA} {m : Nat} {g : Fla LIA} (hg : RelVars ts g) {τ : Valuation LIA} {v : Int}
    (h : g.holds τ) (hs : ts.stateVars.map τ = ts.stateAt ρ m) : (sendFla g m).holds (stepVal ts ρ m g τ v) := by
  rw [sendFla_holds]
  refine (Fla.holds_congr fun x hx => ?_).1 h
  rcases hg x hx with hm | hm | ⟨hc, hn, hi, hne⟩
  · have h1 : stepVal ts ρ m g τ v (shift m x) = ρ (shift m x) := stepVal_old hr (oldVar_state hr.wf hm (Nat.le_refl m))
    rw [h1]
    exact List.map_inj_left.1 hs x hm
  · simp only [TS.nextVars, List.mem_map] at hm
    obtain ⟨y, hy, rfl⟩ := hm
    have hc := hr.wf.stateCur y hy
    rw [shift_shift, show (1 : Int) + m = ((m + 1 : Nat) : Int) by omega]
    simp only [stepVal, Var.cur_shift hc, hy, Var.time_shift hc, if_true]
  · have h1 : shift m x ≠ shift m trlIdx := fun e => hne (shift_inj e)
    have h2 : shift m x ∉ ts.init.vars := by
      intro h
      have hcur : (shift (m : Int) x).isCurrent := by
        rcases hr.wf.init _ h with h' | h'
        · exact hr.wf.stateCur _ h'
        · exact hr.wf.auxCur _ h'
      have e := Var.cur_shift hc m
      rw [Var.cur_of_isCurrent hcur] at e
      rw [e] at h; exact hi h
    simp only [stepVal, Var.cur_shift hc, hn, if_false, if_neg h1, Var.time_shift hc, hx, h2, not_false_eq_true, and_self, if_true]

/-! ### The assertion stack -/

theorem allHold_stack {ls : List TrlLevel} {ρ : Valuation LIA} : AllHold ρ (trlStack ts ls) ↔
    ts.init.holds ρ ∧ ∀ (j : Nat) l, ls[j]? = some l → AllHold ρ (l.asserted j) := by
  unfold trlStack AllHold
  simp only [List.mem_cons, List.mem_flatten, List.mem_map, forall_eq_or_imp]
  refine and_congr Iff.rfl ⟨fun h j l hl f hf => ?_, fun h f hf => ?_⟩
  · exact h f ⟨_, ⟨(l, j), List.mem_zipIdx_iff_getElem?.2 (by simpa using hl), rfl⟩, hf⟩
  · obtain ⟨fs, ⟨p, hp, rfl⟩, hf⟩ := hf
    exact h p.2 p.1 (by simpa using List.mem_zipIdx_iff_getElem?.1 hp) f hf

/-- The assertions of a level, spelled out. -/
theorem allHold_level {l : TrlLevel} {k : Nat} {ρ : Valuation LIA} : AllHold ρ (l.asserted k) ↔
    (k = 0 ∨ (ρ (shift k trlIdx) : Int) = 0 ∨ ρ (shift k trlIdx) ≠ ρ (shift ((k : Int) - 1) trlIdx)) ∧
    (∃ (i : Nat) (r : Fla LIA), l.rels[i]? = some r ∧ (sendFla r k).holds ρ ∧ (ρ (shift k trlIdx) : Int) = i) ∧
    ∀ c ∈ l.clauses, c.holds ρ := by
  unfold TrlLevel.asserted AllHold
  simp only [List.mem_append, List.mem_singleton]
  constructor
  · intro h
    refine ⟨?_, ?_, fun c hc => h c (.inr hc)⟩
    · by_cases hk : k = 0
      · exact .inl hk
      · have := h _ (.inl (.inl (by rw [if_neg hk]; exact List.mem_singleton.2 rfl)))
        simpa [Fla.holds, Tm.eval, hk] using this
    · have := h _ (.inl (.inr rfl))
      rw [Fla.holds_disj] at this
      obtain ⟨f, hf, hh⟩ := this
      obtain ⟨p, hp, rfl⟩ := List.mem_map.1 hf
      exact ⟨p.2, p.1, by simpa using List.mem_zipIdx_iff_getElem?.1 hp, hh.1, hh.2⟩
  · rintro ⟨h1, ⟨i, r, hi, hh, he⟩, h3⟩ f hf
    rcases hf with (hf | hf) | hf
    · by_cases hk : k = 0
      · rw [if_pos hk] at hf; cases hf
      · rw [if_neg hk, List.mem_singleton] at hf
        subst hf
        simpa [Fla.holds, Tm.eval, hk] using h1
    · subst hf
      rw [Fla.holds_disj]
      exact ⟨_, List.mem_map.2 ⟨(r, i), List.mem_zipIdx_iff_getElem?.2 (by simpa using hi), rfl⟩, hh, he⟩
    · exact h3 f hf

/-! ### The argument -/

section
variable {R : List (Fla LIA)} {ls : List TrlLevel}

/-- The first `m` levels hold. -/
def Upto (ts : TS LIA) (ls : List TrlLevel) (m : Nat) (ρ : Valuation LIA) : Prop :=
  ts.init.holds ρ ∧ ∀ j < m, ∀ l, ls[j]? = some l → AllHold ρ (l.asserted j)

theorem Upto.mono {m n : Nat} {ρ : Valuation LIA} (h : Upto ts ls m ρ) (hn : n ≤ m) : Upto ts ls n ρ :=
  ⟨h.1, fun j hj => h.2 j (Nat.lt_of_lt_of_le hj hn)⟩

theorem upto_stack {m : Nat} {ρ : Valuation LIA} (h : Upto ts ls m ρ) : AllHold ρ (trlStack ts (ls.take m)) := by
  refine allHold_stack.2 ⟨h.1, fun j l hl => ?_⟩
  rw [List.getElem?_take] at hl
  split at hl
  · rename_i hj; exact h.2 j hj l hl
  · cases hl

theorem asserted_old (hr : TrlReady ts) (hl : LevelsOk ts R ls) {j m : Nat} (hj : j < m) {l : TrlLevel} (h : ls[j]? = some l) :
    ∀ f ∈ l.asserted j, ∀ x ∈ f.vars, OldVar ts m x := by
  intro f hf x hx
  unfold TrlLevel.asserted at hf
  simp only [List.mem_append, List.mem_singleton] at hf
  rcases hf with (hf | hf) | hf
  · split at hf
    · cases hf
    · rename_i hk
      rw [List.mem_singleton] at hf
      subst hf
      have e : (j : Int) - 1 = ((j - 1 : Nat) : Int) := by omega
      simp only [Fla.vars, Tm.vars, e, List.mem_append, List.mem_singleton, List.not_mem_nil, or_false] at hx
      rcases hx with rfl | rfl | rfl
      · exact oldVar_idx hr hj
      · exact oldVar_idx hr hj
      · exact oldVar_idx hr (by omega)
  · subst hf
    obtain ⟨f, hf, hx⟩ := Fla.mem_vars_disj.1 hx
    obtain ⟨⟨r, i⟩, hp, rfl⟩ := List.mem_map.1 hf
    have hr' : r ∈ R := (hl.pre j l h).subset (List.fst_mem_of_mem_zipIdx hp)
    simp only [Fla.vars, Tm.vars, List.mem_append, List.mem_singleton, List.not_mem_nil, or_false] at hx
    rcases hx with hx | rfl
    · obtain ⟨y, hy, rfl⟩ := mem_vars_sendFla.1 hx
      rcases hl.vars r hr' y hy with hy' | hy' | ⟨hc, hn, -, -⟩
      · exact oldVar_state hr.wf hy' (by omega)
      · simp only [TS.nextVars, List.mem_map] at hy'
        obtain ⟨z, hz, rfl⟩ := hy'
        rw [shift_shift, show (1 : Int) + j = ((j + 1 : Nat) : Int) by omega]
        exact oldVar_state hr.wf hz (by omega)
      · exact .inr ⟨by rw [Var.cur_shift hc]; exact hn, .inl (by rw [Var.time_shift hc]; exact hj)⟩
    · exact oldVar_idx hr hj
  · obtain ⟨s, i, r, hs, -, -, hv, -⟩ := hl.clauses j l h f hf
    rcases hv x hx with ⟨y, hy, i, hi, rfl⟩ | rfl
    · exact oldVar_state hr.wf hy (by omega)
    · exact oldVar_idx hr (by omega)

theorem init_old (hr : TrlReady ts) (m : Nat) : ∀ x ∈ ts.init.vars, OldVar ts m x := by
  intro x hx
  by_cases hs : x ∈ ts.stateVars
  · have := oldVar_state hr.wf hs (Nat.zero_le m)
    simpa using this
  · refine .inr ⟨?_, .inr hx⟩
    have hc : x.isCurrent := by
      rcases hr.wf.init _ hx with h | h
      · exact absurd h hs
      · exact hr.wf.auxCur _ h
    rw [Var.cur_of_isCurrent hc]; exact hs

theorem Upto.stepVal (hr : TrlReady ts) (hl : LevelsOk ts R ls) {m : Nat} {ρ : Valuation LIA} (h : Upto ts ls m ρ) (g : Fla LIA)
    (τ : Valuation LIA) (v : Int) : Upto ts ls m (stepVal ts ρ m g τ v) :=
  ⟨(stepVal_holds hr (init_old hr m)).2 h.1, fun j hj l hjl f hf =>
    (stepVal_holds hr (asserted_old hr hl hj hjl f hf)).2 (h.2 j hj l hjl f hf)⟩

/-- The number of transition steps among the first `m`. -/
def zeros (ρ : Valuation LIA) (m : Nat) : Nat := (List.range m).countP fun (j : Nat) => decide ((ρ (shift j trlIdx) : Int) = 0)

theorem zeros_congr {ρ ρ' : Valuation LIA} {m : Nat} (h : ∀ j < m, ρ (shift j trlIdx) = ρ' (shift j trlIdx)) : zeros ρ m = zeros ρ' m := by
  unfold zeros
  refine List.countP_congr fun j hj => ?_
  rw [h j (List.mem_range.1 hj)]

theorem zeros_succ (ρ : Valuation LIA) (m : Nat) :
    zeros ρ (m + 1) = zeros ρ m + if (ρ (shift m trlIdx) : Int) = 0 then 1 else 0 := by
  unfold zeros
  rw [List.range_succ, List.countP_append, List.countP_singleton]
  simp

theorem zeros_le {ρ : Valuation LIA} {m n : Nat} (h : m ≤ n) : zeros ρ m ≤ zeros ρ n := by
  unfold zeros
  exact List.Sublist.countP_le (List.range_sublist.2 h)

theorem zeros_stepVal (hr : TrlReady ts) {ρ : Valuation LIA} {m n : Nat} (h : n ≤ m) {g : Fla LIA} {τ : Valuation LIA} {v : Int} :
    zeros (stepVal ts ρ m g τ v) n = zeros ρ n :=
  zeros_congr fun _ hj => stepVal_old hr (oldVar_idx hr (Nat.lt_of_lt_of_le hj h))

/-- Steps by a relation that all levels know under the same number. -/
def Common (ts : TS LIA) (ls : List TrlLevel) (s t : TS.State LIA) : Prop :=
  ∃ (i : Nat) (r : Fla LIA), (∀ (j : Nat) (l : TrlLevel), ls[j]? = some l → l.rels[i]? = some r) ∧ RelSem ts r s t

/-- The system with these steps. -/
def commonSys (ts : TS LIA) (ls : List TrlLevel) : STS (TS.State LIA) := ⟨ts.sem.Init, Common ts ls, ts.sem.Bad⟩

/-- A run: the first `m` levels hold, and `n` steps (after a learned step, if `sub`) lead from there to the state `u`. -/
def TrlRun (ts : TS LIA) (ls : List TrlLevel) (m n : Nat) (ρ : Valuation LIA) (sub : Bool) (u : TS.State LIA) : Prop :=
  Upto ts ls m ρ ∧ m ≤ ls.length ∧
    if sub then ∃ (l : TrlLevel) (i : Nat) (r : Fla LIA) (t : TS.State LIA), ls[m]? = some l ∧ 1 ≤ i ∧ l.rels[i]? = some r ∧
      RelSem ts r (ts.stateAt ρ m) t ∧ (commonSys ts ls).Path n t u
    else (commonSys ts ls).Path n (ts.stateAt ρ m) u

theorem rels_index (hl : LevelsOk ts R ls) {j : Nat} {l : TrlLevel} (h : ls[j]? = some l) {i : Nat} {r : Fla LIA} (hi : l.rels[i]? = some r) :
    R[i]? = some r := by
  obtain ⟨e, he⟩ := hl.pre j l h
  rw [← he]
  exact List.getElem?_append_left (List.getElem?_eq_some_iff.1 hi).1 ▸ hi

/-- A state at the end of a run that satisfies all its levels. -/
def Reached (ts : TS LIA) (ls : List TrlLevel) (m : Nat) (u : TS.State LIA) : Prop :=
  ∃ ρ : Valuation LIA, Upto ts ls m ρ ∧ ts.stateAt ρ m = u

/-- If the last level cannot be reached, every run can be replaced by one that satisfies all its levels, and that is not longer. -/
theorem run_short (hr : TrlReady ts) (hl : LevelsOk ts R ls) (hx : ¬ SatList (trlStack ts ls)) (m n : Nat) (ρ : Valuation LIA) (sub : Bool)
    {u : TS.State LIA} (hrun : TrlRun ts ls m n ρ sub u) :
    ∃ m', m' < ls.length ∧ m' ≤ m + n + (if sub then 1 else 0) ∧ Reached ts ls m' u := by
  obtain ⟨hup, hm, h⟩ := hrun
  cases sub with
  | true =>
    simp only [if_true] at h ⊢
    obtain ⟨l, i, r, t, hlm, hi, hri, ⟨τ, hτ, hs, ht⟩, hp⟩ := h
    have hmlt : m < ls.length := (List.getElem?_eq_some_iff.1 hlm).1
    let ρ' := stepVal ts ρ m r τ i
    have hrR : r ∈ R := (hl.pre m l hlm).subset (List.mem_of_getElem? hri)
    have hrel : (sendFla r m).holds ρ' := stepVal_rel hr (hl.vars r hrR) hτ hs
    have hidx : (ρ' (shift m trlIdx) : Int) = i := stepVal_idx hr
    have hnext : ts.stateAt ρ' ((m + 1 : Nat) : Int) = t := (stepVal_next hr).trans ht
    have hup' : Upto ts ls m ρ' := hup.stepVal hr hl r τ i
    by_cases hcl : ∀ c ∈ l.clauses, c.holds ρ'
    · by_cases htr : m = 0 ∨ ρ' (shift m trlIdx) ≠ ρ' (shift ((m : Int) - 1) trlIdx)
      · have hz : zeros (stepVal ts ρ m r τ i) (m + 1) = zeros ρ m := by
          rw [zeros_succ, zeros_stepVal hr (Nat.le_refl m), if_neg (by rw [show stepVal ts ρ m r τ (i : Int) (shift m trlIdx) = (i : Int) from hidx]; exact fun h => absurd (Int.ofNat_inj (n := 0).1 h) (by omega))]
          rfl
        obtain ⟨m', h1, h2, h3⟩ := run_short hr hl hx (m + 1) n ρ' false (u := u) ⟨⟨hup'.1, fun j hj l' hjl => by
          by_cases hjm : j = m
          · subst hjm
            rw [hlm] at hjl; cases hjl
            exact allHold_level.2 ⟨htr.elim .inl (fun h => .inr (.inr h)), ⟨i, r, hri, hrel, hidx⟩, hcl⟩
          · exact hup'.2 j (by omega) l' hjl⟩, by omega, by
          simp only [Bool.false_eq_true, if_false]
          rw [hnext]; exact hp⟩
        exact ⟨m', h1, by simp only [Bool.false_eq_true, if_false] at h2; omega, h3⟩
      · simp only [not_or, not_not] at htr
        obtain ⟨hm0, heq⟩ := htr
        obtain ⟨m', rfl⟩ : ∃ m', m = m' + 1 := ⟨m - 1, by omega⟩
        have e : ((m' + 1 : Nat) : Int) - 1 = (m' : Int) := by omega
        rw [e] at heq
        have hlm' : ∃ l', ls[m']? = some l' := ⟨ls[m'], List.getElem?_eq_getElem (by omega)⟩
        obtain ⟨l', hlm'⟩ := hlm'
        obtain ⟨-, ⟨i', r', hri', hrel', hidx'⟩, -⟩ := allHold_level.1 (hup'.2 m' (by omega) l' hlm')
        have hii : i' = i := by
          have h1 : (ρ' (shift (m' : Int) trlIdx) : Int) = i := by rw [← heq]; exact hidx
          exact Int.ofNat_inj.1 (hidx'.symm.trans h1)
        subst hii
        have hrr : r' = r := by
          have h1 := rels_index hl hlm hri
          have h2 := rels_index hl hlm' hri'
          rw [h1] at h2; exact (Option.some.inj h2).symm
        subst hrr
        have hfirst : RelSem ts r' (ts.stateAt ρ' m') (ts.stateAt ρ ((m' + 1 : Nat) : Int)) := by
          rw [sendFla_holds] at hrel'
          refine ⟨_, hrel', rfl, ?_⟩
          rw [TS.nextVars_map, ← stepVal_state hr (Nat.le_refl (m' + 1)) (g := r') (τ := τ) (v := i')]
          show ts.stateAt (fun x => ρ' (shift m' x)) 1 = ts.stateAt ρ' _
          rw [TS.stateAt_shift]
          congr 1
        obtain ⟨m2, h1, h2, h3⟩ := run_short hr hl hx m' n ρ' true (u := u) ⟨hup'.mono (by omega), by omega, by
          simp only [if_true]
          exact ⟨l', i', r', t, hlm', hi, hri', hl.trans i' r' (rels_index hl hlm' hri') hi _ _ _ hfirst ⟨τ, hτ, hs, ht⟩, hp⟩⟩
        exact ⟨m2, h1, by simp only [if_true] at h2; omega, h3⟩
    · have hcl' : ∃ c ∈ l.clauses, ¬ c.holds ρ' := by
        apply Classical.byContradiction
        intro h
        exact hcl fun c hc => Classical.byContradiction fun hn => h ⟨c, hc, hn⟩
      obtain ⟨c, hc, hn⟩ := hcl'
      obtain ⟨s, i2, r2, hsj, hi2, ⟨l2, hl2, hr2⟩, -, hviol⟩ := hl.clauses m l hlm c hc
      obtain ⟨hv1, hv2⟩ := hviol ρ' hn
      have hsm : s ≠ m := by
        intro e
        have := hv2 e
        rw [e, hidx] at this
        exact absurd (Int.ofNat_le (n := 0).1 this) (by omega)
      rw [hnext] at hv1
      obtain ⟨m2, h1, h2, h3⟩ := run_short hr hl hx s n ρ' true (u := u) ⟨hup'.mono hsj, by omega, by
        simp only [if_true]
        exact ⟨l2, i2, r2, t, hl2, hi2, hr2, hv1, hp⟩⟩
      exact ⟨m2, h1, by simp only [if_true] at h2; omega, h3⟩
  | false =>
    simp only [Bool.false_eq_true, if_false] at h ⊢
    by_cases hmk : m = ls.length
    · subst hmk
      have := upto_stack hup
      rw [List.take_length] at this
      exact absurd ⟨ρ, this⟩ hx
    · have hmlt : m < ls.length := by omega
      cases n with
      | zero =>
        have hu : u = ts.stateAt ρ m := by cases h; rfl
        exact ⟨m, hmlt, by omega, ρ, hup, hu.symm⟩
      | succ n =>
        obtain ⟨t, ⟨i, r, hri, τ, hτ, hs, ht⟩, hp'⟩ := h.uncons
        have hlm : ∃ l, ls[m]? = some l := ⟨ls[m], List.getElem?_eq_getElem hmlt⟩
        obtain ⟨l, hlm⟩ := hlm
        by_cases hi0 : i = 0
        · subst hi0
          have h0 := hri m l hlm
          have hrT : r = ts.trans := by
            have := hl.first m l hlm
            rw [h0] at this; exact Option.some.inj this
          subst hrT
          let ρ' := stepVal ts ρ m ts.trans τ 0
          have hrR : ts.trans ∈ R := (hl.pre m l hlm).subset (List.mem_of_getElem? h0)
          have hrel : (sendFla ts.trans m).holds ρ' := stepVal_rel hr (hl.vars _ hrR) hτ hs
          have hidx : (ρ' (shift m trlIdx) : Int) = 0 := stepVal_idx hr
          have hnext : ts.stateAt ρ' ((m + 1 : Nat) : Int) = t := (stepVal_next hr).trans ht
          have hup' : Upto ts ls m ρ' := hup.stepVal hr hl ts.trans τ 0
          by_cases hcl : ∀ c ∈ l.clauses, c.holds ρ'
          · have hz : zeros (Golem.stepVal ts ρ m ts.trans τ 0) (m + 1) = zeros ρ m + 1 := by
              rw [zeros_succ, zeros_stepVal hr (Nat.le_refl m), if_pos hidx]
            obtain ⟨m', h1, h2, h3⟩ := run_short hr hl hx (m + 1) n ρ' false (u := u) ⟨⟨hup'.1, fun j hj l' hjl => by
              by_cases hjm : j = m
              · subst hjm
                rw [hlm] at hjl; cases hjl
                exact allHold_level.2 ⟨.inr (.inl hidx), ⟨0, _, h0, hrel, hidx⟩, hcl⟩
              · exact hup'.2 j (by omega) l' hjl⟩, by omega, by
              simp only [Bool.false_eq_true, if_false]
              rw [hnext]; exact hp'⟩
            exact ⟨m', h1, by simp only [Bool.false_eq_true, if_false] at h2; omega, h3⟩
          · have hcl' : ∃ c ∈ l.clauses, ¬ c.holds ρ' := by
              apply Classical.byContradiction
              intro h
              exact hcl fun c hc => Classical.byContradiction fun hn => h ⟨c, hc, hn⟩
            obtain ⟨c, hc, hn⟩ := hcl'
            obtain ⟨s, i2, r2, hsj, hi2, ⟨l2, hl2, hr2⟩, -, hviol⟩ := hl.clauses m l hlm c hc
            obtain ⟨hv1, -⟩ := hviol ρ' hn
            have hz : zeros (Golem.stepVal ts ρ m ts.trans τ 0) s ≤ zeros ρ m := by
              rw [zeros_stepVal hr hsj]; exact zeros_le hsj
            rw [hnext] at hv1
            obtain ⟨m2, h1, h2, h3⟩ := run_short hr hl hx s n ρ' true (u := u) ⟨hup'.mono hsj, by omega, by
              simp only [if_true]
              exact ⟨l2, i2, r2, t, hl2, hi2, hr2, hv1, hp'⟩⟩
            exact ⟨m2, h1, by simp only [if_true] at h2; omega, h3⟩
        · obtain ⟨m2, h1, h2, h3⟩ := run_short hr hl hx m n ρ true (u := u) ⟨hup, hm, by
            simp only [if_true]
            exact ⟨l, i, r, t, hlm, by omega, hri m l hlm, ⟨τ, hτ, hs, ht⟩, hp'⟩⟩
          exact ⟨m2, h1, by simp only [if_true] at h2; omega, h3⟩
termination_by (m + n + (if sub then 1 else 0), zeros ρ m + n, n, if sub then 1 else 0)
decreasing_by
  all_goals
    simp only [Prod.lex_def, *, if_true, if_false, Bool.false_eq_true, true_and]
    omega

/-- What exhausts the search. -/
structure Exhausted (ts : TS LIA) (ls : List TrlLevel) : Prop where
  query : ∀ m < ls.length, ¬ SatList (trlStack ts (ls.take m) ++ [sendFla ts.query m])
  last : ¬ SatList (trlStack ts ls)

/-- Every state reached in steps known to all levels is reached on the levels. -/
theorem exhausted_reach (hr : TrlReady ts) (hl : LevelsOk ts R ls) (hx : Exhausted ts ls) {n : Nat} {u : TS.State LIA}
    (h : (commonSys ts ls).ReachIn n u) : ∃ m, m < ls.length ∧ m ≤ n ∧ Reached ts ls m u := by
  obtain ⟨s, ⟨ρ, hρ, hs⟩, hp⟩ := h
  obtain ⟨m, h1, h2, h3⟩ := run_short hr hl hx.last 0 n ρ false (u := u) ⟨⟨hρ, fun j hj => absurd hj (by omega)⟩, by omega, by
    simp only [Bool.false_eq_true, if_false]
    have : ts.stateAt ρ ((0 : Nat) : Int) = s := by rw [← hs]; exact TS.stateAt_zero ts ρ
    rw [this]; exact hp⟩
  exact ⟨m, h1, by simp only [Bool.false_eq_true, if_false] at h2; omega, h3⟩

/-- No state reached on the levels is bad. -/
theorem reached_not_bad (hr : TrlReady ts) (hl : LevelsOk ts R ls) (hx : Exhausted ts ls) {m : Nat} (hm : m < ls.length) {u : TS.State LIA}
    (h : Reached ts ls m u) : ¬ ts.sem.Bad u := by
  obtain ⟨ρ, hup, rfl⟩ := h
  rintro ⟨τ, hτ, hs⟩
  have hqv : RelVars ts ts.query := by
    intro x hx
    by_cases h : x ∈ ts.stateVars
    · exact .inl h
    · have ha := (hr.wf.query x hx).resolve_left h
      exact .inr (.inr ⟨hr.wf.auxCur x ha, h, fun hi => hr.sep.iq x ha hi hx, fun e => hr.idx.2 (e ▸ ha)⟩)
  have hup' : Upto ts ls m (Golem.stepVal ts ρ m ts.query τ 0) := hup.stepVal hr hl ts.query τ 0
  refine hx.query m hm ⟨Golem.stepVal ts ρ m ts.query τ 0, fun f hf => ?_⟩
  rcases List.mem_append.1 hf with hf | hf
  · exact upto_stack hup' f hf
  · rw [List.mem_singleton] at hf
    subst hf
    exact stepVal_rel hr hqv hτ hs

theorem common_trans (hl : LevelsOk ts R ls) {n : Nat} {s t : TS.State LIA} (h : ts.sem.Path n s t) : (commonSys ts ls).Path n s t := by
  induction h with
  | refl => exact .refl _
  | snoc _ hs ih => exact .snoc ih ⟨0, ts.trans, fun j l hj => hl.first j l hj, hs⟩

/-- **C66** An exhausted search means that the system is safe. -/
theorem trl_exhausted_safe (hr : TrlReady ts) (hl : LevelsOk ts R ls) (hx : Exhausted ts ls) : ts.sem.Safe := by
  rintro ⟨k, u, ⟨s, hi, hp⟩, hb⟩
  obtain ⟨m, hm, -, hre⟩ := exhausted_reach hr hl hx ⟨s, hi, common_trans hl hp⟩
  exact reached_not_bad hr hl hx hm hre hb

end
end Golem
