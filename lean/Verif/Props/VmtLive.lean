import Verif.Props.Vmt

/-! **C74** The answer for a VMT file with a liveness property: what it says, and where it differs from the meaning of the
property. -/

namespace Golem
namespace Vmt
open SExpr (SExp)

section
variable {T : Theory} {M : VSem T}

/-- Only declared variables count. -/
theorem defValues_congr {isVar : Str → Bool} {ρ ρ' : Str → T.Val} (h : ∀ s, isVar s = true → ρ s = ρ' s) (ds : List Def) :
    ∀ env, defValues M isVar ρ ds env = defValues M isVar ρ' ds env := by
  induction ds with
  | nil => intro env; rfl
  | cons d ds ih =>
    intro env
    have e : (fun s => if isVar s then some (ρ s) else env.lookup s) = fun s => if isVar s then some (ρ' s) else env.lookup s := by
      funext s
      by_cases hs : isVar s = true
      · simp only [hs, if_true, h s hs]
      · rw [if_neg hs, if_neg hs]
    simp only [defValues, e, ih]

theorem holds_congr {vs : List Str} {ds : List Def} {r : Role} {ρ ρ' : Str → T.Val} (h : ∀ s ∈ vs, ρ s = ρ' s) :
    Holds M vs ds r ρ ↔ Holds M vs ds r ρ' := by
  unfold Holds
  rw [defValues_congr (fun s hs => h s (by simpa using hs)) ds]

/-- The state variables of a problem are declared. -/
theorem statePairs_declared {vs : List Str} {ds : List Def}
    (h : ∀ d ∈ ds, ∀ y, d.role = .next y → y ∈ vs ∧ ∃ x, d.term = .atom x ∧ x ∈ vs) :
    ∀ p ∈ statePairs ds, p.1 ∈ vs ∧ p.2 ∈ vs := by
  induction ds with
  | nil => intro p hp; simp [statePairs] at hp
  | cons d ds ih =>
    intro p hp
    have ih := ih (fun d' hd' => h d' (List.mem_cons_of_mem _ hd'))
    rw [statePairs] at hp
    split at hp
    · rename_i x y hx hy
      rcases List.mem_cons.1 hp with rfl | hp
      · obtain ⟨h1, x', h2, h3⟩ := h d (by simp) y hy
        rw [hx] at h2
        cases h2
        exact ⟨h3, h1⟩
      · exact ih p hp
    · exact ih p hp

open Classical in
/-- The number of steps before step `k` in which the property is true. -/
noncomputable def hits (M : VSem T) (vs : List Str) (ds : List Def) (r : Role) (ρ : Nat → Str → T.Val) : Nat → Nat
  | 0 => 0
  | k + 1 => if Holds M vs ds r (ρ k) then hits M vs ds r ρ k + 1 else hits M vs ds r ρ k

section
variable {vs : List Str} {ds : List Def} {r : Role} {ρ : Nat → Str → T.Val}

theorem visits_hits (hr : InfRun M vs ds ρ) (k : Nat) :
    Visits M vs ds r ((statePairs ds).map fun p => ρ 0 p.1) ((statePairs ds).map fun p => ρ k p.1) (hits M vs ds r ρ k) := by
  induction k with
  | zero => exact .init hr.init
  | succ k ih =>
    rw [hr.linked k, hits]
    by_cases h : Holds M vs ds r (ρ k)
    · rw [if_pos h]; exact .hit ih (hr.trans k) h
    · rw [if_neg h]; exact .miss ih (hr.trans k) h

theorem hits_le_succ (k : Nat) : hits M vs ds r ρ k ≤ hits M vs ds r ρ (k + 1) := by
  rw [hits]
  by_cases h : Holds M vs ds r (ρ k)
  · rw [if_pos h]; omega
  · rw [if_neg h]

theorem hits_mono {j k : Nat} (h : j ≤ k) : hits M vs ds r ρ j ≤ hits M vs ds r ρ k := by
  induction k with
  | zero => rw [Nat.le_zero.1 h]
  | succ k ih =>
    by_cases hk : j = k + 1
    · rw [hk]
    · exact Nat.le_trans (ih (by omega)) (hits_le_succ k)

/-- A property that is true infinitely often is true in as many steps as one likes. -/
theorem hits_unbounded (h : ∀ N, ∃ k, N ≤ k ∧ Holds M vs ds r (ρ k)) (m : Nat) : ∃ k, m ≤ hits M vs ds r ρ k := by
  induction m with
  | zero => exact ⟨0, Nat.zero_le _⟩
  | succ m ih =>
    obtain ⟨k, hk⟩ := ih
    obtain ⟨j, hj, hh⟩ := h k
    refine ⟨j + 1, ?_⟩
    rw [hits, if_pos hh]
    have := hits_mono (M := M) (vs := vs) (ds := ds) (r := r) (ρ := ρ) hj
    omega

/-- Bounded visits mean that the property is false from some point on. -/
theorem eventuallyNever_of_bound (h : ∀ s0, ∃ c, ∀ s n, Visits M vs ds r s0 s n → n ≤ c) : EventuallyNever M vs ds r := by
  intro ρ hr
  obtain ⟨c, hc⟩ := h ((statePairs ds).map fun p => ρ 0 p.1)
  refine Classical.byContradiction fun hn => ?_
  have : ∀ N, ∃ k, N ≤ k ∧ Holds M vs ds r (ρ k) := by
    intro N
    refine Classical.byContradiction fun h2 => hn ⟨N, fun k hk hh => h2 ⟨k, hk, hh⟩⟩
  obtain ⟨k, hk⟩ := hits_unbounded this (c + 1)
  have := hc _ _ (visits_hits (r := r) hr k)
  omega

end
end

/-! ### The clauses with the counter -/

section
variable {M : VSem ctrTheory} {L : Bool → VLogic ctrTheory}

/-- The counter starts above zero and above the absolute values of the integer state variables. -/
def Above (vars : List (Str × Str)) (ds : List Def) (s0 : List Int) (c : Int) : Prop :=
  0 < c ∧ ∀ q ∈ (statePairs ds).zip s0, vars.lookup q.1.1 = some "Int".toList → q.2 < c ∧ -q.2 < c

theorem counterClauses_some {m : VModel ctrTheory} {cs : List (Clause ctrTheory)} (h : counterClauses m = some cs) :
    ∃ ti tt tp next, m.init = some ti ∧ m.trans = some tt ∧ m.live.head?.map Prod.snd = some tp ∧
      nextTerms (m.stateVars ++ [varOf ctr0]) = some next ∧
      cs = [⟨(.p 0, m.stateVars ++ [varOf ctr0]), .and (.atom ti) (Fla.conj ((lowerBounds m.ints m.stateVars).map fun b =>
          Fla.atom (.ap2 IntSym.gt (varOf ctr0) b))), []⟩,
        ⟨(.p 0, next), .and (.atom tt) (.and (.not (.atom tp)) (.eq (varOf ctr1) (varOf ctr0))),
          [(.p 0, m.stateVars ++ [varOf ctr0])]⟩,
        ⟨(.p 0, next), .and (.atom tt) (.and (.atom tp) (.eq (varOf ctr1) (.ap2 IntSym.minus (varOf ctr0) (intConst 1)))),
          [(.p 0, m.stateVars ++ [varOf ctr0])]⟩,
        ⟨(.fls, []), .atom (.ap2 IntSym.lt (varOf ctr0) (intConst 0)), [(.p 0, m.stateVars ++ [varOf ctr0])]⟩] := by
  unfold counterClauses at h
  simp only [Option.bind_eq_bind, Option.pure_def] at h
  obtain ⟨⟨ti, tt, tp⟩, h1, h⟩ := Option.bind_eq_some_iff.1 h
  obtain ⟨next, h2, h⟩ := Option.bind_eq_some_iff.1 h
  cases h
  unfold asLiveness at h1
  simp only [Option.bind_eq_bind, Option.pure_def] at h1
  obtain ⟨ti', a1, h1⟩ := Option.bind_eq_some_iff.1 h1
  obtain ⟨tt', a2, h1⟩ := Option.bind_eq_some_iff.1 h1
  obtain ⟨nx, a3, h1⟩ := Option.bind_eq_some_iff.1 h1
  obtain ⟨tp', a4, h1⟩ := Option.bind_eq_some_iff.1 h1
  split at h1
  · cases h1
    exact ⟨ti, tt, tp, next, a1, a2, a4, h2, rfl⟩
  · cases h1

theorem varName_varOf (x : Str) : varName (varOf x : Tm ctrTheory) = some x := by
  simp [varName, varOf]

theorem nextName_ctr : nextName ctr0 = some ctr1 := by decide +kernel

theorem nextTerms_names (l : List (Str × Str)) (h : ∀ p ∈ l, nextName p.1 = some p.2) :
    nextTerms (l.map fun p => (varOf p.1 : Tm ctrTheory)) = some (l.map fun p => varOf p.2) := by
  induction l with
  | nil => rfl
  | cons p l ih =>
    simp only [List.map_cons, nextTerms, varName_varOf, Option.bind_some, h p (by simp), ih fun q hq => h q (by simp [hq])]

theorem nextTerms_append (l l' : List (Tm ctrTheory)) : nextTerms (l ++ l') =
    (nextTerms l).bind fun a => (nextTerms l').bind fun b => some (a ++ b) := by
  induction l with
  | nil => cases h : nextTerms l' <;> simp [nextTerms, h]
  | cons t l ih =>
    simp only [List.cons_append, nextTerms, ih]
    cases varName t with
    | none => rfl
    | some x =>
      simp only [Option.bind_some]
      cases nextName x with
      | none => rfl
      | some y =>
        simp only [Option.bind_some]
        cases nextTerms l with
        | none => rfl
        | some a => cases nextTerms l' <;> rfl

theorem intNames_mem (vars : List (Str × Str)) (x : Str) (hx : x ∈ vars.map Prod.fst) :
    x ∈ intNames (vars.map fun v => ⟨v.1, v.2⟩) ↔ vars.lookup x = some "Int".toList := by
  have key : ∀ l : List (Str × Str), ((l.map fun v => (⟨v.1, v.2⟩ : VarDecl)).find? fun v => v.name == x).any
      (fun v => v.type == "Int".toList) = decide (l.lookup x = some "Int".toList) := by
    intro l
    induction l with
    | nil => rfl
    | cons v l ih =>
      obtain ⟨a, b⟩ := v
      simp only [List.map_cons, List.find?_cons, List.lookup_cons]
      by_cases h : a = x
      · subst h
        simp only [beq_self_eq_true, Option.any_some, Option.some.injEq]
        exact Bool.beq_eq_decide_eq ..
      · have h1 : (a == x) = false := by simpa using h
        have h2 : (x == a) = false := by simpa using fun h' => h h'.symm
        simp only [h1, h2]
        exact ih
  unfold intNames
  rw [List.mem_filter, key, List.map_map]
  simp only [decide_eq_true_eq]
  exact ⟨fun h => h.2, fun h => ⟨by simpa using hx, h⟩⟩

theorem mem_zip_map {α β : Type} (l : List α) (f : α → β) (q : α × β) : q ∈ l.zip (l.map f) ↔ q.1 ∈ l ∧ q.2 = f q.1 := by
  induction l with
  | nil => simp
  | cons a l ih =>
    obtain ⟨x, y⟩ := q
    simp only [List.map_cons, List.zip_cons_cons, List.mem_cons, Prod.mk.injEq] at ih ⊢
    rw [ih]
    grind

theorem truth_ite (p : Prop) [Decidable p] : ctrTheory.truth (if p then (1 : Int) else 0) = true ↔ p := by
  by_cases h : p <;> simp [h]

/-- The initial bound on the counter. -/
theorem start_holds {vars : List (Str × Str)} {ds : List Def} {m : VModel ctrTheory} (hm : ModelOf M vars ds m)
    (hdec : ∀ p ∈ statePairs ds, p.1 ∈ vars.map Prod.fst ∧ p.2 ∈ vars.map Prod.fst) (ρ : Valuation ctrTheory) :
    (Fla.conj ((lowerBounds m.ints m.stateVars).map fun b => Fla.atom (.ap2 IntSym.gt (varOf ctr0) b))).holds ρ ↔
      Above vars ds ((statePairs ds).map fun p => onNames ρ p.1) (onNames ρ ctr0) := by
  have hgt : ∀ b : Tm ctrTheory, (Fla.atom (.ap2 IntSym.gt (varOf ctr0) b)).holds ρ ↔ (b.eval ρ : Int) < onNames ρ ctr0 := by
    intro b
    exact truth_ite _
  rw [holds_conj_iff]
  show (∀ x ∈ _, _) ↔ _
  have : (∀ x ∈ (lowerBounds m.ints m.stateVars).map fun b => Fla.atom (.ap2 IntSym.gt (varOf ctr0) b), x.holds ρ) ↔
      ∀ b ∈ lowerBounds m.ints m.stateVars, (b.eval ρ : Int) < onNames ρ ctr0 := by
    constructor
    · intro h b hb; exact (hgt b).1 (h _ (List.mem_map.2 ⟨b, hb, rfl⟩))
    · intro h x hx
      obtain ⟨b, hb, rfl⟩ := List.mem_map.1 hx
      exact (hgt b).2 (h b hb)
  rw [this]
  unfold lowerBounds Above
  rw [hm.state, hm.ints]
  constructor
  · intro h
    refine ⟨h _ (List.mem_cons_self ..), fun q hq hi => ?_⟩
    obtain ⟨hq1, hq2⟩ := (mem_zip_map _ _ _).1 hq
    have hin := (intNames_mem vars q.1.1 (hdec _ hq1).1).2 hi
    rw [hq2]
    have hmem : ∀ b, b = (varOf q.1.1 : Tm ctrTheory) ∨ b = .ap1 IntSym.neg (varOf q.1.1) →
        b ∈ (((statePairs ds).map fun p => (varOf p.1 : Tm ctrTheory)).flatMap fun t => match varName t with
          | some x => if (intNames (vars.map fun v => ⟨v.1, v.2⟩)).contains x then [t, .ap1 IntSym.neg t] else []
          | none => []) := by
      intro b hb
      refine List.mem_flatMap.2 ⟨_, List.mem_map.2 ⟨q.1, hq1, rfl⟩, ?_⟩
      simp only [varName_varOf]
      rw [if_pos (by simpa using hin)]
      simpa using hb
    exact ⟨h _ (List.mem_cons_of_mem _ (hmem _ (.inl rfl))), h _ (List.mem_cons_of_mem _ (hmem _ (.inr rfl)))⟩
  · rintro ⟨h0, h⟩ b hb
    rcases List.mem_cons.1 hb with rfl | hb
    · exact h0
    · obtain ⟨t, ht, hb⟩ := List.mem_flatMap.1 hb
      obtain ⟨p, hp, rfl⟩ := List.mem_map.1 ht
      simp only [varName_varOf] at hb
      split at hb
      · rename_i hc
        have hi := (intNames_mem vars p.1 (hdec _ hp).1).1 (by simpa using hc)
        have := h (p, onNames ρ p.1) ((mem_zip_map _ _ _).2 ⟨hp, rfl⟩) hi
        simp only [List.mem_cons, List.not_mem_nil, or_false] at hb
        rcases hb with rfl | rfl
        · exact this.1
        · exact this.2
      · simp at hb

/-- The hypotheses on names: the next-state variable of `name##n` is `name##n+1`, and the counter is a new name. -/
structure Named (vars : List (Str × Str)) (ds : List Def) : Prop where
  next : ∀ p ∈ statePairs ds, nextName p.1 = some p.2
  fresh : ctr0 ∉ vars.map Prod.fst ∧ ctr1 ∉ vars.map Prod.fst

/-- A valuation with values for the counter. -/
def withCtr (ρ : Str → Int) (a b : Int) : Str → Int := fun s => if s = ctr0 then a else if s = ctr1 then b else ρ s

theorem withCtr_eq {vs : List Str} (h : ctr0 ∉ vs ∧ ctr1 ∉ vs) (ρ : Str → Int) (a b : Int) : ∀ s ∈ vs, withCtr ρ a b s = ρ s := by
  intro s hs
  have h1 : s ≠ ctr0 := fun e => h.1 (e ▸ hs)
  have h2 : s ≠ ctr1 := fun e => h.2 (e ▸ hs)
  simp [withCtr, h1, h2]

theorem ctr_ne : ctr1 ≠ ctr0 := by decide

theorem eval_append {ds : List Def} (f : Str × Str → Str) (x : Str) (ρ : Valuation ctrTheory) :
    (((statePairs ds).map fun p => (varOf (f p) : Tm ctrTheory)) ++ [varOf x]).map (Tm.eval ρ) =
      ((statePairs ds).map fun p => onNames ρ (f p)) ++ [onNames ρ x] := by
  rw [List.map_append, eval_state f ρ]; rfl

theorem append_singleton_inj {α : Type} {a b : List α} {x y : α} (h : a ++ [x] = b ++ [y]) : a = b ∧ x = y := by
  have := List.append_inj' h rfl
  exact ⟨this.1, by simpa using this.2⟩

theorem sub_succ (c : Int) (n : Nat) : c - (n : Int) - 1 = c - ((n + 1 : Nat) : Int) := by omega
theorem lt_of_neg {c : Int} {n : Nat} (h : c - (n : Int) < 0) : c < (n : Int) := by omega
theorem neg_of_lt {c : Int} {n : Nat} (h : c < (n : Int)) : c - (n : Int) < 0 := by omega

theorem visits_state {vars : List (Str × Str)} {ds : List Def} (hn : Named vars ds) {r : Role} {vs : List Str} {s0 s : List ctrTheory.Val} {n : Nat}
    (hv : Visits M vs ds r s0 s n) : ∃ ρ : Str → Int, s = (statePairs ds).map fun p => ρ p.1 := by
  have key : ∀ ρ : Str → Int, (statePairs ds).map (fun p => ρ p.2) = (statePairs ds).map fun p => (fun x => ρ ((nextName x).getD x)) p.1 :=
    fun ρ => List.map_congr_left fun p hp => by simp [hn.next p hp]
  induction hv with
  | @init ρ _ => exact ⟨ρ, rfl⟩
  | @hit _ _ ρ _ _ _ _ => exact ⟨fun x => ρ ((nextName x).getD x), key ρ⟩
  | @miss _ _ ρ _ _ _ _ => exact ⟨fun x => ρ ((nextName x).getD x), key ρ⟩

/-- `false` is derived from the clauses exactly if a run makes more true steps than the initial value of the counter. -/
theorem counter_derivable {vars : List (Str × Str)} {ds : List Def} {m : VModel ctrTheory} (hm : ModelOf M vars ds m)
    (hdec : ∀ p ∈ statePairs ds, p.1 ∈ vars.map Prod.fst ∧ p.2 ∈ vars.map Prod.fst) (hn : Named vars ds) {i : Str}
    (ho : Once ds (.live i)) (hi : ∀ d ∈ ds, ∀ j, d.role = .live j → Role.live j = .live i)
    {cs : List (Clause ctrTheory)} (h : counterClauses m = some cs) :
    Derivable (clauseRules cs) falseFact ↔ ∃ s0 s, ∃ n : Nat, ∃ c, Visits M (vars.map Prod.fst) ds (.live i) s0 s n ∧ Above vars ds s0 c ∧
      c < (n : Int) := by
  obtain ⟨ti, tt, tp, next, h1, h2, h3, h4, rfl⟩ := counterClauses_some h
  obtain ⟨-, hI⟩ := hm.init ti h1
  obtain ⟨-, hT⟩ := hm.trans tt h2
  obtain ⟨q, hq, rfl⟩ := Option.map_eq_some_iff.1 h3
  obtain ⟨j, -, -, hP, d, hd, hdj⟩ := hm.live q.1 q.2 (List.mem_of_mem_head? hq)
  obtain rfl : j = i := by simpa using hi d hd j hdj
  replace hP := hP ho
  have hnext : next = ((statePairs ds).map fun p => (varOf p.2 : Tm ctrTheory)) ++ [varOf ctr1] := by
    rw [hm.state, nextTerms_append, nextTerms_names _ hn.next] at h4
    simp only [nextTerms, varName_varOf, nextName_ctr, Option.bind_some] at h4
    exact (Option.some.inj h4).symm
  subst hnext
  rw [hm.state]
  rw [hm.state] at h h4
  have hstart := start_holds hm hdec
  rw [hm.state] at hstart
  generalize hcs : ([_, _, _, _] : List (Clause ctrTheory)) = cs
  have m1 : (⟨(.p 0, ((statePairs ds).map fun p => varOf p.1) ++ [varOf ctr0]), .and (.atom ti) (Fla.conj ((lowerBounds m.ints
      ((statePairs ds).map fun p => varOf p.1)).map fun b => Fla.atom (.ap2 IntSym.gt (varOf ctr0) b))), []⟩ : Clause ctrTheory) ∈ cs := by
    rw [← hcs]; exact List.mem_cons_self ..
  have m2 : (⟨(.p 0, ((statePairs ds).map fun p => varOf p.2) ++ [varOf ctr1]), .and (.atom tt) (.and (.not (.atom q.2))
      (.eq (varOf ctr1) (varOf ctr0))), [(.p 0, ((statePairs ds).map fun p => varOf p.1) ++ [varOf ctr0])]⟩ : Clause ctrTheory) ∈ cs := by
    rw [← hcs]; exact List.mem_cons_of_mem _ (List.mem_cons_self ..)
  have m3 : (⟨(.p 0, ((statePairs ds).map fun p => varOf p.2) ++ [varOf ctr1]), .and (.atom tt) (.and (.atom q.2)
      (.eq (varOf ctr1) (.ap2 IntSym.minus (varOf ctr0) (intConst 1)))),
      [(.p 0, ((statePairs ds).map fun p => varOf p.1) ++ [varOf ctr0])]⟩ : Clause ctrTheory) ∈ cs := by
    rw [← hcs]; exact List.mem_cons_of_mem _ (List.mem_cons_of_mem _ (List.mem_cons_self ..))
  have m4 : (⟨(.fls, []), .atom (.ap2 IntSym.lt (varOf ctr0) (intConst 0)),
      [(.p 0, ((statePairs ds).map fun p => varOf p.1) ++ [varOf ctr0])]⟩ : Clause ctrTheory) ∈ cs := by
    rw [← hcs]; exact List.mem_cons_of_mem _ (List.mem_cons_of_mem _ (List.mem_cons_of_mem _ (List.mem_cons_self ..)))
  have fwd : ∀ f, Derivable (clauseRules cs) f →
      (f.1 = .p 0 → ∃ s0 s, ∃ n : Nat, ∃ c, f.2 = s ++ [c - (n : Int)] ∧ Visits M (vars.map Prod.fst) ds (.live j) s0 s n ∧ Above vars ds s0 c) ∧
      (f.1 = .fls → ∃ s0 s, ∃ n : Nat, ∃ c, Visits M (vars.map Prod.fst) ds (.live j) s0 s n ∧ Above vars ds s0 c ∧ c < (n : Int)) := by
    intro f hf
    induction hf with
    | entry => exact ⟨fun h => by simp [trueFact] at h, fun h => by simp [trueFact] at h⟩
    | step r hr hb ih =>
      obtain ⟨c, hc, ρ, hh, rfl⟩ := hr
      subst hcs
      simp only [List.mem_cons, List.not_mem_nil, or_false] at hc
      rcases hc with rfl | rfl | rfl | rfl
      · refine ⟨fun _ => ?_, fun h => by simp [PAtom.ground] at h⟩
        refine ⟨_, _, 0, onNames ρ ctr0, ?_, .init ((hI ρ).2 hh.1), (hstart ρ).1 hh.2⟩
        simp only [PAtom.ground, eval_append Prod.fst]
        simp
      · refine ⟨fun _ => ?_, fun h => by simp [PAtom.ground] at h⟩
        obtain ⟨s0, s, n, c, e, hv, ha⟩ := (ih _ (List.mem_map.2 ⟨_, List.mem_singleton.2 rfl, rfl⟩)).1 rfl
        simp only [PAtom.ground, eval_append Prod.fst] at e
        obtain ⟨rfl, e2⟩ := append_singleton_inj e
        obtain ⟨g1, g2, g3⟩ := hh
        refine ⟨s0, _, n, c, ?_, .miss hv ((hT ρ).2 g1) fun hx => g2 ((hP ρ).1 hx), ha⟩
        simp only [PAtom.ground, eval_append Prod.snd]
        rw [show onNames ρ ctr1 = onNames ρ ctr0 from g3, e2]
      · refine ⟨fun _ => ?_, fun h => by simp [PAtom.ground] at h⟩
        obtain ⟨s0, s, n, c, e, hv, ha⟩ := (ih _ (List.mem_map.2 ⟨_, List.mem_singleton.2 rfl, rfl⟩)).1 rfl
        simp only [PAtom.ground, eval_append Prod.fst] at e
        obtain ⟨rfl, e2⟩ := append_singleton_inj e
        obtain ⟨g1, g2, g3⟩ := hh
        refine ⟨s0, _, n + 1, c, ?_, .hit hv ((hT ρ).2 g1) ((hP ρ).2 g2), ha⟩
        simp only [PAtom.ground, eval_append Prod.snd]
        have g4 : (onNames ρ ctr1 : Int) = (onNames ρ ctr0 : Int) - 1 := g3
        have e3 : (onNames ρ ctr0 : Int) = c - (n : Int) := e2
        have : (onNames ρ ctr1 : Int) = c - ((n + 1 : Nat) : Int) := (g4.trans (congrArg (· - 1) e3)).trans (sub_succ c n)
        rw [this]
      · refine ⟨fun h => by simp [PAtom.ground] at h, fun _ => ?_⟩
        obtain ⟨s0, s, n, c, e, hv, ha⟩ := (ih _ (List.mem_map.2 ⟨_, List.mem_singleton.2 rfl, rfl⟩)).1 rfl
        simp only [PAtom.ground, eval_append Prod.fst] at e
        obtain ⟨rfl, e2⟩ := append_singleton_inj e
        refine ⟨s0, _, n, c, hv, ha, ?_⟩
        have g : (onNames ρ ctr0 : Int) < 0 := (truth_ite _).1 hh
        have e3 : (onNames ρ ctr0 : Int) = c - (n : Int) := e2
        exact lt_of_neg (e3 ▸ g)
  have upd1 : ∀ (ρ : Str → Int) a b, (statePairs ds).map (fun p => ρ p.1) = (statePairs ds).map fun p => withCtr ρ a b p.1 :=
    fun ρ a b => List.map_congr_left fun p hp => (withCtr_eq hn.fresh ρ a b _ (hdec p hp).1).symm
  have upd2 : ∀ (ρ : Str → Int) a b, (statePairs ds).map (fun p => ρ p.2) = (statePairs ds).map fun p => withCtr ρ a b p.2 :=
    fun ρ a b => List.map_congr_left fun p hp => (withCtr_eq hn.fresh ρ a b _ (hdec p hp).2).symm
  have updH : ∀ r (ρ : Str → Int) a b, Holds M (vars.map Prod.fst) ds r (withCtr ρ a b) ↔ Holds M (vars.map Prod.fst) ds r ρ :=
    fun r ρ a b => holds_congr (withCtr_eq hn.fresh ρ a b)
  have bwd : ∀ s0 s n, Visits M (vars.map Prod.fst) ds (.live j) s0 s n → ∀ c, Above vars ds s0 c →
      Derivable (clauseRules cs) (.p 0, s ++ [c - (n : Int)]) := by
    intro s0 s n hv
    induction hv with
    | @init ρ h =>
      intro c ha
      rw [upd1 ρ c c] at ha ⊢
      rw [← updH _ ρ c c, ← onNames_ofNames (T := ctrTheory) (withCtr ρ c c)] at h
      have hc : withCtr ρ c c ctr0 = c := by simp [withCtr]
      have hst := (hstart (ofNames (withCtr ρ c c))).2 (by rw [onNames_ofNames, hc]; exact ha)
      refine Derivable.step ⟨[], (.p 0, _)⟩ ⟨_, m1, ofNames (withCtr ρ c c), ⟨(hI _).1 h, hst⟩, ?_⟩ (by simp)
      simp only [PAtom.ground, eval_append Prod.fst, List.map_nil, onNames_ofNames, hc]
      simp
    | @hit s0 n ρ _ h hp ih =>
      intro c ha
      have ih := ih c ha
      rw [upd1 ρ (c - n) (c - (n + 1 : Nat))] at ih
      rw [upd2 ρ (c - n) (c - (n + 1 : Nat))]
      rw [← updH _ ρ (c - n) (c - (n + 1 : Nat)), ← onNames_ofNames (T := ctrTheory) (withCtr ρ (c - n) (c - (n + 1 : Nat)))] at h hp
      have hc : withCtr ρ (c - n) (c - (n + 1 : Nat)) ctr0 = c - n := by simp [withCtr]
      have hc' : withCtr ρ (c - n) (c - (n + 1 : Nat)) ctr1 = c - (n + 1 : Nat) := by simp [withCtr, ctr_ne]
      refine Derivable.step ⟨[(.p 0, _)], (.p 0, _)⟩
        ⟨_, m3, ofNames (withCtr ρ (c - n) (c - (n + 1 : Nat))),
          ⟨(hT _).1 h, (hP _).1 hp, ?_⟩, ?_⟩ (fun f hf => by rw [List.mem_singleton.1 hf]; exact ih)
      · show (onNames (ofNames (T := ctrTheory) (withCtr ρ (c - n) (c - (n + 1 : Nat)))) ctr1 : Int) = onNames (ofNames (T := ctrTheory) (withCtr ρ (c - n) (c - (n + 1 : Nat)))) ctr0 - 1
        rw [onNames_ofNames, hc, hc']
        exact (sub_succ c n).symm
      · simp only [PAtom.ground, eval_append Prod.fst, eval_append Prod.snd, List.map_cons, List.map_nil, onNames_ofNames, hc, hc']
    | @miss s0 n ρ _ h hp ih =>
      intro c ha
      have ih := ih c ha
      rw [upd1 ρ (c - n) (c - n)] at ih
      rw [upd2 ρ (c - n) (c - n)]
      rw [← updH _ ρ (c - n) (c - n), ← onNames_ofNames (T := ctrTheory) (withCtr ρ (c - n) (c - n))] at h hp
      have hc : withCtr ρ (c - n) (c - n) ctr0 = c - n := by simp [withCtr]
      have hc' : withCtr ρ (c - n) (c - n) ctr1 = c - n := by simp [withCtr, ctr_ne]
      refine Derivable.step ⟨[(.p 0, _)], (.p 0, _)⟩
        ⟨_, m2, ofNames (withCtr ρ (c - n) (c - n)),
          ⟨(hT _).1 h, fun hx => hp ((hP _).2 hx), ?_⟩, ?_⟩ (fun f hf => by rw [List.mem_singleton.1 hf]; exact ih)
      · show (onNames (ofNames (T := ctrTheory) (withCtr ρ (c - n) (c - n))) ctr1 : Int) = onNames (ofNames (T := ctrTheory) (withCtr ρ (c - n) (c - n))) ctr0
        rw [onNames_ofNames, hc, hc']
      · simp only [PAtom.ground, eval_append Prod.fst, eval_append Prod.snd, List.map_cons, List.map_nil, onNames_ofNames, hc, hc']
  refine ⟨fun h => (fwd _ h).2 rfl, ?_⟩
  rintro ⟨s0, s, n, c, hv, ha, hlt⟩
  have hd := bwd s0 s n hv c ha
  have hs := visits_state hn hv
  obtain ⟨ρ, rfl⟩ := hs
  rw [upd1 ρ (c - n) 0] at hd
  have hc : withCtr ρ (c - n) 0 ctr0 = c - n := by simp [withCtr]
  refine Derivable.step ⟨[(.p 0, _)], falseFact⟩
    ⟨_, m4,
      ofNames (withCtr ρ (c - n) 0), ?_, ?_⟩ (fun f hf => by rw [List.mem_singleton.1 hf]; exact hd)
  · refine (truth_ite _).2 ?_
    show (onNames (ofNames (T := ctrTheory) (withCtr ρ (c - n) 0)) ctr0 : Int) < 0
    rw [onNames_ofNames, hc]
    exact neg_of_lt hlt
  · simp only [PAtom.ground, eval_append Prod.fst, List.map_cons, List.map_nil, falseFact, onNames_ofNames, hc]

/-! ### The answer -/

theorem lowerBounds_user {ints : List Str} {l : List (Tm ctrTheory)} (h : ∀ t ∈ l, UserTm t) : ∀ b ∈ lowerBounds ints l, UserTm b := by
  intro b hb x hx
  unfold lowerBounds at hb
  rcases List.mem_cons.1 hb with rfl | hb
  · simp [intConst, Tm.vars] at hx
  · obtain ⟨t, ht, hb⟩ := List.mem_flatMap.1 hb
    split at hb
    · split at hb
      · simp only [List.mem_cons, List.not_mem_nil, or_false] at hb
        rcases hb with rfl | rfl
        · exact h _ ht x hx
        · exact h _ ht x (by simpa [Tm.vars] using hx)
      · simp at hb
    · simp at hb

theorem user_varOf (x : Str) : UserTm (varOf x : Tm ctrTheory) := by
  intro y hy
  simp only [varOf, Tm.vars, List.mem_singleton] at hy
  exact ⟨_, hy⟩

theorem nextTerms_user : ∀ {l l' : List (Tm ctrTheory)}, nextTerms l = some l' → l'.length = l.length ∧ ∀ t ∈ l', UserTm t
  | [], l', h => by cases h; exact ⟨rfl, by simp⟩
  | t :: ts, l', h => by
    simp only [nextTerms] at h
    obtain ⟨x, h1, h⟩ := Option.bind_eq_some_iff.1 h
    obtain ⟨y, h2, h⟩ := Option.bind_eq_some_iff.1 h
    obtain ⟨us, h3, h⟩ := Option.bind_eq_some_iff.1 h
    cases h
    obtain ⟨a, b⟩ := nextTerms_user h3
    refine ⟨by simp [a], fun u hu => ?_⟩
    rcases List.mem_cons.1 hu with rfl | hu
    · exact user_varOf y
    · exact b u hu

theorem counter_legal {vars : List (Str × Str)} {ds : List Def} {m : VModel ctrTheory} (hm : ModelOf M vars ds m)
    {cs : List (Clause ctrTheory)} (h : counterClauses m = some cs) : LegalInput (vmtArity (m.stateVars.length + 1)) cs := by
  obtain ⟨ti, tt, tp, next, h1, h2, h3, h4, rfl⟩ := counterClauses_some h
  obtain ⟨hlen, un⟩ := nextTerms_user h4
  have us : ∀ t ∈ m.stateVars, UserTm t := by rw [hm.state]; exact user_varOfs _ _
  have us' : ∀ t ∈ m.stateVars ++ [varOf ctr0], UserTm t := by
    intro t ht
    rcases List.mem_append.1 ht with ht | ht
    · exact us t ht
    · rw [List.mem_singleton.1 ht]; exact user_varOf _
  have uc0 := user_varOf ctr0
  have uc1 := user_varOf ctr1
  have hb := lowerBounds_user (ints := m.ints) us
  obtain ⟨q, hq, rfl⟩ := Option.map_eq_some_iff.1 h3
  obtain ⟨j, -, ui, -⟩ := hm.live q.1 q.2 (List.mem_of_mem_head? hq)
  have ui1 := (hm.init ti h1).1
  have ui2 := (hm.trans tt h2).1
  have hc : ∀ l : List (Tm ctrTheory), (∀ t ∈ l, UserTm t) → ∀ x ∈ l.flatMap Tm.vars, IsUser x := by
    intro l hl x hx
    obtain ⟨t, ht, hx⟩ := List.mem_flatMap.1 hx
    exact hl t ht x hx
  have e0 : (varOf ctr0 : Tm ctrTheory).vars = [.base (.user (String.ofList ctr0))] := rfl
  refine ⟨⟨rfl, rfl, ?_⟩, ?_, ?_⟩
  · simp [vmtArity, hlen]
  · intro c hcm x hx
    refine IsUser.untagged ?_
    simp only [List.mem_cons, List.not_mem_nil, or_false] at hcm
    rcases hcm with rfl | rfl | rfl | rfl
    · simp only [Clause.vars, Fla.vars, List.flatMap_nil, List.append_nil, List.mem_append] at hx
      rcases hx with (hx | hx) | hx
      · exact ui1 x hx
      · obtain ⟨f, hf, hx⟩ := Fla.mem_vars_conj.1 hx
        obtain ⟨b, hb', rfl⟩ := List.mem_map.1 hf
        simp only [Fla.vars, Tm.vars, List.mem_append] at hx
        rcases hx with hx | hx
        · exact uc0 x hx
        · exact hb b hb' x hx
      · exact hc _ us' x (by simpa using hx)
    · simp only [Clause.vars, Fla.vars, List.flatMap_cons, List.flatMap_nil, List.append_nil, List.mem_append] at hx
      rcases hx with (hx | hx | hx | hx) | hx | hx
      · exact ui2 x hx
      · exact ui x hx
      · exact uc1 x hx
      · exact uc0 x hx
      · exact hc _ un x (by simpa using hx)
      · exact hc _ us' x (by simpa using hx)
    · simp only [Clause.vars, Fla.vars, Tm.vars, intConst, List.flatMap_cons, List.flatMap_nil, List.append_nil, List.mem_append] at hx
      rcases hx with (hx | hx | hx | hx) | hx | hx
      · exact ui2 x hx
      · exact ui x hx
      · exact uc1 x hx
      · exact uc0 x hx
      · exact hc _ un x (by simpa using hx)
      · exact hc _ us' x (by simpa using hx)
    · simp only [Clause.vars, Fla.vars, Tm.vars, intConst, List.flatMap_cons, List.flatMap_nil, List.append_nil, List.nil_append,
        List.mem_append] at hx
      rcases hx with hx | hx
      · exact uc0 x hx
      · exact hc _ us' x (by simpa using hx)
  · intro c hcm
    simp only [List.mem_cons, List.not_mem_nil, or_false] at hcm
    rcases hcm with rfl | rfl | rfl | rfl <;> exact ⟨by simp, by simp⟩

variable {rw : Fla ctrTheory → Fla ctrTheory} {E : ElimExcept ctrTheory} {engine : HEngine ctrTheory}

theorem solveLiveness_cases {m : VModel ctrTheory} {l : VLine} (h : l ∈ (solveLiveness engine m).1) :
    ∃ cs r, counterClauses m = some cs ∧ engine (normalize cs).1.repr (initialGraph cs) = .done r ∧ l = livenessLine r.answer := by
  unfold solveLiveness at h
  split at h
  · simp at h
  · rename_i cs hcs
    split at h
    · rename_i r hr
      exact ⟨cs, r, hcs, hr, by simpa using h⟩
    · simp at h
    · simp at h

theorem runModel_live {T : Theory} {M : VSem T} {L : Bool → VLogic T} {rw : Fla T → Fla T} {E : ElimExcept T} {engine : HEngine T}
    {live : VModel T → List VLine × Outcome Unit} (hL : ∀ k, (L k).Ok M) {file : List SExp} {vars : List (Str × Str)}
    {ds : List Def} {i : Str} (hp : Problem file vars ds (.live i)) {m : VModel T}
    (hm : (resolveAll ⟨[], []⟩ file).bind (build L) = some m) :
    ModelOf M vars ds m ∧ runModel L rw E engine live file = live m := by
  have hM := model_of_problem hL hp hm
  obtain ⟨k, u, hk, hu⟩ := hM.oneLive i (once_mem hp.prop) fun d hd j hj => by simpa using (hp.only d hd).2 j hj
  have hl : m.invar = [] := by
    refine List.eq_nil_iff_forall_not_mem.2 fun q hq => ?_
    obtain ⟨j, -, -, -, d, hd, hj⟩ := hM.invar q.1 q.2 hq
    exact absurd ((hp.only d hd).1 j hj) (by simp)
  refine ⟨hM, ?_⟩
  unfold runModel
  rw [hm]
  simp [hu, hl]

/-- What the printed line says: `valid` is printed only if no run makes more steps in which the property is true than the initial
value of the counter, `unknown` only if some run does. -/
theorem C74_counter (hL : ∀ k, (L k).Ok M) (he : CheckEngine.Right engine) {file : List SExp} {vars : List (Str × Str)}
    {ds : List Def} {i : Str} (hp : Problem file vars ds (.live i)) (hn : Named vars ds) :
    (.valid ∈ (runModel L rw E engine (solveLiveness engine) file).1 →
      ∀ s0 s n c, Visits M (vars.map Prod.fst) ds (.live i) s0 s n → Above vars ds s0 c → (n : Int) ≤ c) ∧
    (.unknown ∈ (runModel L rw E engine (solveLiveness engine) file).1 →
      ∃ s0 s, ∃ n : Nat, ∃ c, Visits M (vars.map Prod.fst) ds (.live i) s0 s n ∧ Above vars ds s0 c ∧ c < (n : Int)) := by
  have key : ∀ a, livenessLine a ∈ (runModel L rw E engine (solveLiveness engine) file).1 →
      (a = .safe → ∀ s0 s n c, Visits M (vars.map Prod.fst) ds (.live i) s0 s n → Above vars ds s0 c → (n : Int) ≤ c) ∧
      (a = .unsafeAns → ∃ s0 s, ∃ n : Nat, ∃ c, Visits M (vars.map Prod.fst) ds (.live i) s0 s n ∧ Above vars ds s0 c ∧ c < (n : Int)) := by
    intro a h
    cases hm : (resolveAll ⟨[], []⟩ file).bind (build L) with
    | none => unfold runModel at h; rw [hm] at h; simp at h
    | some m =>
      obtain ⟨hM, hrun⟩ := runModel_live (rw := rw) (E := E) (engine := engine) (live := solveLiveness engine) hL hp hm
      rw [hrun] at h
      obtain ⟨cs, r, hcs, hr, hl⟩ := solveLiveness_cases h
      have hin := counter_legal hM hcs
      obtain ⟨hR, hF, hI⟩ := C04_initial_graph _ cs hin.arity hin.user hin.shape
      have hns : (initialGraph cs).edges.NoStray := by
        obtain ⟨ti, tt, tp, next, -, -, -, -, hc⟩ := counterClauses_some hcs
        refine initial_noStray (k := 0) ⟨_, by rw [hc]; exact List.mem_cons_self .., rfl, rfl⟩ ?_
        rw [hc]; simp
      have hA := he _ _ r hR hF hI hns hr
      have hgr := C04_input_to_graph _ cs hin.arity hin.user falseFact
      have hd := counter_derivable hM (statePairs_declared hp.declared) hn hp.prop (fun d hd j hj => (hp.only d hd).2 j hj) hcs
      have hra : r.answer = a := by
        generalize r.answer = x at hl
        cases x <;> cases a <;> simp_all [livenessLine]
      constructor
      · rintro rfl s0 s n c hv ha
        refine Classical.byContradiction fun hlt => ?_
        exact hA.2 hra (hgr.2 (hd.2 ⟨s0, s, n, c, hv, ha, Int.not_le.1 hlt⟩))
      · rintro rfl
        exact hd.1 (hgr.1 (hA.1 hra))
  exact ⟨fun h => (key .safe h).1 rfl, fun h => (key .unsafeAns h).2 rfl⟩

/-- The counter has an initial value. -/
theorem above_exists (vars : List (Str × Str)) (ds : List Def) (s0 : List Int) : ∃ c : Nat, Above vars ds s0 c := by
  unfold Above
  generalize (statePairs ds).zip s0 = l
  induction l with
  | nil => exact ⟨1, by omega, by simp⟩
  | cons q l ih =>
    obtain ⟨c, h0, h⟩ := ih
    refine ⟨c + q.2.natAbs + 1, by omega, fun q' hq' hi => ?_⟩
    rcases List.mem_cons.1 hq' with rfl | hq'
    · constructor <;> omega
    · have := h q' hq' hi
      constructor <;> omega

/-- **C74**: when `valid` is printed, the property is on every infinite run *false* from some point on. -/
theorem C74_vmt_liveness (hL : ∀ k, (L k).Ok M) (he : CheckEngine.Right engine) {file : List SExp} {vars : List (Str × Str)}
    {ds : List Def} {i : Str} (hp : Problem file vars ds (.live i)) (hn : Named vars ds)
    (h : .valid ∈ (runModel L rw E engine (solveLiveness engine) file).1) :
    EventuallyNever M (vars.map Prod.fst) ds (.live i) := by
  refine eventuallyNever_of_bound fun s0 => ?_
  obtain ⟨c, hc⟩ := above_exists vars ds s0
  refine ⟨c, fun s n hv => ?_⟩
  have := (C74_counter (rw := rw) (E := E) hL he hp hn).1 h s0 s n c hv hc
  omega

/-- The answer has the wrong sign: whenever `valid` is printed for a file with an infinite run, the property, read as the format
says (true from some point on), does not hold. -/
theorem C74_wrong_sign (hL : ∀ k, (L k).Ok M) (he : CheckEngine.Right engine) {file : List SExp} {vars : List (Str × Str)}
    {ds : List Def} {i : Str} (hp : Problem file vars ds (.live i)) (hn : Named vars ds)
    (h : .valid ∈ (runModel L rw E engine (solveLiveness engine) file).1)
    {ρ : Nat → Str → Int} (hr : InfRun M (vars.map Prod.fst) ds ρ) : ¬ EventuallyAlways M (vars.map Prod.fst) ds (.live i) := by
  intro ha
  obtain ⟨N, hN⟩ := C74_vmt_liveness hL he hp hn h ρ hr
  obtain ⟨N', hN'⟩ := ha ρ hr
  exact hN (max N N') (Nat.le_max_left ..) (hN' (max N N') (Nat.le_max_right ..))

/-- A property that is true nowhere is never answered with `unknown`. -/
theorem C74_never (hL : ∀ k, (L k).Ok M) (he : CheckEngine.Right engine) {file : List SExp} {vars : List (Str × Str)}
    {ds : List Def} {i : Str} (hp : Problem file vars ds (.live i)) (hn : Named vars ds)
    (hf : ∀ ρ, ¬ Holds M (vars.map Prod.fst) ds (.live i) ρ) :
    .unknown ∉ (runModel L rw E engine (solveLiveness engine) file).1 := by
  intro h
  obtain ⟨s0, s, n, c, hv, ha, hlt⟩ := (C74_counter (rw := rw) (E := E) hL he hp hn).2 h
  have : ∀ s0 s n, Visits M (vars.map Prod.fst) ds (.live i) s0 s n → n = 0 := by
    intro s0 s n hv
    induction hv with
    | init => rfl
    | hit _ _ hp => exact absurd hp (hf _)
    | miss _ _ _ ih => exact ih
  have hz := this s0 s n hv
  have := ha.1
  omega

/-- State variables without a version in their names: no answer, the front end ends with an exception. -/
theorem C74_unversioned (hL : ∀ k, (L k).Ok M) {file : List SExp} {vars : List (Str × Str)}
    {ds : List Def} {i : Str} (hp : Problem file vars ds (.live i)) (hx : ∃ p ∈ statePairs ds, nextName p.1 = none) :
    runModel L rw E engine (solveLiveness engine) file = ([], .thrown) := by
  cases hm : (resolveAll ⟨[], []⟩ file).bind (build L) with
  | none => unfold runModel; rw [hm]
  | some m =>
    obtain ⟨hM, hrun⟩ := runModel_live (rw := rw) (E := E) (engine := engine) (live := solveLiveness engine) hL hp hm
    have hnone : nextTerms m.stateVars = none := by
      rw [hM.state]
      obtain ⟨p, hp, hn⟩ := hx
      generalize statePairs ds = l at hp
      induction l with
      | nil => simp at hp
      | cons q l ih =>
        simp only [List.map_cons, nextTerms, varName_varOf, Option.bind_some]
        rcases List.mem_cons.1 hp with rfl | hp
        · rw [hn]; rfl
        · rw [ih hp]
          cases nextName q.1 <;> rfl
    rw [hrun]
    unfold solveLiveness
    cases hc : counterClauses m with
    | none => rfl
    | some cs =>
      obtain ⟨-, -, -, next, -, -, -, h4, -⟩ := counterClauses_some hc
      rw [nextTerms_append, hnone] at h4
      cases h4

end
end Vmt
end Golem
