import Verif.Model.Proofs.Intermediate
import Verif.Props.Alethe
import Verif.Props.AletheEx

/-!
C82: from derivations to proofs in the intermediate format.
-/

namespace Golem
namespace Alethe

theorem eval_valueIn {σ : Inst} {t : Term} {v : Val} (h : valueIn σ t = some v) {I : Interp} (hI : Std I) : eval I (inst σ t) = v :=
  (C77_simplify_total _ ⟨[], 0, 0⟩ v (value_inst σ t v h)).1 I hI

theorem evals_valuesIn {σ : Inst} {I : Interp} (hI : Std I) : ∀ (l : List Term) (vs : List Val), valuesIn σ l = some vs → evals I (insts σ l) = vs
  | [], vs, h => by cases h; simp only [insts, evals]
  | t :: l, vs, h => by
    rw [valuesIn] at h
    split at h
    · rename_i v vs' h1 h2
      cases h
      simp only [insts, evals, eval_valueIn h1 hI, evals_valuesIn hI l vs' h2]
    · cases h

theorem eval_atomFact {σ : Inst} {t f : Term} (h : atomFact σ t = some f) {I : Interp} (hI : Std I) : eval I (inst σ t) = eval I f := by
  unfold atomFact at h
  split at h
  · obtain ⟨vs, h1, h2⟩ := Option.map_eq_some_iff.1 h
    subst h2
    simp only [inst, eval, evals_valuesIn hI _ _ h1, evals_lit]
  · split at h
    · rename_i s hs
      cases h
      simp only [inst, Option.isNone_iff_eq_none.1 hs]
    · cases h
  · cases h

theorem eval_headFact {σ : Inst} {t f : Term} (h : headFact σ t = some f) {I : Interp} (hI : Std I) : eval I (inst σ t) = eval I f := by
  unfold headFact at h
  split at h
  · cases h
    simp only [inst]
  · exact eval_atomFact h hI

theorem eval_bodyFacts {σ : Inst} {I : Interp} (hI : Std I) : ∀ (l : List Term) (fs : List Term), bodyFacts σ l = some fs →
    (∀ f ∈ fs, IsTrue I f) → ∀ v ∈ evals I (insts σ l), v.toBool = true
  | [], _, _, _ => by simp [insts, evals]
  | t :: l, fs, h, hf => by
    unfold bodyFacts at h
    simp only [insts, evals, List.mem_cons, forall_eq_or_imp]
    split at h
    · rename_i hv
      exact ⟨by rw [eval_valueIn hv hI]; rfl, eval_bodyFacts hI l fs h hf⟩
    · split at h
      · rename_i f fs' h1 h2
        cases h
        refine ⟨by rw [eval_atomFact h1 hI]; exact hf f (by simp), eval_bodyFacts hI l fs' h2 fun g hg => hf g (by simp [hg])⟩
      · cases h

/-- The body is true if the facts for its predicates are. -/
theorem eval_body {σ : Inst} {l : Term} {fs : List Term} (h : bodyFacts σ (conjuncts l) = some fs) {I : Interp} (hI : Std I)
    (hf : ∀ f ∈ fs, IsTrue I f) : IsTrue I (inst σ l) := by
  have := eval_bodyFacts hI _ fs h hf
  unfold conjuncts at this
  split at this
  · unfold IsTrue
    simp only [inst, eval]
    rw [hI]
    simpa [stdOp, Val.toBool] using this
  · simpa [insts, evals, IsTrue] using this

theorem assign_same (I : Interp) : ∀ l, (assign I l).opv = I.opv ∧ (assign I l).app = I.app
  | [] => ⟨rfl, rfl⟩
  | (_, .int _) :: l => assign_same I l
  | (_, .bool _) :: l => assign_same I l

/-- A variable without a value keeps its own. -/
theorem eval_assign_none {I : Interp} {s : Str} {k : Sort'} : ∀ l : List (Str × Val), (∀ p ∈ l, p.1 ≠ s) →
    eval (assign I l) (.var s k) = eval I (.var s k)
  | [], _ => rfl
  | (x, v) :: l, h => by
    have h1 : s ≠ x := fun e => h (x, v) (by simp) e.symm
    have := eval_assign_none (I := I) (s := s) (k := k) l fun p hp => h p (by simp [hp])
    rw [← this]
    cases v <;> cases k <;> simp [assign, eval, if_neg h1]

theorem eval_assign_some {I : Interp} {s : Str} {w : Val} : ∀ l : List (Str × Val), (∀ p ∈ l, p.1 = s → p.2 = w) → (∃ p ∈ l, p.1 = s) →
    eval (assign I l) (.var s w.sort) = w
  | [], _, h => by obtain ⟨_, h, _⟩ := h; cases h
  | (x, v) :: l, h, he => by
    by_cases hx : s = x
    · have hv : v = w := h (x, v) (by simp) hx.symm
      subst hv
      cases v <;> simp only [assign, Val.sort, eval, if_pos hx]
    · have := eval_assign_some (I := I) (s := s) (w := w) l (fun p hp => h p (by simp [hp])) (by
        obtain ⟨p, hp, e⟩ := he
        rcases List.mem_cons.1 hp with rfl | hp
        · exact absurd e.symm hx
        · exact ⟨p, hp, e⟩)
      refine Eq.trans ?_ this
      cases v <;> cases w <;> simp [assign, Val.sort, eval, if_neg hx]

theorem mem_zip_lookup {σ : Inst} : ∀ {xs : List (Str × Sort')} {vs : List Val}, vs.map some = xs.map (fun x => σ.lookup x.1) →
    ∀ p ∈ (xs.map Prod.fst).zip vs, σ.lookup p.1 = some p.2
  | [], _, _, p, hp => by simp at hp
  | _ :: _, [], h, _, _ => by simp at h
  | x :: xs, v :: vs, h, p, hp => by
    simp only [List.map_cons, List.cons.injEq] at h
    simp only [List.map_cons, List.zip_cons_cons, List.mem_cons] at hp
    rcases hp with rfl | hp
    · exact h.1.symm
    · exact mem_zip_lookup h.2 p hp

theorem zip_fst_mem {σ : Inst} : ∀ {xs : List (Str × Sort')} {vs : List Val}, vs.map some = xs.map (fun x => σ.lookup x.1) →
    ∀ x ∈ xs, ∃ p ∈ (xs.map Prod.fst).zip vs, p.1 = x.1
  | [], _, _, x, hx => by cases hx
  | _ :: _, [], h, _, _ => by simp at h
  | y :: xs, v :: vs, h, x, hx => by
    simp only [List.map_cons, List.cons.injEq] at h
    rcases List.mem_cons.1 hx with rfl | hx
    · exact ⟨(x.1, v), by simp, rfl⟩
    · obtain ⟨p, hp, e⟩ := zip_fst_mem h.2 x hx
      exact ⟨p, by simp [hp], e⟩

theorem zip_fst_of {xs : List (Str × Sort')} {vs : List Val} {p : Str × Val} (hp : p ∈ (xs.map Prod.fst).zip vs) : ∃ x ∈ xs, x.1 = p.1 := by
  have := (List.of_mem_zip (a := p.1) (b := p.2) hp).1
  obtain ⟨x, hx, e⟩ := List.mem_map.1 this
  exact ⟨x, hx, e⟩

/-- The instance is the body at the values. -/
theorem eval_inst_assign {I : Interp} {xs : List (Str × Sort')} {b : Term} {σ : Inst} {vs : List Val} (hp : plain b = true)
    (h1 : ∀ x ∈ vars b, ∀ v, σ.lookup x.1 = some v → x ∈ xs ∧ v.sort = x.2) (hv : vs.map some = xs.map fun x => σ.lookup x.1) :
    eval I (inst σ b) = eval (assign I ((xs.map Prod.fst).zip vs)) b := by
  have hs := assign_same I ((xs.map Prod.fst).zip vs)
  refine eval_inst ⟨hs.1.symm, hs.2.symm⟩ σ b hp fun x hx => ?_
  obtain ⟨s, k⟩ := x
  cases hl : σ.lookup s with
  | none =>
    simp only [inst, hl]
    refine eval_assign_none _ fun p hp e => ?_
    have := mem_zip_lookup hv p hp
    rw [e, hl] at this
    cases this
  | some v =>
    obtain ⟨hm, hk⟩ := h1 _ hx v hl
    simp only [inst, hl]
    rw [eval_lit]
    have hk' : v.sort = k := hk
    subst hk'
    refine eval_assign_some _ (fun p hp e => ?_) (zip_fst_mem hv _ hm)
    have := mem_zip_lookup hv p hp
    rw [e, hl] at this
    exact (Option.some.inj this).symm

theorem filterMap_lit {σ : Inst} : ∀ {xs : List (Str × Sort')}, (∀ x ∈ xs, (σ.lookup x.1).isSome = true) →
    ∃ vs : List Val, vs.map some = xs.map (fun x => σ.lookup x.1) ∧ (xs.filterMap fun x => (σ.lookup x.1).map lit) = vs.map lit
  | [], _ => ⟨[], rfl, rfl⟩
  | x :: xs, h => by
    obtain ⟨vs, h1, h2⟩ := filterMap_lit (xs := xs) fun y hy => h y (by simp [hy])
    obtain ⟨v, hv⟩ := Option.isSome_iff_exists.1 (h x (by simp))
    exact ⟨v :: vs, by simp [hv, h1], by simp [hv, h2]⟩

/-! ### One step -/

theorem Justified.mono {as : List Term} {ss more : List IStep} {k : Nat} {s : IStep} (hk : k ≤ ss.length) (h : Justified as ss k s) :
    Justified as (ss ++ more) k s := by
  have get : ∀ {j : Nat} {x : IStep}, ss[j]? = some x → (ss ++ more)[j]? = some x := fun {j x} hx => by
    rw [List.getElem?_append_left (List.getElem?_eq_some_iff.1 hx).1]; exact hx
  cases s with
  | clause => exact h
  | ground t =>
    rcases h with h | ⟨j, xs, b, vs, e, hj, r⟩
    · exact .inl h
    · exact .inr ⟨j, xs, b, vs, e, get hj, r⟩
  | implies ps f =>
    obtain ⟨j, t, e, hj, r⟩ := h
    exact ⟨j, t, e, get hj, r⟩
  | fact f prem =>
    obtain ⟨j, ps, e, hj, r1, r2⟩ := h
    refine ⟨j, ps, e, get hj, fun p hp => ?_, fun q hq => ?_⟩
    · rcases r1 p hp with h | ⟨q, hq, pr, hpr⟩
      · exact .inl h
      · exact .inr ⟨q, hq, pr, get hpr⟩
    · obtain ⟨h1, p, hp, pr, hpr⟩ := r2 q hq
      exact ⟨h1, p, hp, pr, get hpr⟩

/-- All lines are justified. -/
def AllJustified (as : List Term) (ss : List IStep) : Prop := ∀ (k : Nat) (s : IStep), ss[k]? = some s → Justified as ss k s

theorem AllJustified.snoc {as : List Term} {ss : List IStep} {s : IStep} (h : AllJustified as ss) (hs : Justified as ss ss.length s) :
    AllJustified as (ss ++ [s]) := by
  intro k x hx
  by_cases hk : k < ss.length
  · rw [List.getElem?_append_left hk] at hx
    exact (h k x hx).mono (by omega)
  · have : k = ss.length := by
      have := (List.getElem?_eq_some_iff.1 hx).1
      simp at this; omega
    subst this
    simp at hx
    subst hx
    exact hs.mono (Nat.le_refl _)

/-- What holds between the iterations. -/
structure IInv (as : List Term) (ds : List Coarse) (i : Nat) (m : List (Nat × Nat)) (ss : List IStep) : Prop where
  ok : AllJustified as ss
  facts : ∀ j d, 0 < j → j < i → ds[j]? = some d → ∃ (k : Nat) (pr : List Nat), m.lookup j = some k ∧ ss[k]? = some (.fact d.fact pr)
  last : ∀ d, 1 < i → ds[i - 1]? = some d → ∃ pr, ss.getLast? = some (.fact d.fact pr)

theorem intermediateStep_ok {as : List Term} {ds : List Coarse} {i : Nat} {d : Coarse} {m : List (Nat × Nat)} {ss : List IStep}
    (h0 : ∀ d, ds[0]? = some d → d.fact = .bool true)
    (hi : 0 < i) (hd : ds[i]? = some d) (ha : Applies as ds i d) (hf : FullValues as d) (inv : IInv as ds i m ss) :
    ∃ m' ss', intermediateStep as ds i d m ss = some (m', ss') ∧ IInv as ds (i + 1) m' ss' := by
  obtain ⟨xs, l, r, hA, hxs, hpl, hpr, h1, h2, h3, hne, hlt, ⟨fs, hfs, hfm⟩, hh⟩ := ha
  have hp : plain (.op .imp [l, r]) = true := by simp [plain, plains, hpl, hpr]
  have hvars : ∀ x ∈ vars (.op .imp [l, r]), ∀ v, d.σ.lookup x.1 = some v → x ∈ xs ∧ v.sort = x.2 := by
    intro x hx v hv
    refine h1 x ?_ v hv
    simpa [vars, varss] using hx
  have hlen : i < ds.length := (List.getElem?_eq_some_iff.1 hd).1
  -- the body gives the head
  have himp : ∀ I, Std I → IsTrue I (inst d.σ (.op .imp [l, r])) → (∀ f ∈ fs, IsTrue I f) → IsTrue I d.fact := by
    intro I hI ht hfs'
    have hb := eval_body hfs hI hfs'
    unfold IsTrue at ht hb ⊢
    simp only [inst, insts, eval, evals] at ht
    rw [hI] at ht
    simp only [stdOp] at ht hb
    rw [← eval_headFact hh hI]
    cases hx : eval I (inst d.σ l) with
    | int n => rw [hx] at hb; cases hb
    | bool b =>
      rw [hx] at hb
      cases hb
      rw [hx] at ht
      simpa [Val.toBool] using ht
  -- the instance
  obtain ⟨t, pre, hinst, hpre, hground⟩ : ∃ t pre, instanceOf (.all xs (.op .imp [l, r])) d.σ = some (t, pre) ∧
      AllJustified as (ss ++ pre ++ [.ground t]) ∧ ∀ I, Std I → IsTrue I t → (∀ f ∈ fs, IsTrue I f) → IsTrue I d.fact := by
    by_cases hσ : d.σ = []
    · refine ⟨.all xs (.op .imp [l, r]), [], by simp only [instanceOf, if_pos hσ], ?_, fun I hI ht hf' => ?_⟩
      · rw [List.append_nil]
        exact inv.ok.snoc (.inl (List.mem_of_getElem? hA))
      · refine himp I hI ?_ hf'
        rw [hσ, inst_nil _ hp]
        exact eval_all.1 ht I.varI I.varB (fun _ _ => rfl) (fun _ _ => rfl)
    · have hfull : ∀ x ∈ xs, (d.σ.lookup x.1).isSome = true := by
        rcases hf with h | h
        · exact absurd h hσ
        · exact h _ _ hA
      obtain ⟨vs, hv1, hv2⟩ := filterMap_lit hfull
      refine ⟨inst d.σ (.op .imp [l, r]), [.clause (.all xs (.op .imp [l, r])) (vs.map lit)], ?_, ?_, himp⟩
      · have : (xs.all fun x => (d.σ.lookup x.1).isSome) = true := List.all_eq_true.2 hfull
        simp only [instanceOf, if_neg hσ, this, if_true, hv2]
        simp only [inst]
      · refine (inv.ok.snoc (s := .clause _ _) (List.mem_of_getElem? hA)).snoc (.inr ⟨ss.length, xs, .op .imp [l, r], vs, by simp, by simp, ?_, fun I _ => ?_, fun I _ ht => ?_⟩)
        · simpa using congrArg List.length hv1
        · exact eval_inst_assign hp hvars hv1
        · exact eval_instance hp hvars hfull ht
  have hps : d.premises.all (fun p => (ds[p]?).isSome) = true := List.all_eq_true.2 fun p hp => by
    have := hlt p hp
    simp; omega
  have hms : ((d.premises.filter (· ≠ 0)).all fun p => (m.lookup p).isSome) = true := List.all_eq_true.2 fun p hp => by
    obtain ⟨hp1, hp2⟩ := List.mem_filter.1 hp
    have hpi := hlt p hp1
    obtain ⟨k, pr, hk, -⟩ := inv.facts p _ (by simp at hp2; omega) hpi (List.getElem?_eq_getElem (by omega))
    simp [hk]
  let facts := d.premises.filterMap fun p => ds[p]?.map Coarse.fact
  let prem := (d.premises.filter (· ≠ 0)).filterMap fun p => m.lookup p
  let s1 : List IStep := ss ++ pre ++ [.ground t]
  let s2 : List IStep := s1 ++ [.implies facts d.fact]
  have hsub : ∀ f ∈ fs, f ∈ facts := by
    intro f hf'
    have : some f ∈ fs.map some := List.mem_map.2 ⟨f, hf', rfl⟩
    rw [hfm] at this
    obtain ⟨p, hp', e⟩ := List.mem_map.1 this
    exact List.mem_filterMap.2 ⟨p, (List.mem_filter.1 hp').1, e⟩
  have j2 : AllJustified as s2 := by
    refine hpre.snoc ⟨(ss ++ pre).length, t, by simp; omega, by simp, fun I hI ht hf' => hground I hI ht fun f hf'' => hf' f (hsub f hf'')⟩
  have old : ∀ {k : Nat} {x : IStep}, ss[k]? = some x → ∀ more, (ss ++ more)[k]? = some x := fun {k x} hx more => by
    rw [List.getElem?_append_left (List.getElem?_eq_some_iff.1 hx).1]; exact hx
  have old2 : ∀ {k : Nat} {x : IStep}, ss[k]? = some x → s2[k]? = some x := fun {k x} hx => by
    have := old hx (pre ++ [.ground t] ++ [.implies facts d.fact])
    simpa [s2, s1] using this
  have hlen2 : ss.length ≤ s2.length := by simp [s2, s1]
  have j3 : AllJustified as (s2 ++ [.fact d.fact prem]) := by
    refine j2.snoc ⟨s1.length, facts, by simp [s2], by simp [s2], fun p hp => ?_, fun q hq => ?_⟩
    · obtain ⟨n, hn, e⟩ := List.mem_filterMap.1 hp
      obtain ⟨d', hd', e'⟩ := Option.map_eq_some_iff.1 e
      by_cases hn0 : n = 0
      · subst hn0
        exact .inl (by rw [← e', h0 d' hd'])
      · obtain ⟨k, pr, hk, hs⟩ := inv.facts n d' (by omega) (hlt n hn) hd'
        rw [← e']
        exact .inr ⟨k, List.mem_filterMap.2 ⟨n, List.mem_filter.2 ⟨hn, by simpa using hn0⟩, hk⟩, pr, old2 hs⟩
    · obtain ⟨n, hn, e⟩ := List.mem_filterMap.1 hq
      obtain ⟨hn1, hn2⟩ := List.mem_filter.1 hn
      have hni := hlt n hn1
      have hdn : ds[n]? = some ds[n] := List.getElem?_eq_getElem (by omega)
      obtain ⟨k, pr, hk, hs⟩ := inv.facts n _ (by simp at hn2; omega) hni hdn
      rw [hk] at e
      cases e
      have := (List.getElem?_eq_some_iff.1 hs).1
      exact ⟨by omega, _, List.mem_filterMap.2 ⟨n, hn1, by rw [hdn]; rfl⟩, pr, old2 hs⟩
  refine ⟨(i, s2.length) :: m, s2 ++ [.fact d.fact prem], ?_, j3, fun j d' hj0 hj hd' => ?_, fun d' _ hd' => ?_⟩
  · rw [intermediateStep.eq_def]
    simp only [if_neg hne, hA, hinst, hps, hms, Bool.and_self, if_true]
    simp [s2, s1, facts, prem]
  · by_cases hji : j = i
    · subst hji
      rw [hd] at hd'
      cases hd'
      exact ⟨s2.length, prem, by simp [List.lookup], by simp⟩
    · obtain ⟨k, pr, hk, hs⟩ := inv.facts j d' hj0 (by omega) hd'
      have : (j == i) = false := by simpa using hji
      refine ⟨k, pr, by simp only [List.lookup, this, hk], ?_⟩
      have h' := old2 hs
      rw [List.getElem?_append_left (List.getElem?_eq_some_iff.1 h').1]
      exact h'
  · rw [Nat.add_sub_cancel, hd] at hd'
    cases hd'
    exact ⟨prem, by simp⟩

theorem intermediateSteps_ok {as : List Term} {ds : List Coarse} (h0 : ∀ d, ds[0]? = some d → d.fact = .bool true)
    (ha : ∀ i d, 0 < i → ds[i]? = some d → Applies as ds i d ∧ FullValues as d) :
    ∀ (rest : List Coarse) (i : Nat) (m : List (Nat × Nat)) (ss : List IStep),
    0 < i → ds.drop i = rest → i ≤ ds.length → IInv as ds i m ss →
    ∃ m' ss', intermediateSteps as ds i rest m ss = some ss' ∧ IInv as ds ds.length m' ss'
  | [], i, m, ss, _, hr, hle, inv => by
    have : i = ds.length := by
      have := List.drop_eq_nil_iff.1 hr
      omega
    subst this
    exact ⟨m, ss, rfl, inv⟩
  | d :: rest, i, m, ss, hi, hr, hle, inv => by
    have hd : ds[i]? = some d := by
      have : (ds.drop i)[0]? = some d := by rw [hr]; rfl
      rw [List.getElem?_drop, Nat.add_zero] at this
      exact this
    have hlt := (List.getElem?_eq_some_iff.1 hd).1
    obtain ⟨m1, ss1, e1, inv1⟩ := intermediateStep_ok h0 hi hd (ha i d hi hd).1 (ha i d hi hd).2 inv
    have hr' : ds.drop (i + 1) = rest := by
      rw [← List.drop_drop, hr]; rfl
    obtain ⟨m2, ss2, e2, inv2⟩ := intermediateSteps_ok h0 ha rest (i + 1) m1 ss1 (by omega) hr' (by omega) inv1
    exact ⟨m2, ss2, by simp only [intermediateSteps, e1, e2], inv2⟩

/-- C82: from a derivation of `false` in which all variables of the clauses have values a proof in the intermediate format is always made; every
line of it is justified by the lines before it, and the last line derives `false`. -/
theorem C82_proof (assertions : List Term) (ds : List Coarse) (h : Derivation assertions ds)
    (h0 : ∀ d, ds[0]? = some d → d.fact = .bool true) (hv : ∀ i d, 0 < i → ds[i]? = some d → FullValues assertions d) :
    ∃ ss, buildIntermediate assertions ds = some ss ∧ (∀ (k : Nat) (s : IStep), ss[k]? = some s → Justified assertions ss k s) ∧
      ∃ pr, ss.getLast? = some (.fact (.bool false) pr) := by
  obtain ⟨⟨d0, hd0, hp0⟩, ha, hlen, hlast⟩ := h
  obtain ⟨rest, hds⟩ : ∃ rest, ds = d0 :: rest := by
    cases ds with
    | nil => cases hd0
    | cons a l => cases hd0; exact ⟨l, rfl⟩
  obtain ⟨m, ss, e, inv⟩ := intermediateSteps_ok h0 (fun i d hi hd => ⟨ha i d hi hd, hv i d hi hd⟩) rest 1 [] [] (by omega)
    (by rw [hds]; rfl) (by omega) ⟨fun k s hs => (by simp at hs), fun j d h1 h2 => absurd h2 (by omega), fun d h1 => absurd h1 (by omega)⟩
  obtain ⟨dl, hdl⟩ : ∃ dl, ds[ds.length - 1]? = some dl := ⟨_, List.getElem?_eq_getElem (by omega)⟩
  refine ⟨ss, ?_, inv.ok, ?_⟩
  · unfold buildIntermediate
    rw [hds] at e ⊢
    simp only [intermediateSteps]
    rw [intermediateStep.eq_def]
    simp only [hp0, if_true]
    exact e
  · obtain ⟨pr, h⟩ := inv.last dl hlen hdl
    rw [hlast dl hdl] at h
    exact ⟨pr, h⟩

/-- C82: if every line is justified, every fact is true wherever the assertions are true; so a justified proof of `false` refutes the assertions. -/
theorem C82_sound (assertions : List Term) (ss : List IStep) (h : ∀ (k : Nat) (s : IStep), ss[k]? = some s → Justified assertions ss k s)
    (I : Interp) (hI : Std I) (ha : ∀ A ∈ assertions, IsTrue I A) :
    ∀ f prem, IStep.fact f prem ∈ ss → IsTrue I f := by
  have key : ∀ (k : Nat) (f : Term) (prem : List Nat), ss[k]? = some (.fact f prem) → IsTrue I f := by
    intro k
    induction k using Nat.strongRecOn with
    | ind k ih =>
      intro f prem hk
      obtain ⟨j, ps, rfl, hj, h1, h2⟩ := h k _ hk
      obtain ⟨j', t, rfl, hj', h3⟩ := h j _ hj
      refine h3 I hI ?_ fun p hp => ?_
      · rcases h j' _ hj' with h' | ⟨j2, xs, b, vs, rfl, hj2, -, -, h4⟩
        · exact ha _ h'
        · exact h4 I hI (ha _ (h j2 _ hj2))
      · rcases h1 p hp with rfl | ⟨q, hq, pr, hs⟩
        · unfold IsTrue; simp only [eval, Val.toBool]
        · exact ih q (h2 q hq).1 p pr hs
  intro f prem hf
  obtain ⟨k, hk⟩ := List.getElem?_of_mem hf
  exact key k f prem hk

/-! ### Cases -/

/-- The clauses of the case for C78, without the variable that the first clause does not use. -/
def iClauses : List Term := .all [(cX, .int)] (.op .imp [.op .eq [vx, .num 0], .app cP [vx]]) :: exClauses.tail

theorem iDerivation : Derivation iClauses exDeriv := by
  obtain ⟨h1, h2, h3, h4⟩ := exDerivation
  refine ⟨h1, fun i d hi hd => ?_, h3, h4⟩
  match i, hi with
  | 1, _ =>
    cases hd
    refine ⟨_, _, _, rfl, by simp, rfl, rfl, ?_, ?_, ?_, by simp, by decide, ⟨_, rfl, rfl⟩, rfl⟩
    · intro x hx v hv
      simp [vars, varss, vx] at hx
      subst hx
      simp [List.lookup] at hv
      subst hv
      exact ⟨by simp, rfl⟩
    · intro x hx hk
      simp at hx
      subst hx; rfl
    · intro h
      exact absurd ⟨.int, by simp [vars, varss, vx]⟩ (h (cX, .int) (by simp))
  | (j + 2), _ =>
    obtain ⟨xs, l, r, hA, h'⟩ := h2 (j + 2) d (by omega) hd
    refine ⟨xs, l, r, ?_, h'⟩
    have : 0 < d.clause := by
      match j, hd with
      | 0, hd => cases hd; decide
      | 1, hd => cases hd; decide
      | (j + 2), hd => simp [exDeriv] at hd
    obtain ⟨n, hn⟩ : ∃ n, d.clause = n + 1 := ⟨d.clause - 1, by omega⟩
    rw [hn] at hA ⊢
    exact hA

theorem iFull : ∀ i d, 0 < i → exDeriv[i]? = some d → FullValues iClauses d := by
  intro i d hi hd
  right
  intro xs b hA
  match i, hi with
  | 1, _ => cases hd; cases hA; decide
  | 2, _ => cases hd; cases hA; decide
  | 3, _ => cases hd; cases hA; decide
  | (j + 4), _ => simp [exDeriv] at hd

example : ∃ ss, buildIntermediate iClauses exDeriv = some ss ∧ (∀ (k : Nat) (s : IStep), ss[k]? = some s → Justified iClauses ss k s) ∧
    ∃ pr, ss.getLast? = some (.fact (.bool false) pr) :=
  C82_proof iClauses exDeriv iDerivation (fun d hd => by cases hd; rfl) iFull

/-- The lines. -/
example : buildIntermediate iClauses exDeriv = some
    [.clause (.all [(cX, .int)] (.op .imp [.op .eq [vx, .num 0], .app cP [vx]])) [.num 0],
     .ground (.op .imp [.op .eq [.num 0, .num 0], .app cP [.num 0]]),
     .implies [.bool true] (.app cP [.num 0]),
     .fact (.app cP [.num 0]) [],
     .clause (.all [(cX, .int), (cY, .int)] (.op .imp [.op .and [.app cP [vx], .op .eq [vy, .op .add [vx, .num 1]]], .app cP [.op .add [vx, .num 1]]]))
       [.num 0, .num 1],
     .ground (.op .imp [.op .and [.app cP [.num 0], .op .eq [.num 1, .op .add [.num 0, .num 1]]], .app cP [.op .add [.num 0, .num 1]]]),
     .implies [.app cP [.num 0]] (.app cP [.num 1]),
     .fact (.app cP [.num 1]) [3],
     .clause (.all [(cX, .int)] (.op .imp [.op .and [.app cP [vx], .op .gt [vx, .num 0]], .bool false])) [.num 1],
     .ground (.op .imp [.op .and [.app cP [.num 1], .op .gt [.num 1, .num 0]], .bool false]),
     .implies [.app cP [.num 1]] (.bool false),
     .fact (.bool false) [7]] := rfl

/-- Without a value for a variable that a clause quantifies but does not use no proof is made, though it is not needed for the derivation. -/
theorem C82_unused_finding : Derivation exClauses exDeriv ∧ buildIntermediate exClauses exDeriv = none := ⟨exDerivation, rfl⟩

end Alethe
end Golem
