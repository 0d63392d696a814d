import Verif.Model.Proofs.InstPairs
import Verif.Lemmas.Normalizer

/-! Lemmas for `getInstPairs`. -/

namespace Golem
variable {T : Theory}

abbrev locals (R : PRepr) (c : Clause T) : List Var := localVars R c (normalizedBody R c)

/-- The variables of a normalized constraint. -/
theorem norm_vars {R : PRepr} {k : Nat} {c : Clause T} {v : Var} (h : v ∈ (normClauseWith R k c).constraint.vars) :
    v ∈ predicateVars R c ∨ ∃ (i : Nat) (x : Var), (locals R c)[i]? = some x ∧ v = .ver (.aux (k + i)) 0 := by
  simp only [normClauseWith, varSubstitute, Fla.mem_vars_subst] at h
  obtain ⟨x, hx, hv⟩ := h
  by_cases hL : x ∈ locals R c
  · obtain ⟨i, hi⟩ := List.getElem?_of_mem hL
    rw [auxSubst_find (xs := localVars R c (normalizedBody R c)) (dedup_nodup _) hi] at hv
    simp only [Tm.vars, List.mem_singleton] at hv
    exact .inr ⟨i, x, hi, hv⟩
  · rw [auxSubst_fn_not_mem hL] at hv
    simp only [Tm.vars, List.mem_singleton] at hv
    subst hv
    refine .inl (Classical.byContradiction fun hp => hL ?_)
    rw [locals, localVars, mem_dedup, List.mem_filter]
    exact ⟨hx, by simpa using hp⟩

/-- From a valuation of the normalized clause to one of the original clause. -/
theorem norm_back {R : PRepr} {k : Nat} {c : Clause T} (hu : c.User) (har : c.ArityOk R) {M : Valuation T}
    (hM : (normClauseWith R k c).constraint.holds M) : ∃ τ : Valuation T, c.constraint.holds τ ∧
      (∀ nv arg, (nv, arg) ∈ clauseEqs R c → M nv = arg.eval τ) ∧
      ∀ (i : Nat) (x : Var), (locals R c)[i]? = some x → τ x = M (.ver (.aux (k + i)) 0) := by
  have hspec := processEqs_spec (clauseEqs R c)
  generalize hσE : processEqs (clauseEqs R c) [] [] = σE at hspec
  obtain ⟨σ, E⟩ := σE
  simp only at hspec
  have hbody : normalizedBody R c =
      varSubstitute (if E.isEmpty then c.constraint else .and c.constraint (Fla.conj E)) σ := by
    simp only [normalizedBody, hσE]
  generalize hpre : (if E.isEmpty then c.constraint else .and c.constraint (Fla.conj E)) = pre at hbody
  have hpre_holds : ∀ τ : Valuation T, pre.holds τ ↔ c.constraint.holds τ ∧ ∀ f ∈ E, f.holds τ := by
    intro τ
    rw [← hpre]
    split
    · rename_i hE
      have : E = [] := by simpa using hE
      simp [this]
    · simp
  have hmemL : ∀ x, x ∈ locals R c → x ∉ predicateVars R c := by
    intro x hx
    rw [locals, localVars, mem_dedup, List.mem_filter] at hx
    simpa using hx.2
  have hnv : ∀ nv arg, (nv, arg) ∈ clauseEqs R c → nv ∈ predicateVars R c := by
    intro nv arg h
    rw [← clauseEqs_fst har]; exact List.mem_map_of_mem (f := Prod.fst) h
  have hσuser : ∀ x t, σ.find x = some t → x.Untagged := by
    intro x t h
    obtain ⟨nv, _, h2⟩ := hspec.keys x t (SubstMap.find_some_mem h)
    exact hu x (clauseEqs_vars h2 (by simp [Tm.vars]))
  have hτd : ∃ τ : Valuation T, ∀ x, τ x = ((σ.fn x).subst (auxSubst k (locals R c)).fn).eval M := ⟨_, fun _ => rfl⟩
  obtain ⟨τ, hτx⟩ := hτd
  have hτ : pre.holds τ := by
    simp only [normClauseWith] at hM
    rw [varSubstitute_holds, hbody, varSubstitute_holds] at hM
    rw [show τ = _ from funext hτx]
    refine Eq.mp ?_ hM
    congr 1
    funext x
    rw [Tm.eval_subst, ← hbody]
  have hfree : ∀ x, x ∉ locals R c → σ.find x = none → τ x = M x := by
    intro x h1 h2
    rw [hτx, SubstMap.fn, h2]
    simp only [Option.getD_none, Tm.subst]
    rw [auxSubst_fn_not_mem h1]; rfl
  have hfix : ∀ nv, nv ∈ predicateVars R c → τ nv = M nv := by
    intro nv h
    refine hfree nv (fun hm => hmemL nv hm h) ?_
    cases hf : σ.find nv with
    | none => rfl
    | some t =>
      have e := hσuser nv t hf
      rcases predicateVars_kind h with ⟨n, e'⟩ | ⟨n, i, e'⟩ <;> (rw [e'] at e; exact e.elim)
  have hkey : ∀ x nv, σ.find x = some (.var nv) → nv ∈ predicateVars R c → τ x = M nv := by
    intro x nv h hn
    rw [hτx, SubstMap.fn, h]
    simp only [Option.getD_some, Tm.subst]
    rw [auxSubst_fn_not_mem (fun hm => hmemL nv hm hn)]; rfl
  obtain ⟨hc, hE⟩ := (hpre_holds τ).1 hτ
  refine ⟨τ, hc, fun nv arg h => ?_, fun i x hi => ?_⟩
  · rcases hspec.covered nv arg h with ⟨x, rfl, hx⟩ | ⟨x, v, rfl, hx, hm⟩ | hm
    · exact (hkey x nv hx (hnv _ _ h)).symm
    · obtain ⟨nv2, rfl, hm2⟩ := hspec.keys _ _ (SubstMap.find_some_mem hx)
      have h1 : τ nv = τ nv2 := hE _ hm
      rw [hfix nv (hnv _ _ h), hfix nv2 (hnv _ _ hm2)] at h1
      show _ = τ x
      rw [hkey x nv2 hx (hnv _ _ hm2), h1]
    · have h1 : τ nv = arg.eval τ := hE _ hm
      rw [← h1, hfix nv (hnv _ _ h)]
  · have hx := List.mem_of_getElem? hi
    have hnone : σ.find x = none := by
      have hm := hmemL x hx
      rw [locals, localVars, mem_dedup, List.mem_filter, hbody] at hx
      simp only [varSubstitute, Fla.mem_vars_subst] at hx
      obtain ⟨⟨y, _, hxy⟩, _⟩ := hx
      cases hf : σ.find y with
      | none =>
        rw [SubstMap.fn, hf] at hxy
        simp only [Option.getD_none, Tm.vars, List.mem_singleton] at hxy
        rw [hxy]; exact hf
      | some t =>
        obtain ⟨nv, rfl, hm2⟩ := hspec.keys _ _ (SubstMap.find_some_mem hf)
        rw [SubstMap.fn, hf] at hxy
        simp only [Option.getD_some, Tm.vars, List.mem_singleton] at hxy
        rw [hxy] at hm
        exact absurd (hnv _ _ hm2) hm
    rw [hτx, SubstMap.fn, hnone]
    simp only [Option.getD_none, Tm.subst]
    rw [auxSubst_find (xs := locals R c) (dedup_nodup _) hi]; rfl

/-- Every argument is in an equality. -/
theorem arg_eq {R : PRepr} {c : Clause T} (har : c.ArityOk R) {x : Var} (h : x ∈ c.vars) :
    x ∈ c.constraint.vars ∨ ∃ nv arg, (nv, arg) ∈ clauseEqs R c ∧ x ∈ arg.vars := by
  simp only [Clause.vars, List.mem_append, List.mem_flatMap] at h
  have zip_snd : ∀ {xs : List Var} {ts : List (Tm T)} {t : Tm T}, xs.length = ts.length → t ∈ ts → ∃ nv, (nv, t) ∈ List.zip xs ts := by
    intro xs ts t hl ht
    obtain ⟨i, hi⟩ := List.getElem?_of_mem ht
    have hlt := (List.getElem?_eq_some_iff.1 hi).1
    refine ⟨xs[i]'(by omega), List.mem_of_getElem? (i := i) ?_⟩
    rw [List.getElem?_zip_eq_some]
    exact ⟨List.getElem?_eq_getElem _, hi⟩
  rcases h with h | ⟨t, ht, hx⟩ | ⟨b, hb, t, ht, hx⟩
  · exact .inl h
  · obtain ⟨nv, hz⟩ := zip_snd (xs := R.tgtVars c.head.1) (by simp [PRepr.tgtVars, har.1]) ht
    exact .inr ⟨nv, t, by rw [clauseEqs_eq]; exact List.mem_append_left _ hz, hx⟩
  · obtain ⟨i, hi⟩ := List.getElem?_of_mem hb
    have hlt := (List.getElem?_eq_some_iff.1 hi).1
    obtain ⟨q, hq⟩ : ∃ q, (instances (c.body.map Prod.fst))[i]? = some q :=
      ⟨_, List.getElem?_eq_getElem (by rw [instances_length]; simpa using hlt)⟩
    have hqb : q.1 = b.1 := by
      have := congrArg (·[i]?) (instances_fst (c.body.map Prod.fst))
      simp only [List.getElem?_map, hq, hi, Option.map_some, Option.some.injEq] at this
      exact this
    obtain ⟨nv, hz⟩ := zip_snd (xs := R.srcVars q.1 q.2) (by simp [PRepr.srcVars, har.2 b hb, hqb]) ht
    refine .inr ⟨nv, t, ?_, hx⟩
    rw [clauseEqs_eq]
    refine List.mem_append_right _ (List.mem_flatMap.2 ⟨(q, b), List.mem_of_getElem? (i := i) ?_, hz⟩)
    rw [List.getElem?_zip_eq_some]
    exact ⟨hq, hi⟩

/-- Every variable of the clause is an argument or a local variable. -/
theorem var_covered {R : PRepr} {c : Clause T} (hu : c.User) (har : c.ArityOk R) {x : Var} (h : x ∈ c.vars) :
    (∃ nv, (nv, .var x) ∈ clauseEqs R c) ∨ x ∈ locals R c := by
  have hun := hu x h
  have hspec := processEqs_spec (clauseEqs R c)
  generalize hσE : processEqs (clauseEqs R c) [] [] = σE at hspec
  obtain ⟨σ, E⟩ := σE
  simp only at hspec
  have hbody : normalizedBody R c =
      varSubstitute (if E.isEmpty then c.constraint else .and c.constraint (Fla.conj E)) σ := by
    simp only [normalizedBody, hσE]
  generalize hpre : (if E.isEmpty then c.constraint else .and c.constraint (Fla.conj E)) = pre at hbody
  have key : x ∈ pre.vars → (∃ nv, (nv, .var x) ∈ clauseEqs R c) ∨ x ∈ locals R c := by
    intro hx
    cases hf : σ.find x with
    | some t =>
      obtain ⟨nv, rfl, hm⟩ := hspec.keys _ _ (SubstMap.find_some_mem hf)
      exact .inl ⟨nv, hm⟩
    | none =>
      right
      rw [locals, localVars, mem_dedup, List.mem_filter]
      refine ⟨?_, ?_⟩
      · rw [hbody]
        unfold varSubstitute
        rw [Fla.mem_vars_subst]
        exact ⟨_, hx, by simp [SubstMap.fn, hf, Tm.vars]⟩
      · simp only [decide_eq_true_eq]
        intro hp
        rcases predicateVars_kind hp with ⟨n, e'⟩ | ⟨n, i, e'⟩ <;> (rw [e'] at hun; exact hun.elim)
  rcases arg_eq har h with hc | ⟨nv, arg, hm, hx⟩
  · refine key ?_
    rw [← hpre]; split
    · exact hc
    · simp [Fla.vars, hc]
  · rcases hspec.covered nv arg hm with ⟨y, rfl, _⟩ | ⟨y, v, rfl, _, _⟩ | hE
    · simp only [Tm.vars, List.mem_singleton] at hx
      exact .inl ⟨nv, hx ▸ hm⟩
    · simp only [Tm.vars, List.mem_singleton] at hx
      exact .inl ⟨nv, hx ▸ hm⟩
    · refine key ?_
      rw [← hpre]; split
      · rename_i he
        have : E = [] := by simpa using he
        rw [this] at hE; cases hE
      · simp only [Fla.vars, List.mem_append, Fla.mem_vars_conj]
        exact .inr ⟨_, hE, by simp [Fla.vars, hx]⟩

/-! ### The loops -/

theorem lookup_isSome_mem {β : Type} {l : List (Var × β)} {x : Var} : (l.lookup x).isSome = true ↔ ∃ v, (x, v) ∈ l := by
  induction l with
  | nil => simp [List.lookup]
  | cons p l ih =>
    obtain ⟨y, w⟩ := p
    by_cases h : x = y
    · subst h
      simp [List.lookup]
    · have : (x == y) = false := by simpa using h
      simp only [List.lookup, this, ih, List.mem_cons, Prod.mk.injEq, h, false_and, false_or]

theorem lookup_some_mem {β : Type} {l : List (Var × β)} {x : Var} {v : β} (h : l.lookup x = some v) : (x, v) ∈ l := by
  induction l with
  | nil => simp [List.lookup] at h
  | cons p l ih =>
    obtain ⟨y, w⟩ := p
    by_cases hxy : x = y
    · subst hxy
      simp [List.lookup] at h
      simp [h]
    · have : (x == y) = false := by simpa using hxy
      simp only [List.lookup, this] at h
      exact List.mem_cons_of_mem _ (ih h)

/-- What has been recorded after the equalities in `ps` have been looked at. -/
structure Recorded (ρ : Valuation T) (ps : NEq T → Prop) (st : IPairs T) : Prop where
  val : ∀ p ∈ st.after, p.2 = ρ p.1 ∧ ∃ t, ps (p.1, t)
  all : ∀ v t, ps (v, t) → ∃ w, (v, w) ∈ st.after
  orig : ∀ p ∈ st.before, ∃ nv, ps (nv, .var p.1) ∧ p.2 = ρ nv
  origAll : ∀ v x, ps (v, .var x) → ∃ w, (x, w) ∈ st.before

theorem Recorded.congr {ρ : Valuation T} {ps qs : NEq T → Prop} {st : IPairs T} (h : Recorded ρ ps st) (hpq : ∀ e, ps e ↔ qs e) :
    Recorded ρ qs st := by
  rw [show qs = ps from funext fun e => propext (hpq e).symm]
  exact h

theorem recorded_one {ρ : Valuation T} {ps : NEq T → Prop} {st : IPairs T} (h : Recorded ρ ps st) (nv : Var) (t : Tm T) :
    Recorded ρ (fun e => ps e ∨ e = (nv, t)) (({ st with after := st.after ++ [(nv, ρ nv)] } : IPairs T).note t (ρ nv)) := by
  have hval : ∀ p ∈ st.after ++ [(nv, ρ nv)], p.2 = ρ p.1 ∧ ∃ u, ps (p.1, u) ∨ (p.1, u) = (nv, t) := by
    intro p hp
    rcases List.mem_append.1 hp with hp | hp
    · obtain ⟨h1, u, h2⟩ := h.val p hp
      exact ⟨h1, u, .inl h2⟩
    · rw [List.mem_singleton] at hp
      subst hp
      exact ⟨rfl, t, .inr rfl⟩
  have hall : ∀ v u, (ps (v, u) ∨ (v, u) = (nv, t)) → ∃ w, (v, w) ∈ st.after ++ [(nv, ρ nv)] := by
    intro v u hv
    rcases hv with hv | hv
    · obtain ⟨w, hw⟩ := h.all v u hv
      exact ⟨w, List.mem_append_left _ hw⟩
    · cases hv
      exact ⟨_, List.mem_append_right _ (List.mem_singleton.2 rfl)⟩
  have horig : ∀ p ∈ st.before, ∃ v, (ps (v, .var p.1) ∨ (v, Tm.var p.1) = (nv, t)) ∧ p.2 = ρ v := by
    intro p hp
    obtain ⟨v, h1, h2⟩ := h.orig p hp
    exact ⟨v, .inl h1, h2⟩
  unfold IPairs.note
  split
  · rename_i x
    split
    · rename_i hs
      obtain ⟨w, hw⟩ := lookup_isSome_mem.1 hs
      refine ⟨hval, hall, horig, fun v y hv => ?_⟩
      rcases hv with hv | hv
      · exact h.origAll v y hv
      · cases hv; exact ⟨w, hw⟩
    · refine ⟨hval, hall, fun p hp => ?_, fun v y hv => ?_⟩
      · rcases List.mem_append.1 hp with hp | hp
        · exact horig p hp
        · rw [List.mem_singleton] at hp
          subst hp
          exact ⟨nv, .inr rfl, rfl⟩
      · rcases hv with hv | hv
        · obtain ⟨w, hw⟩ := h.origAll v y hv
          exact ⟨w, List.mem_append_left _ hw⟩
        · cases hv
          exact ⟨_, List.mem_append_right _ (List.mem_singleton.2 rfl)⟩
  · rename_i hnv
    refine ⟨hval, hall, horig, fun v y hv => ?_⟩
    rcases hv with hv | hv
    · exact h.origAll v y hv
    · cases hv; exact absurd rfl (hnv y)

theorem recorded_arg {ρ : Valuation T} : ∀ (eqs : List (NEq T)) {ps : NEq T → Prop} {st : IPairs T}, Recorded ρ ps st → ∀ v,
    Recorded ρ (fun e => ps e ∨ (e ∈ eqs ∧ e.1 = v)) (IPairs.arg eqs v (ρ v) st)
  | [], ps, st, h, v => by
    simp only [IPairs.arg]
    exact h.congr fun e => by simp
  | (nv, t) :: eqs, ps, st, h, v => by
    simp only [IPairs.arg]
    split
    · rename_i he
      subst he
      refine (recorded_arg eqs (recorded_one h nv t) nv).congr fun e => ?_
      constructor
      · rintro ((h1 | h1) | ⟨h1, h2⟩)
        · exact .inl h1
        · exact .inr ⟨by rw [h1]; exact List.mem_cons_self, by rw [h1]⟩
        · exact .inr ⟨List.mem_cons_of_mem _ h1, h2⟩
      · rintro (h1 | ⟨h1, h2⟩)
        · exact .inl (.inl h1)
        · rcases List.mem_cons.1 h1 with h1 | h1
          · exact .inl (.inr h1)
          · exact .inr ⟨h1, h2⟩
    · rename_i he
      refine (recorded_arg eqs h v).congr fun e => ?_
      constructor
      · rintro (h1 | ⟨h1, h2⟩)
        · exact .inl h1
        · exact .inr ⟨List.mem_cons_of_mem _ h1, h2⟩
      · rintro (h1 | ⟨h1, h2⟩)
        · exact .inl h1
        · rcases List.mem_cons.1 h1 with h1 | h1
          · rw [h1] at h2; exact absurd h2 he
          · exact .inr ⟨h1, h2⟩

theorem recorded_args {ρ : Valuation T} (eqs : List (NEq T)) : ∀ (vs : List Var) {ps : NEq T → Prop} {st : IPairs T}, Recorded ρ ps st →
    ∃ st', IPairs.args eqs vs (vs.map ρ) st = some st' ∧ Recorded ρ (fun e => ps e ∨ (e ∈ eqs ∧ e.1 ∈ vs)) st'
  | [], ps, st, h => ⟨st, by simp only [List.map_nil, IPairs.args], h.congr fun e => by simp⟩
  | v :: vs, ps, st, h => by
    obtain ⟨st', h1, h2⟩ := recorded_args eqs vs (recorded_arg eqs h v)
    refine ⟨st', by simp only [List.map_cons, IPairs.args]; exact h1, h2.congr fun e => ?_⟩
    rw [List.mem_cons]
    constructor
    · rintro ((h1 | ⟨h1, h2⟩) | ⟨h1, h2⟩)
      · exact .inl h1
      · exact .inr ⟨h1, .inl h2⟩
      · exact .inr ⟨h1, .inr h2⟩
    · rintro (h1 | ⟨h1, h2 | h2⟩)
      · exact .inl (.inl h1)
      · exact .inl (.inr ⟨h1, h2⟩)
      · exact .inr ⟨h1, h2⟩

theorem recorded_premises {ρ : Valuation T} (R : PRepr) (eqs : List (NEq T)) : ∀ (qs : List (Pred × Nat)) {ps : NEq T → Prop} {st : IPairs T},
    Recorded ρ ps st → ∃ st', IPairs.premises R eqs qs (qs.map fun q => (q.1, (R.srcVars q.1 q.2).map ρ)) st = some st' ∧
      Recorded ρ (fun e => ps e ∨ (e ∈ eqs ∧ e.1 ∈ R.keys qs)) st'
  | [], ps, st, h => ⟨st, by simp only [List.map_nil, IPairs.premises], h.congr fun e => by simp [PRepr.keys]⟩
  | q :: qs, ps, st, h => by
    obtain ⟨st1, h1, h2⟩ := recorded_args eqs (R.srcVars q.1 q.2) h
    obtain ⟨st', h3, h4⟩ := recorded_premises R eqs qs h2
    refine ⟨st', by simp only [List.map_cons, IPairs.premises, h1]; exact h3, h4.congr fun e => ?_⟩
    simp only [PRepr.keys, List.flatMap_cons, List.mem_append]
    constructor
    · rintro ((h1 | ⟨h1, h2⟩) | ⟨h1, h2⟩)
      · exact .inl h1
      · exact .inr ⟨h1, .inl h2⟩
      · exact .inr ⟨h1, .inr h2⟩
    · rintro (h1 | ⟨h1, h2 | h2⟩)
      · exact .inl (.inl h1)
      · exact .inl (.inr ⟨h1, h2⟩)
      · exact .inr ⟨h1, h2⟩

theorem note_before (st : IPairs T) (t : Tm T) (w : T.Val) :
    (∀ p ∈ (st.note t w).before, p ∈ st.before ∨ (t = .var p.1 ∧ p.2 = w)) ∧ (∀ p ∈ st.before, p ∈ (st.note t w).before) ∧
    ∀ x, t = .var x → ∃ u, (x, u) ∈ (st.note t w).before := by
  unfold IPairs.note
  split
  · rename_i x
    split
    · rename_i hs
      refine ⟨fun p hp => .inl hp, fun p hp => hp, fun y hy => ?_⟩
      cases hy
      exact lookup_isSome_mem.1 hs
    · refine ⟨fun p hp => ?_, fun p hp => List.mem_append_left _ hp, fun y hy => ?_⟩
      · rcases List.mem_append.1 hp with hp | hp
        · exact .inl hp
        · rw [List.mem_singleton] at hp
          subst hp
          exact .inr ⟨rfl, rfl⟩
      · cases hy
        exact ⟨w, List.mem_append_right _ (List.mem_singleton.2 rfl)⟩
  · rename_i h
    exact ⟨fun p hp => .inl hp, fun p hp => hp, fun y hy => absurd hy (h y)⟩

theorem auxs_ok {eqs : List (NEq T)} {M : Valuation T} : ∀ (vs : List Var) (st : IPairs T),
    (∀ v ∈ vs, ∃ e, eqs.find? (fun e => decide (e.1 = v)) = some e) → ∃ st', IPairs.auxs eqs M vs st = some st' ∧
      (∀ p ∈ st'.before, p ∈ st.before ∨ ∃ v ∈ vs, eqs.find? (fun e => decide (e.1 = v)) = some (v, .var p.1) ∧ p.2 = M v) ∧
      (∀ p ∈ st.before, p ∈ st'.before) ∧
      ∀ v ∈ vs, ∀ x, eqs.find? (fun e => decide (e.1 = v)) = some (v, .var x) → ∃ u, (x, u) ∈ st'.before
  | [], st, _ => ⟨st, rfl, fun p hp => .inl hp, fun p hp => hp, fun v hv => absurd hv List.not_mem_nil⟩
  | v :: vs, st, h => by
    obtain ⟨e, he⟩ := h v List.mem_cons_self
    have hev : e.1 = v := by simpa using List.find?_some he
    obtain ⟨n1, n2, n3⟩ := note_before st e.2 (M v)
    obtain ⟨st', h1, h2, h3, h4⟩ := auxs_ok vs (st.note e.2 (M v)) fun w hw => h w (List.mem_cons_of_mem _ hw)
    refine ⟨st', by simp only [IPairs.auxs, he]; exact h1, fun p hp => ?_, fun p hp => h3 p (n2 p hp), fun w hw x hx => ?_⟩
    · rcases h2 p hp with h5 | ⟨w, hw, h5⟩
      · rcases n1 p h5 with h6 | ⟨h6, h7⟩
        · exact .inl h6
        · refine .inr ⟨v, List.mem_cons_self, ?_, h7⟩
          rw [he, ← h6, ← hev]
      · exact .inr ⟨w, List.mem_cons_of_mem _ hw, h5⟩
    · rcases List.mem_cons.1 hw with rfl | hw
      · rw [he] at hx
        cases hx
        obtain ⟨u, hu⟩ := n3 x rfl
        exact ⟨u, h3 _ hu⟩
      · exact h4 w hw x hx

theorem auxEqs_mem {k : Nat} {xs : List Var} {e : NEq T} (h : e ∈ auxEqs k xs) : ∃ (i : Nat) (x : Var), xs[i]? = some x ∧ e = (.ver (.aux (k + i)) 0, .var x) := by
  induction xs generalizing k with
  | nil => simp [auxEqs] at h
  | cons y ys ih =>
    simp only [auxEqs, List.mem_cons] at h
    rcases h with h | h
    · exact ⟨0, y, rfl, by rw [h]; rfl⟩
    · obtain ⟨i, x, h1, h2⟩ := ih h
      exact ⟨i + 1, x, by simpa using h1, by rw [h2, show k + 1 + i = k + (i + 1) by omega]⟩

theorem auxEqs_find {k : Nat} {xs : List Var} {i : Nat} {x : Var} (h : xs[i]? = some x) :
    (auxEqs (T := T) k xs).find? (fun e => decide (e.1 = .ver (.aux (k + i)) 0)) = some (.ver (.aux (k + i)) 0, .var x) := by
  induction xs generalizing k i with
  | nil => simp at h
  | cons y ys ih =>
    cases i with
    | zero => simp at h; subst h; simp [auxEqs]
    | succ i =>
      simp at h
      have := ih (k := k + 1) h
      rw [show k + 1 + i = k + (i + 1) by omega] at this
      simp only [auxEqs, List.find?_cons]
      have hne : decide (Var.ver (Name.aux k) 0 = Var.ver (Name.aux (k + (i + 1))) 0) = false := by
        simp
      rw [hne]
      exact this

/-- The equality of an auxiliary variable. -/
theorem normalizingEqs_find {R : PRepr} {k : Nat} {c : Clause T} (har : c.ArityOk R) {i : Nat} {x : Var} (h : (locals R c)[i]? = some x) :
    (normalizingEqs R k c).find? (fun e => decide (e.1 = .ver (.aux (k + i)) 0)) = some (.ver (.aux (k + i)) 0, .var x) := by
  rw [normalizingEqs, List.find?_append, List.find?_eq_none.2, Option.none_or]
  · exact auxEqs_find h
  · intro e he
    have : e.1 ∈ predicateVars R c := by rw [← clauseEqs_fst har]; exact List.mem_map_of_mem he
    simp only [decide_eq_true_eq]
    intro e'
    rw [e'] at this
    rcases predicateVars_kind this with ⟨n, h'⟩ | ⟨n, j, h'⟩ <;> cases h'

theorem normalizingEqs_pred {R : PRepr} {k : Nat} {c : Clause T} (har : c.ArityOk R) (e : NEq T) :
    (e ∈ normalizingEqs R k c ∧ e.1 ∈ predicateVars R c) ↔ e ∈ clauseEqs R c := by
  rw [normalizingEqs, List.mem_append]
  constructor
  · rintro ⟨h | h, hp⟩
    · exact h
    · obtain ⟨i, x, -, rfl⟩ := auxEqs_mem h
      rcases predicateVars_kind hp with ⟨n, h'⟩ | ⟨n, j, h'⟩ <;> cases h'
  · exact fun h => ⟨.inl h, by rw [← clauseEqs_fst har]; exact List.mem_map_of_mem h⟩

end Golem
