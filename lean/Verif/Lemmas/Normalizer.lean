import Verif.Model.Normalizer
import Verif.Lemmas.Graph

namespace Golem
variable {T : Theory}

theorem mem_dedup {α : Type} [DecidableEq α] {l : List α} {x : α} : x ∈ dedup l ↔ x ∈ l := by
  induction l with
  | nil => simp [dedup]
  | cons y ys ih =>
    simp only [dedup]
    split
    · rename_i h
      rw [ih]
      constructor
      · intro hx; exact List.mem_cons_of_mem _ hx
      · intro hx
        rcases List.mem_cons.1 hx with hx | hx
        · exact hx ▸ h
        · exact hx
    · simp [ih]

theorem dedup_nodup {α : Type} [DecidableEq α] (l : List α) : (dedup l).Nodup := by
  induction l with
  | nil => simp [dedup]
  | cons y ys ih =>
    simp only [dedup]
    split
    · exact ih
    · rename_i h; rw [List.nodup_cons]; exact ⟨fun hm => h (mem_dedup.1 hm), ih⟩

/-! ### `processEqs` -/

/-- What the loop over the equalities establishes. -/
structure EqsDone (eqs : List (NEq T)) (σ : SubstMap T) (E : List (Fla T)) : Prop where
  /-- substitutions come from variable arguments -/
  keys : ∀ x t, (x, t) ∈ σ → ∃ nv, t = .var nv ∧ (nv, .var x) ∈ eqs
  /-- every emitted equality comes from an argument -/
  eqs_from : ∀ f ∈ E, ∃ nv arg v, f = .eq (.var nv) v ∧ (nv, arg) ∈ eqs ∧
    (v = arg ∨ ∃ x, arg = .var x ∧ σ.find x = some v)
  /-- every argument is covered -/
  covered : ∀ nv arg, (nv, arg) ∈ eqs →
    (∃ x, arg = .var x ∧ σ.find x = some (.var nv)) ∨
    (∃ x v, arg = .var x ∧ σ.find x = some v ∧ Fla.eq (.var nv) v ∈ E) ∨ Fla.eq (.var nv) arg ∈ E

theorem find_append_some {m m' : SubstMap T} {x : Var} {t : Tm T} (h : m.find x = some t) :
    SubstMap.find (m ++ m') x = some t := by
  rw [SubstMap.find_append, h]; rfl

theorem find_append_none {m : SubstMap T} {x : Var} {t : Tm T} (h : m.find x = none) :
    SubstMap.find (m ++ [(x, t)]) x = some t := by
  rw [SubstMap.find_append, h]; simp [SubstMap.find, List.lookup]

theorem processEqs_done (rest done : List (NEq T)) (σ : SubstMap T) (E : List (Fla T)) (h : EqsDone done σ E) :
    EqsDone (done ++ rest) (processEqs rest σ E).1 (processEqs rest σ E).2 := by
  induction rest generalizing done σ E with
  | nil => simpa [processEqs] using h
  | cons p rest ih =>
    obtain ⟨nv, arg⟩ := p
    have hap : done ++ (nv, arg) :: rest = (done ++ [(nv, arg)]) ++ rest := by simp
    rw [hap]
    have nonvar : EqsDone (done ++ [(nv, arg)]) σ (E ++ [.eq (.var nv) arg]) := by
      refine ⟨?_, ?_, ?_⟩
      · intro x t hx
        obtain ⟨nv', h1, h2⟩ := h.keys x t hx
        exact ⟨nv', h1, by simp [h2]⟩
      · intro f hf
        rcases List.mem_append.1 hf with hf | hf
        · obtain ⟨nv', arg', v, h1, h2, h3⟩ := h.eqs_from f hf
          exact ⟨nv', arg', v, h1, by simp [h2], h3⟩
        · simp at hf
          exact ⟨nv, arg, arg, hf, by simp, Or.inl rfl⟩
      · intro nv' arg' hm
        rcases List.mem_append.1 hm with hm | hm
        · rcases h.covered nv' arg' hm with h1 | ⟨x, v, h1, h2, h3⟩ | h1
          · exact Or.inl h1
          · exact Or.inr (Or.inl ⟨x, v, h1, h2, by simp [h3]⟩)
          · exact Or.inr (Or.inr (by simp [h1]))
        · simp at hm
          obtain ⟨rfl, rfl⟩ := hm
          exact Or.inr (Or.inr (by simp))
    cases arg with
    | var x =>
      simp only [processEqs]
      cases hx : σ.find x with
      | none =>
        apply ih
        refine ⟨?_, ?_, ?_⟩
        · intro y t hy
          rcases List.mem_append.1 hy with hy | hy
          · obtain ⟨nv', h1, h2⟩ := h.keys y t hy
            exact ⟨nv', h1, by simp [h2]⟩
          · simp at hy; obtain ⟨rfl, rfl⟩ := hy
            exact ⟨nv, rfl, by simp⟩
        · intro f hf
          obtain ⟨nv', arg', v, h1, h2, h3⟩ := h.eqs_from f hf
          refine ⟨nv', arg', v, h1, by simp [h2], ?_⟩
          rcases h3 with h3 | ⟨y, h3, h4⟩
          · exact Or.inl h3
          · exact Or.inr ⟨y, h3, find_append_some h4⟩
        · intro nv' arg' hm
          rcases List.mem_append.1 hm with hm | hm
          · rcases h.covered nv' arg' hm with ⟨y, h1, h2⟩ | ⟨y, v, h1, h2, h3⟩ | h1
            · exact Or.inl ⟨y, h1, find_append_some h2⟩
            · exact Or.inr (Or.inl ⟨y, v, h1, find_append_some h2, h3⟩)
            · exact Or.inr (Or.inr h1)
          · simp at hm
            obtain ⟨rfl, rfl⟩ := hm
            exact Or.inl ⟨x, rfl, find_append_none hx⟩
      | some v =>
        apply ih
        refine ⟨?_, ?_, ?_⟩
        · intro y t hy
          obtain ⟨nv', h1, h2⟩ := h.keys y t hy
          exact ⟨nv', h1, by simp [h2]⟩
        · intro f hf
          rcases List.mem_append.1 hf with hf | hf
          · obtain ⟨nv', arg', v, h1, h2, h3⟩ := h.eqs_from f hf
            exact ⟨nv', arg', v, h1, by simp [h2], h3⟩
          · simp at hf
            exact ⟨nv, .var x, v, hf, by simp, Or.inr ⟨x, rfl, hx⟩⟩
        · intro nv' arg' hm
          rcases List.mem_append.1 hm with hm | hm
          · rcases h.covered nv' arg' hm with h1 | ⟨y, v, h1, h2, h3⟩ | h1
            · exact Or.inl h1
            · exact Or.inr (Or.inl ⟨y, v, h1, h2, by simp [h3]⟩)
            · exact Or.inr (Or.inr (by simp [h1]))
          · simp at hm
            obtain ⟨rfl, rfl⟩ := hm
            exact Or.inr (Or.inl ⟨x, v, rfl, hx, by simp⟩)
    | const v => simpa only [processEqs] using ih _ _ _ nonvar
    | ap1 f a => simpa only [processEqs] using ih _ _ _ nonvar
    | ap2 f a b => simpa only [processEqs] using ih _ _ _ nonvar
    | ap3 f a b c => simpa only [processEqs] using ih _ _ _ nonvar

theorem processEqs_spec (eqs : List (NEq T)) :
    EqsDone eqs (processEqs eqs [] []).1 (processEqs eqs [] []).2 := by
  have := processEqs_done eqs [] [] [] ⟨by simp, by simp, by simp⟩
  simpa using this

/-! ### auxiliary variables -/

theorem auxSubst_keys (k : Nat) (xs : List Var) : (auxSubst (T := T) k xs).map Prod.fst = xs := by
  induction xs generalizing k with
  | nil => rfl
  | cons x xs ih => simp [auxSubst, ih]

theorem auxSubst_mem {k : Nat} {xs : List Var} {x : Var} {t : Tm T} (h : (x, t) ∈ auxSubst k xs) :
    ∃ j, k ≤ j ∧ j < k + xs.length ∧ t = .var (.ver (.aux j) 0) ∧ xs[j - k]? = some x := by
  induction xs generalizing k with
  | nil => simp [auxSubst] at h
  | cons y ys ih =>
    simp only [auxSubst, List.mem_cons] at h
    rcases h with h | h
    · cases h; exact ⟨k, Nat.le_refl _, by simp, rfl, by simp⟩
    · obtain ⟨j, h1, h2, h3, h4⟩ := ih h
      refine ⟨j, by omega, by simp; omega, h3, ?_⟩
      have : j - k = (j - (k + 1)) + 1 := by omega
      rw [this]; simpa using h4

theorem auxSubst_find {k : Nat} {xs : List Var} (hn : xs.Nodup) {i : Nat} {x : Var} (h : xs[i]? = some x) :
    (auxSubst (T := T) k xs).fn x = .var (.ver (.aux (k + i)) 0) := by
  apply SubstMap.fn_of_mem
  · rw [auxSubst_keys]; exact hn
  · clear hn
    induction xs generalizing k i with
    | nil => simp at h
    | cons y ys ih =>
      cases i with
      | zero => simp at h; subst h; simp [auxSubst]
      | succ i =>
        simp at h
        have := ih (k := k + 1) h
        simp only [auxSubst, List.mem_cons]
        right
        have e : k + 1 + i = k + (i + 1) := by omega
        rw [← e]; exact this

theorem auxSubst_fn_not_mem {k : Nat} {xs : List Var} {x : Var} (h : x ∉ xs) :
    (auxSubst (T := T) k xs).fn x = .var x := by
  unfold SubstMap.fn
  rw [SubstMap.find_none]
  · rfl
  · intro p hp e
    apply h
    rw [← auxSubst_keys (T := T) k xs, ← e]
    exact List.mem_map_of_mem hp


/-! ### One clause -/

/-- Variables of a clause. -/
def Clause.vars (c : Clause T) : List Var :=
  c.constraint.vars ++ (c.head.2.flatMap Tm.vars ++ c.body.flatMap fun a => a.2.flatMap Tm.vars)

/-- Not one of the tagged variables (`x#k__s##i`, `x#k__t`) that only the canonical representation creates. -/
def Var.Untagged : Var → Prop
  | .src _ _ => False
  | .tgt _ => False
  | _ => True

/-- The variables of an input clause are not the tagged argument variables the normalizer itself introduces. They may be
user names or versioned names such as the state variables of a transition system (`src/termination/LassoDetector.cc:45-95`
feeds those to a second normalizer). -/
def Clause.User (c : Clause T) : Prop := ∀ x ∈ c.vars, x.Untagged

def Clause.ArityOk (R : PRepr) (c : Clause T) : Prop :=
  c.head.2.length = (R.args c.head.1).length ∧ ∀ a ∈ c.body, a.2.length = (R.args a.1).length

theorem map_of_zip {μ : Valuation T} {ρ : Valuation T} {xs : List Var} {ts : List (Tm T)} (hl : xs.length = ts.length)
    (h : ∀ p ∈ List.zip xs ts, μ p.1 = p.2.eval ρ) : xs.map μ = ts.map (Tm.eval ρ) := by
  induction xs generalizing ts with
  | nil => cases ts <;> simp_all
  | cons x xs ih =>
    cases ts with
    | nil => simp at hl
    | cons t ts =>
      simp only [List.zip_cons_cons, List.mem_cons] at h
      simp only [List.map_cons]
      rw [ih (by simpa using hl) (fun p hp => h p (Or.inr hp)), h (x, t) (Or.inl rfl)]

/-- The body part of `clauseEqs`. -/
def bodyEqs (R : PRepr) (qs : List (Pred × Nat)) (body : List (PAtom T)) : List (NEq T) :=
  (List.zip qs body).flatMap fun (q, a) => List.zip (R.srcVars q.1 q.2) a.2

theorem body_of_zip {R : PRepr} {μ ρ : Valuation T} {qs : List (Pred × Nat)} {body : List (PAtom T)}
    (hf : qs.map Prod.fst = body.map Prod.fst) (har : ∀ a ∈ body, a.2.length = (R.args a.1).length)
    (h : ∀ p ∈ bodyEqs R qs body, μ p.1 = p.2.eval ρ) :
    qs.map (fun q => (q.1, (R.srcVars q.1 q.2).map μ)) = body.map (PAtom.ground ρ) := by
  induction qs generalizing body with
  | nil => cases body <;> simp_all
  | cons q qs ih =>
    cases body with
    | nil => simp at hf
    | cons a body =>
      simp only [List.map_cons, List.cons.injEq] at hf
      simp only [bodyEqs, List.zip_cons_cons, List.flatMap_cons, List.mem_append] at h
      simp only [List.map_cons]
      rw [ih hf.2 (fun a ha => har a (List.mem_cons_of_mem _ ha)) (fun p hp => h p (Or.inr hp))]
      congr 1
      simp only [PAtom.ground]
      rw [map_of_zip (μ := μ) (ρ := ρ) (xs := R.srcVars q.1 q.2) (ts := a.2) ?_ (fun p hp => h p (Or.inl hp)), hf.1]
      have := har a (by simp)
      simp [PRepr.srcVars, this, hf.1]

theorem bodyEqs_fst {R : PRepr} {qs : List (Pred × Nat)} {body : List (PAtom T)}
    (hf : qs.map Prod.fst = body.map Prod.fst) (har : ∀ a ∈ body, a.2.length = (R.args a.1).length) :
    (bodyEqs R qs body).map Prod.fst = R.keys qs := by
  induction qs generalizing body with
  | nil => cases body <;> simp_all [bodyEqs, PRepr.keys]
  | cons q qs ih =>
    cases body with
    | nil => simp at hf
    | cons a body =>
      simp only [List.map_cons, List.cons.injEq] at hf
      have h1 := ih hf.2 (fun a ha => har a (List.mem_cons_of_mem _ ha))
      simp only [bodyEqs, List.zip_cons_cons, List.flatMap_cons, List.map_append, PRepr.keys] at h1 ⊢
      rw [h1, List.map_fst_zip]
      have := har a (by simp)
      simp [PRepr.srcVars, this, hf.1]

theorem clauseEqs_eq (R : PRepr) (c : Clause T) : clauseEqs R c =
    List.zip (R.tgtVars c.head.1) c.head.2 ++ bodyEqs R (instances (c.body.map Prod.fst)) c.body := rfl

theorem clauseEqs_fst {R : PRepr} {c : Clause T} (har : c.ArityOk R) :
    (clauseEqs R c).map Prod.fst = predicateVars R c := by
  rw [clauseEqs_eq, List.map_append, bodyEqs_fst (instances_fst _) har.2, List.map_fst_zip]
  · rfl
  · simp [PRepr.tgtVars, har.1]

theorem predicateVars_nodup {R : PRepr} (hR : R.WF) (c : Clause T) : (predicateVars R c).Nodup := by
  unfold predicateVars
  rw [List.nodup_append]
  refine ⟨R.tgtVars_nodup hR _, R.keys_nodup hR (instances_nodup _), ?_⟩
  intro a ha b hb hab
  subst hab
  obtain ⟨n, _, rfl⟩ := R.mem_tgtVars.1 ha
  simp only [PRepr.keys, List.mem_flatMap] at hb
  obtain ⟨q, _, hb⟩ := hb
  obtain ⟨_, _, e⟩ := R.mem_srcVars.1 hb
  cases e

theorem predicateVars_kind {R : PRepr} {c : Clause T} {x : Var} (h : x ∈ predicateVars R c) :
    (∃ n, x = .tgt n) ∨ (∃ n i, x = .src n i) := by
  simp only [predicateVars, List.mem_append, PRepr.keys, List.mem_flatMap] at h
  rcases h with h | ⟨q, _, h⟩
  · obtain ⟨n, _, e⟩ := R.mem_tgtVars.1 h; exact Or.inl ⟨n, e⟩
  · obtain ⟨n, _, e⟩ := R.mem_srcVars.1 h; exact Or.inr ⟨n, _, e⟩

theorem mem_zip_snd {α β : Type} {xs : List α} {ys : List β} {p : α × β} (h : p ∈ List.zip xs ys) : p.2 ∈ ys := by
  obtain ⟨a, b⟩ := p; exact (List.of_mem_zip h).2

/-- Arguments in `clauseEqs` are arguments of the clause. -/
theorem clauseEqs_vars {R : PRepr} {c : Clause T} {p : NEq T} (h : p ∈ clauseEqs R c) {x : Var} (hx : x ∈ p.2.vars) :
    x ∈ c.vars := by
  simp only [Clause.vars, List.mem_append, List.mem_flatMap]
  right
  rw [clauseEqs_eq] at h
  rcases List.mem_append.1 h with h | h
  · exact Or.inl ⟨p.2, mem_zip_snd h, hx⟩
  · right
    simp only [bodyEqs, List.mem_flatMap] at h
    obtain ⟨⟨q, a⟩, hz, h⟩ := h
    exact ⟨a, mem_zip_snd hz, p.2, mem_zip_snd h, hx⟩

/-- Relation between the valuation of the normalized clause and that of the original. -/
theorem normClause_rules {R : PRepr} (hR : R.WF) (k : Nat) {c : Clause T} (hu : c.User) (har : c.ArityOk R)
    (r : GRule T) :
    (∃ ρ : Valuation T, c.constraint.holds ρ ∧ r = ⟨c.body.map (PAtom.ground ρ), PAtom.ground ρ c.head⟩) ↔
    (∃ ρ : Valuation T, (normClauseWith R k c).constraint.holds ρ ∧
      r = ⟨(normClauseWith R k c).body.map (PAtom.ground ρ), PAtom.ground ρ (normClauseWith R k c).head⟩) := by
  have hspec := processEqs_spec (clauseEqs R c)
  generalize hσE : processEqs (clauseEqs R c) [] [] = σE at hspec
  obtain ⟨σ, E⟩ := σE
  simp only at hspec
  have hbody : normalizedBody R c =
      varSubstitute (if E.isEmpty then c.constraint else .and c.constraint (Fla.conj E)) σ := by
    simp only [normalizedBody, hσE]
  generalize hpre : (if E.isEmpty then c.constraint else .and c.constraint (Fla.conj E)) = pre at hbody
  have hpre_holds : ∀ τ : Valuation T, pre.holds τ ↔ c.constraint.holds τ ∧ ∀ f ∈ E, f.holds τ := by
    intro τ
    rw [← hpre]
    split
    · rename_i hE
      have : E = [] := by simpa using hE
      simp [this]
    · simp
  have hpre_vars1 : ∀ x ∈ c.constraint.vars, x ∈ pre.vars := by
    intro x hx; rw [← hpre]; split
    · exact hx
    · simp [Fla.vars, hx]
  have hpre_vars2 : ∀ f ∈ E, ∀ x ∈ f.vars, x ∈ pre.vars := by
    intro f hf x hx; rw [← hpre]; split
    · rename_i hE
      have : E = [] := by simpa using hE
      simp [this] at hf
    · simp only [Fla.vars, List.mem_append, Fla.mem_vars_conj]
      exact Or.inr ⟨f, hf, hx⟩
  generalize hL : localVars R c (normalizedBody R c) = L
  have hLn : L.Nodup := by rw [← hL]; exact dedup_nodup _
  -- the valuation of `pre` induced by a valuation of the normalized clause
  have hτ : ∀ ρ' : Valuation T, (normClauseWith R k c).constraint.holds ρ' ↔
      pre.holds (fun x => ((σ.fn x).subst (auxSubst k L).fn).eval ρ') := by
    intro ρ'
    simp only [normClauseWith, hL]
    rw [varSubstitute_holds, hbody, varSubstitute_holds]
    apply iff_of_eq
    congr 1
    funext x
    rw [Tm.eval_subst]
  have hmemL : ∀ x, x ∈ L → x ∉ predicateVars R c := by
    intro x hx
    rw [← hL, localVars, mem_dedup, List.mem_filter] at hx
    simpa using hx.2
  -- normalized variables are fixed by both substitutions
  have hnv : ∀ nv arg, (nv, arg) ∈ clauseEqs R c → nv ∈ predicateVars R c := by
    intro nv arg h
    rw [← clauseEqs_fst har]; exact List.mem_map_of_mem (f := Prod.fst) h
  have hσuser : ∀ x t, σ.find x = some t → x.Untagged := by
    intro x t h
    obtain ⟨nv, _, h2⟩ := hspec.keys x t (SubstMap.find_some_mem h)
    exact hu x (clauseEqs_vars h2 (by simp [Tm.vars]))
  have hfix : ∀ (ρ' : Valuation T) nv, nv ∈ predicateVars R c →
      ((σ.fn nv).subst (auxSubst k L).fn).eval ρ' = ρ' nv := by
    intro ρ' nv h
    have h1 : σ.find nv = none := by
      cases hf : σ.find nv with
      | none => rfl
      | some t =>
        have e := hσuser nv t hf
        rcases predicateVars_kind h with ⟨n, e'⟩ | ⟨n, i, e'⟩ <;> (rw [e'] at e; exact e.elim)
    simp only [SubstMap.fn, h1, Option.getD_none, Tm.subst]
    have := auxSubst_fn_not_mem (T := T) (k := k) (xs := L) (x := nv) (fun hm => hmemL nv hm h)
    unfold SubstMap.fn at this
    rw [this]; rfl
  have hkey : ∀ (ρ' : Valuation T) x nv, σ.find x = some (.var nv) → nv ∈ predicateVars R c →
      ((σ.fn x).subst (auxSubst k L).fn).eval ρ' = ρ' nv := by
    intro ρ' x nv h hn
    have hh := hfix ρ' nv hn
    simp only [SubstMap.fn, h, Option.getD_some, Tm.subst]
    have := auxSubst_fn_not_mem (T := T) (k := k) (xs := L) (x := nv) (fun hm => hmemL nv hm hn)
    unfold SubstMap.fn at this
    rw [this]; rfl
  constructor
  · -- original to normalized
    rintro ⟨ρ, hc, rfl⟩
    let ρ' : Valuation T := fun y =>
      match List.lookup y (clauseEqs R c) with
      | some arg => arg.eval ρ
      | none => match y with
        | .ver (.aux j) 0 => ρ ((L[j - k]?).getD y)
        | _ => ρ y
    have hρ'nv : ∀ nv arg, (nv, arg) ∈ clauseEqs R c → ρ' nv = arg.eval ρ := by
      intro nv arg h
      have hl : List.lookup nv (clauseEqs R c) = some arg := by
        have hs := SubstMap.find_isSome_of_mem (m := clauseEqs R c) h
        obtain ⟨t', ht'⟩ := Option.isSome_iff_exists.1 hs
        have hfn := SubstMap.fn_of_mem (m := clauseEqs R c)
          (by rw [clauseEqs_fst har]; exact predicateVars_nodup hR c) h
        unfold SubstMap.fn at hfn
        rw [ht'] at hfn
        simp at hfn; subst hfn
        exact ht'
      simp only [ρ', hl]
    -- the induced valuation agrees with ρ on the clause variables that occur
    have hagree : ∀ x ∈ pre.vars, x.Untagged →
        ((σ.fn x).subst (auxSubst k L).fn).eval ρ' = ρ x := by
      intro x hx hun
      cases hf : σ.find x with
      | some t =>
        obtain ⟨nv, rfl, hm⟩ := hspec.keys _ _ (SubstMap.find_some_mem hf)
        rw [hkey ρ' _ nv hf (hnv _ _ hm), hρ'nv _ _ hm]; rfl
      | none =>
        have hxL : x ∈ L := by
          rw [← hL, localVars, mem_dedup, List.mem_filter]
          refine ⟨?_, ?_⟩
          · rw [hbody]
            unfold varSubstitute
            rw [Fla.mem_vars_subst]
            exact ⟨_, hx, by simp [SubstMap.fn, hf, Tm.vars]⟩
          · simp only [decide_eq_true_eq]
            intro hp
            rcases predicateVars_kind hp with ⟨n, e'⟩ | ⟨n, i, e'⟩ <;> (rw [e'] at hun; exact hun.elim)
        obtain ⟨i, hi⟩ := List.getElem?_of_mem hxL
        have hfn : σ.fn x = .var x := by simp [SubstMap.fn, hf]
        have haux := auxSubst_find (T := T) (k := k) hLn hi
        rw [hfn]
        simp only [Tm.subst, haux, Tm.eval]
        have hnone : List.lookup (Var.ver (.aux (k + i)) 0) (clauseEqs R c) = none := by
          apply SubstMap.find_none (m := clauseEqs R c)
          intro p hp e
          have := hnv p.1 p.2 hp
          rcases predicateVars_kind this with ⟨n, e'⟩ | ⟨n, j, e'⟩ <;> (rw [e] at e'; cases e')
        have hki : k + i - k = i := by omega
        simp only [ρ', hnone, hki, hi, Option.getD_some]
    refine ⟨ρ', ?_, ?_⟩
    · rw [hτ, hpre_holds]
      refine ⟨?_, ?_⟩
      · refine (Fla.holds_congr ?_).2 hc
        intro x hx
        exact hagree x (hpre_vars1 x hx) (hu x (by simp [Clause.vars, hx]))
      · intro f hf
        obtain ⟨nv, arg, v, rfl, hm, hv⟩ := hspec.eqs_from f hf
        show ((σ.fn nv).subst _).eval ρ' = v.eval _
        rw [hfix ρ' nv (hnv _ _ hm), hρ'nv _ _ hm]
        rcases hv with rfl | ⟨x, rfl, hx⟩
        · refine (Tm.eval_congr ?_).symm
          intro x hx
          exact hagree x (hpre_vars2 _ hf x (by simp [Fla.vars, hx])) (hu x (clauseEqs_vars hm hx))
        · obtain ⟨nv2, rfl, hm2⟩ := hspec.keys _ _ (SubstMap.find_some_mem hx)
          show ρ x = ((σ.fn nv2).subst _).eval ρ'
          rw [hfix ρ' nv2 (hnv _ _ hm2), hρ'nv _ _ hm2]; rfl
    · have hb := body_of_zip (R := R) (μ := ρ') (ρ := ρ) (qs := instances (c.body.map Prod.fst)) (body := c.body)
        (instances_fst _) har.2 (fun p hp => hρ'nv p.1 p.2 (by rw [clauseEqs_eq]; simp [hp]))
      have hh := map_of_zip (μ := ρ') (ρ := ρ) (xs := R.tgtVars c.head.1) (ts := c.head.2)
        (by simp [PRepr.tgtVars, har.1]) (fun p hp => hρ'nv p.1 p.2 (by rw [clauseEqs_eq]; simp [hp]))
      simp only [normClauseWith, GRule.mk.injEq, PAtom.ground, List.map_map]
      constructor
      · rw [← hb]
        simp [Function.comp_def, Tm.eval, PAtom.ground]
      · rw [← hh]; simp [Function.comp_def, Tm.eval]
  · -- normalized to original
    rintro ⟨ρ', hc, rfl⟩
    rw [hτ, hpre_holds] at hc
    obtain ⟨hc, hE⟩ := hc
    generalize hτd : (fun x => ((σ.fn x).subst (auxSubst k L).fn).eval ρ') = τ at hc hE
    have hτx : ∀ x, τ x = ((σ.fn x).subst (auxSubst k L).fn).eval ρ' := by intro x; rw [← hτd]
    have hval : ∀ nv arg, (nv, arg) ∈ clauseEqs R c → ρ' nv = arg.eval τ := by
      intro nv arg h
      rcases hspec.covered nv arg h with ⟨x, rfl, hx⟩ | ⟨x, v, rfl, hx, hm⟩ | hm
      · show _ = τ x
        rw [hτx, hkey ρ' x nv hx (hnv _ _ h)]
      · obtain ⟨nv2, rfl, hm2⟩ := hspec.keys _ _ (SubstMap.find_some_mem hx)
        have h1 := hE _ hm
        have h1 : τ nv = τ nv2 := h1
        rw [hτx, hτx, hfix ρ' nv (hnv _ _ h), hfix ρ' nv2 (hnv _ _ hm2)] at h1
        show _ = τ x
        rw [hτx, hkey ρ' x nv2 hx (hnv _ _ hm2), h1]
      · have h1 := hE _ hm
        have h1 : τ nv = arg.eval τ := h1
        rw [← h1, hτx, hfix ρ' nv (hnv _ _ h)]
    refine ⟨τ, hc, ?_⟩
    have hb := body_of_zip (R := R) (μ := ρ') (ρ := τ) (qs := instances (c.body.map Prod.fst)) (body := c.body)
      (instances_fst _) har.2 (fun p hp => hval p.1 p.2 (by rw [clauseEqs_eq]; simp [hp]))
    have hh := map_of_zip (μ := ρ') (ρ := τ) (xs := R.tgtVars c.head.1) (ts := c.head.2)
      (by simp [PRepr.tgtVars, har.1]) (fun p hp => hval p.1 p.2 (by rw [clauseEqs_eq]; simp [hp]))
    simp only [normClauseWith, GRule.mk.injEq, PAtom.ground, List.map_map]
    constructor
    · rw [← hb]
      simp [Function.comp_def, Tm.eval, PAtom.ground]
    · rw [← hh]; simp [Function.comp_def, Tm.eval]


/-! ### The whole system -/

/-- Invariant of the normalizer state for the arities `ar`. -/
structure NState.Inv (ar : Pred → Nat) (st : NState) : Prop where
  tru : List.lookup Pred.tru st.reps = some []
  fls : List.lookup Pred.fls st.reps = some []
  names : ∀ p ns, List.lookup p st.reps = some ns → ∀ n ∈ ns, ∃ k, k < st.counter ∧ n = .pr k
  nodup : ∀ p ns, List.lookup p st.reps = some ns → ns.Nodup
  disj : ∀ p q ns ms, p ≠ q → List.lookup p st.reps = some ns → List.lookup q st.reps = some ms →
    ∀ n, n ∈ ns → n ∉ ms
  arity : ∀ p ns, List.lookup p st.reps = some ns → ns.length = ar p

/-- Later states keep the representations. -/
def NState.Ext (st st' : NState) : Prop :=
  (∀ p ns, List.lookup p st.reps = some ns → List.lookup p st'.reps = some ns) ∧ st.counter ≤ st'.counter

theorem NState.Ext.refl (st : NState) : st.Ext st := ⟨fun _ _ h => h, Nat.le_refl _⟩
theorem NState.Ext.trans {a b c : NState} (h : a.Ext b) (h' : b.Ext c) : a.Ext c :=
  ⟨fun p ns hp => h'.1 p ns (h.1 p ns hp), Nat.le_trans h.2 h'.2⟩

theorem NState.Inv.wf {ar : Pred → Nat} {st : NState} (h : st.Inv ar) : st.repr.WF where
  tru := by simp [NState.repr, h.tru]
  fls := by simp [NState.repr, h.fls]
  nodup p := by
    simp only [NState.repr]
    cases hp : List.lookup p st.reps with
    | none => simp
    | some ns => simpa using h.nodup p ns hp
  disjoint p q hpq n hn := by
    simp only [NState.repr] at hn ⊢
    cases hp : List.lookup p st.reps with
    | none => simp [hp] at hn
    | some ns =>
      cases hq : List.lookup q st.reps with
      | none => simp
      | some ms =>
        simp [hp] at hn
        simpa using h.disj p q ns ms hpq hp hq n hn

theorem NState.init_inv {ar : Pred → Nat} (h1 : ar .tru = 0) (h2 : ar .fls = 0) : NState.init.Inv ar := by
  have key : ∀ p ns, List.lookup p NState.init.reps = some ns → ns = [] ∧ (p = .tru ∨ p = .fls) := by
    intro p ns h
    have := lookup_mem' h
    simp [NState.init] at this
    rcases this with ⟨rfl, rfl⟩ | ⟨rfl, rfl⟩ <;> simp
  refine ⟨rfl, rfl, ?_, ?_, ?_, ?_⟩
  · intro p ns h; simp [(key p ns h).1]
  · intro p ns h; simp [(key p ns h).1]
  · intro p q ns ms _ h; simp [(key p ns h).1]
  · intro p ns h
    rcases key p ns h with ⟨rfl, rfl | rfl⟩ <;> simp [h1, h2]
where
  lookup_mem' {α β : Type} [BEq α] [LawfulBEq α] {l : List (α × β)} {a : α} {b : β}
    (h : List.lookup a l = some b) : (a, b) ∈ l := by
    induction l with
    | nil => simp at h
    | cons p l ih =>
      obtain ⟨k, v⟩ := p
      simp only [List.lookup] at h
      split at h
      · rename_i hb; simp at hb h; subst hb; subst h; simp
      · exact List.mem_cons_of_mem _ (ih h)

theorem lookup_append {α β : Type} [BEq α] (l l' : List (α × β)) (a : α) :
    List.lookup a (l ++ l') = (List.lookup a l).or (List.lookup a l') := by
  induction l with
  | nil => simp
  | cons p l ih =>
    obtain ⟨k, v⟩ := p
    simp only [List.cons_append, List.lookup]
    split <;> simp_all

theorem NState.ensure_spec {ar : Pred → Nat} {st : NState} (h : st.Inv ar) (p : Pred) :
    (st.ensure p (ar p)).Inv ar ∧ st.Ext (st.ensure p (ar p)) ∧
    (List.lookup p (st.ensure p (ar p)).reps).isSome := by
  unfold NState.ensure
  split
  · rename_i ns hns
    exact ⟨h, NState.Ext.refl _, by simp [hns]⟩
  · rename_i hnone
    generalize hnew : ((List.range (ar p)).map fun i => Name.pr (st.counter + i)) = new
    have hlk : ∀ q ns, List.lookup q (st.reps ++ [(p, new)]) = some ns →
        List.lookup q st.reps = some ns ∨ (q = p ∧ ns = new) := by
      intro q ns hq
      rw [lookup_append] at hq
      cases hl : List.lookup q st.reps with
      | some ms => left; rw [hl] at hq; simpa using hq
      | none =>
        right
        rw [hl] at hq
        simp only [Option.none_or, List.lookup] at hq
        split at hq
        · rename_i hb; simp at hb hq; exact ⟨hb, hq.symm⟩
        · simp at hq
    have hnewmem : ∀ n ∈ new, ∃ k, st.counter ≤ k ∧ k < st.counter + ar p ∧ n = .pr k := by
      intro n hn
      rw [← hnew, List.mem_map] at hn
      obtain ⟨i, hi, rfl⟩ := hn
      rw [List.mem_range] at hi
      exact ⟨_, by omega, by omega, rfl⟩
    have hnewnodup : new.Nodup := by
      rw [← hnew]
      exact nodup_map_of_inj (fun a b e => by simp at e; omega) List.nodup_range
    have keep : ∀ q ns, List.lookup q st.reps = some ns → List.lookup q (st.reps ++ [(p, new)]) = some ns := by
      intro q ns hq; rw [lookup_append, hq]; rfl
    refine ⟨⟨keep _ _ h.tru, keep _ _ h.fls, ?_, ?_, ?_, ?_⟩, ⟨keep, by simp⟩, ?_⟩
    · intro q ns hq n hn
      rcases hlk q ns hq with hq | ⟨rfl, rfl⟩
      · obtain ⟨k, hk, e⟩ := h.names q ns hq n hn
        exact ⟨k, by show k < st.counter + ar p; omega, e⟩
      · obtain ⟨k, _, hk, e⟩ := hnewmem n hn
        exact ⟨k, hk, e⟩
    · intro q ns hq
      rcases hlk q ns hq with hq | ⟨rfl, rfl⟩
      · exact h.nodup q ns hq
      · exact hnewnodup
    · intro q1 q2 ns ms hne h1 h2 n hn hm
      rcases hlk q1 ns h1 with h1' | ⟨rfl, rfl⟩ <;> rcases hlk q2 ms h2 with h2' | ⟨rfl, rfl⟩
      · exact h.disj q1 q2 ns ms hne h1' h2' n hn hm
      · obtain ⟨k, hk, e⟩ := h.names q1 ns h1' n hn
        obtain ⟨k', hk', _, e'⟩ := hnewmem n hm
        rw [e] at e'; cases e'; omega
      · obtain ⟨k, hk, e⟩ := h.names q2 ms h2' n hm
        obtain ⟨k', hk', _, e'⟩ := hnewmem n hn
        rw [e] at e'; cases e'; omega
      · exact hne rfl
    · intro q ns hq
      rcases hlk q ns hq with hq | ⟨rfl, rfl⟩
      · exact h.arity q ns hq
      · rw [← hnew]; simp
    · simp [lookup_append, hnone, List.lookup]

theorem NState.ensureAll_spec {ar : Pred → Nat} {st : NState} (h : st.Inv ar) (as : List (PAtom T))
    (har : ∀ a ∈ as, a.2.length = ar a.1) :
    (st.ensureAll as).Inv ar ∧ st.Ext (st.ensureAll as) ∧
    ∀ a ∈ as, (List.lookup a.1 (st.ensureAll as).reps).isSome := by
  induction as generalizing st with
  | nil => exact ⟨h, NState.Ext.refl _, by simp⟩
  | cons a as ih =>
    simp only [NState.ensureAll]
    rw [har a (by simp)]
    obtain ⟨h1, h2, h3⟩ := NState.ensure_spec h a.1
    obtain ⟨h4, h5, h6⟩ := ih h1 (fun b hb => har b (by simp [hb]))
    refine ⟨h4, h2.trans h5, ?_⟩
    intro b hb
    rcases List.mem_cons.1 hb with rfl | hb
    · obtain ⟨ns, hns⟩ := Option.isSome_iff_exists.1 h3
      rw [h5.1 _ _ hns]; rfl
    · exact h6 b hb

/-- Arities are consistent across the system. -/
def ArityConsistent (ar : Pred → Nat) (cs : List (Clause T)) : Prop :=
  ar .tru = 0 ∧ ar .fls = 0 ∧
  ∀ c ∈ cs, c.head.2.length = ar c.head.1 ∧ ∀ a ∈ c.body, a.2.length = ar a.1

theorem args_length_of_isSome {ar : Pred → Nat} {st : NState} (h : st.Inv ar) {p : Pred}
    (hp : (List.lookup p st.reps).isSome) : (st.repr.args p).length = ar p := by
  obtain ⟨ns, hns⟩ := Option.isSome_iff_exists.1 hp
  simp only [NState.repr, hns, Option.getD_some]
  exact h.arity p ns hns

theorem args_ext {st st' : NState} (h : st.Ext st') {p : Pred} (hp : (List.lookup p st.reps).isSome) :
    st'.repr.args p = st.repr.args p := by
  obtain ⟨ns, hns⟩ := Option.isSome_iff_exists.1 hp
  simp only [NState.repr, hns, h.1 p ns hns]

/-- A clause in normal form with respect to a representation. -/
def Clause.Normal (R : PRepr) (c : Clause T) : Prop :=
  c.head.2 = (R.tgtVars c.head.1).map .var ∧
  c.body = (instances (c.body.map Prod.fst)).map fun q => (q.1, (R.srcVars q.1 q.2).map .var)

structure ClauseNormalized (st st' : NState) (R : PRepr) (c c' : Clause T) : Prop where
  rules : ∀ r : GRule T,
    (∃ ρ : Valuation T, c.constraint.holds ρ ∧ r = ⟨c.body.map (PAtom.ground ρ), PAtom.ground ρ c.head⟩) ↔
    (∃ ρ : Valuation T, c'.constraint.holds ρ ∧ r = ⟨c'.body.map (PAtom.ground ρ), PAtom.ground ρ c'.head⟩)
  normal : c'.Normal R
  headPred : c'.head.1 = c.head.1
  bodyPreds : c'.body.map Prod.fst = c.body.map Prod.fst
  vars : ∀ x ∈ c'.constraint.vars, x ∈ predicateVars R c' ∨
    ∃ k, st.counter ≤ k ∧ k < st'.counter ∧ x = .ver (.aux k) 0

theorem normalizeClause_spec {ar : Pred → Nat} {st : NState} (h : st.Inv ar) {c : Clause T} (hu : c.User)
    (har : c.head.2.length = ar c.head.1 ∧ ∀ a ∈ c.body, a.2.length = ar a.1) :
    (normalizeClause st c).1.Inv ar ∧ st.Ext (normalizeClause st c).1 ∧
    ∀ stf, (normalizeClause st c).1.Ext stf →
      ClauseNormalized st (normalizeClause st c).1 stf.repr c (normalizeClause st c).2 := by
  unfold normalizeClause
  simp only
  rw [har.1]
  obtain ⟨h1, h2, h3⟩ := NState.ensure_spec h c.head.1
  obtain ⟨h4, h5, h6⟩ := NState.ensureAll_spec h1 c.body har.2
  generalize (st.ensure c.head.1 (ar c.head.1)).ensureAll c.body = st1 at *
  have hhead : (List.lookup c.head.1 st1.reps).isSome := by
    obtain ⟨ns, hns⟩ := Option.isSome_iff_exists.1 h3
    rw [h5.1 _ _ hns]; rfl
  have hArity : c.ArityOk st1.repr :=
    ⟨by rw [har.1, args_length_of_isSome h4 hhead], fun a ha => by
      rw [har.2 a ha, args_length_of_isSome h4 (h6 a ha)]⟩
  have hR := h4.wf
  refine ⟨⟨h4.tru, h4.fls, ?_, h4.nodup, h4.disj, h4.arity⟩, ⟨fun p ns hp => (h2.trans h5).1 p ns hp, ?_⟩, ?_⟩
  · intro p ns hp n hn
    obtain ⟨k, hk, e⟩ := h4.names p ns hp n hn
    exact ⟨k, by simp only; omega, e⟩
  · have := (h2.trans h5).2; simp only; omega
  · intro stf hext
    have hargs : ∀ p, (List.lookup p st1.reps).isSome → stf.repr.args p = st1.repr.args p :=
      fun p hp => args_ext (st := st1) ⟨hext.1, by have := hext.2; simp only at this; omega⟩ hp
    have hheadR : stf.repr.tgtVars c.head.1 = st1.repr.tgtVars c.head.1 := by
      simp only [PRepr.tgtVars]; rw [hargs _ hhead]
    have hbodyR : ∀ q ∈ instances (c.body.map Prod.fst), stf.repr.srcVars q.1 q.2 = st1.repr.srcVars q.1 q.2 := by
      intro q hq
      have := mem_of_mem_instances hq
      obtain ⟨a, ha, e⟩ := List.mem_map.1 this
      simp only [PRepr.srcVars]; rw [← e, hargs _ (h6 a ha)]
    have hbp : (normClauseWith st1.repr st1.counter c).body.map Prod.fst = c.body.map Prod.fst := by
      simp [normClauseWith, Function.comp_def, instances_fst]
    refine ⟨normClause_rules hR _ hu hArity, ⟨?_, ?_⟩, rfl, hbp, ?_⟩
    · simp [normClauseWith, hheadR]
    · rw [hbp]
      simp only [normClauseWith]
      apply List.map_congr_left
      intro q hq
      rw [hbodyR q hq]
    · intro x hx
      have hpv : predicateVars stf.repr (normClauseWith st1.repr st1.counter c) = predicateVars st1.repr c := by
        unfold predicateVars
        rw [hbp]
        simp only [normClauseWith, hheadR, PRepr.keys]
        congr 1
        rw [List.flatMap_congr_left hbodyR]
      rw [hpv]
      simp only [normClauseWith, varSubstitute, Fla.mem_vars_subst] at hx
      obtain ⟨y, hy, hx⟩ := hx
      by_cases hl : y ∈ localVars st1.repr c (normalizedBody st1.repr c)
      · obtain ⟨i, hi⟩ := List.getElem?_of_mem hl
        have hfd := auxSubst_find (T := T) (k := st1.counter) (show (localVars st1.repr c (normalizedBody st1.repr c)).Nodup from dedup_nodup _) hi
        rw [hfd] at hx
        simp [Tm.vars] at hx
        right
        refine ⟨st1.counter + i, ?_, ?_, hx⟩
        · have := (h2.trans h5).2; omega
        · have := (List.getElem?_eq_some_iff.1 hi).1; simp only; omega
      · rw [auxSubst_fn_not_mem hl] at hx
        simp [Tm.vars] at hx
        subst hx
        left
        apply Classical.byContradiction
        intro hn
        apply hl
        rw [localVars, mem_dedup, List.mem_filter]
        exact ⟨hy, by simpa using hn⟩
where
  List.flatMap_congr_left {α β : Type} {l : List α} {f g : α → List β} (h : ∀ a ∈ l, f a = g a) :
    l.flatMap f = l.flatMap g := by
    induction l with
    | nil => rfl
    | cons a l ih =>
      simp only [List.flatMap_cons]
      rw [h a (by simp), ih (fun b hb => h b (by simp [hb]))]

inductive AllNormalized (R : PRepr) : NState → List (Clause T) → List (Clause T) → Prop
  | nil (st) : AllNormalized R st [] []
  | cons (st st' c c' cs cs') (h : ClauseNormalized st st' R c c') (hle : st.counter ≤ st'.counter)
      (hr : AllNormalized R st' cs cs') : AllNormalized R st (c :: cs) (c' :: cs')

theorem normalizeFrom_spec {ar : Pred → Nat} {st : NState} (h : st.Inv ar) (cs : List (Clause T))
    (hu : ∀ c ∈ cs, c.User) (har : ∀ c ∈ cs, c.head.2.length = ar c.head.1 ∧ ∀ a ∈ c.body, a.2.length = ar a.1) :
    (normalizeFrom st cs).1.Inv ar ∧ st.Ext (normalizeFrom st cs).1 ∧
    ∀ stf, (normalizeFrom st cs).1.Ext stf → AllNormalized stf.repr st cs (normalizeFrom st cs).2 := by
  induction cs generalizing st with
  | nil => exact ⟨h, NState.Ext.refl _, fun _ _ => .nil _⟩
  | cons c cs ih =>
    obtain ⟨h1, h2, h3⟩ := normalizeClause_spec h (hu c (by simp)) (har c (by simp))
    obtain ⟨h4, h5, h6⟩ := ih h1 (fun c hc => hu c (by simp [hc])) (fun c hc => har c (by simp [hc]))
    simp only [normalizeFrom]
    exact ⟨h4, h2.trans h5, fun stf hs => .cons _ _ _ _ _ _ (h3 stf (h5.trans hs)) h2.2 (h6 stf hs)⟩

theorem AllNormalized.rules {R : PRepr} {st : NState} {cs cs' : List (Clause T)} (h : AllNormalized R st cs cs')
    (r : GRule T) : clauseRules cs r ↔ clauseRules cs' r := by
  induction h with
  | nil => simp [clauseRules]
  | cons st st' c c' cs cs' hc _ _ ih =>
    simp only [clauseRules, List.mem_cons, or_and_right, exists_or, exists_eq_left] at ih ⊢
    rw [hc.rules r, ih]

theorem AllNormalized.normal {R : PRepr} {st : NState} {cs cs' : List (Clause T)} (h : AllNormalized R st cs cs') :
    ∀ c ∈ cs', c.Normal R := by
  induction h with
  | nil => simp
  | cons st st' c c' cs cs' hc _ _ ih =>
    intro d hd
    rcases List.mem_cons.1 hd with rfl | hd
    · exact hc.normal
    · exact ih d hd

/-- Auxiliary variables of clause `i`. -/
theorem AllNormalized.aux {R : PRepr} {st : NState} {cs cs' : List (Clause T)} (h : AllNormalized R st cs cs') :
    (∀ c ∈ cs', ∀ x ∈ c.constraint.vars, x ∈ predicateVars R c ∨ ∃ k, st.counter ≤ k ∧ x = .ver (.aux k) 0) ∧
    ∀ (i j : Nat) (c d : Clause T), cs'[i]? = some c → cs'[j]? = some d → i ≠ j →
      ∀ n v, Var.ver n v ∈ c.constraint.vars → Var.ver n v ∉ d.constraint.vars := by
  induction h with
  | nil => simp
  | cons st st' c c' cs cs' hc hle _ ih =>
    have notpv : ∀ {R : PRepr} {c : Clause T} {n v}, Var.ver n v ∉ predicateVars R c := by
      intro R c n v h
      rcases predicateVars_kind h with ⟨_, e⟩ | ⟨_, _, e⟩ <;> cases e
    refine ⟨?_, ?_⟩
    · intro d hd x hx
      rcases List.mem_cons.1 hd with rfl | hd
      · rcases hc.vars x hx with h | ⟨k, h1, _, h3⟩
        · exact Or.inl h
        · exact Or.inr ⟨k, h1, h3⟩
      · rcases ih.1 d hd x hx with h | ⟨k, h1, h3⟩
        · exact Or.inl h
        · exact Or.inr ⟨k, by omega, h3⟩
    · have first : ∀ d ∈ cs', ∀ n v, Var.ver n v ∈ c'.constraint.vars → Var.ver n v ∉ d.constraint.vars := by
        intro d hd n v h1 h2
        rcases hc.vars _ h1 with h | ⟨k, _, hk, e⟩
        · exact notpv h
        · rcases ih.1 d hd _ h2 with h | ⟨k', hk', e'⟩
          · exact notpv h
          · rw [e] at e'; cases e'; omega
      intro i j a b ha hb hij n v h1 h2
      cases i with
      | zero =>
        cases j with
        | zero => exact hij rfl
        | succ j =>
          simp at ha hb; subst ha
          exact first b (List.mem_of_getElem? hb) n v h1 h2
      | succ i =>
        cases j with
        | zero =>
          simp at ha hb; subst hb
          exact first a (List.mem_of_getElem? ha) n v h2 h1
        | succ j =>
          simp at ha hb
          exact ih.2 i j a b ha hb (by omega) n v h1 h2

/-! ### The graph builder -/

theorem mem_buildFrom {id : Nat} {cs : List (Clause T)} {e : Edge T} (h : e ∈ buildFrom id cs) :
    ∃ c ∈ cs, ∃ j, e = clauseEdge j c := by
  induction cs generalizing id with
  | nil => simp [buildFrom] at h
  | cons c cs ih =>
    simp only [buildFrom, List.mem_cons] at h
    rcases h with rfl | h
    · exact ⟨c, by simp, id, rfl⟩
    · obtain ⟨c', hc', j, e⟩ := ih h
      exact ⟨c', by simp [hc'], j, e⟩

theorem clauseEdge_mem {id : Nat} {cs : List (Clause T)} {c : Clause T} (h : c ∈ cs) :
    ∃ j, clauseEdge j c ∈ buildFrom id cs := by
  induction cs generalizing id with
  | nil => simp at h
  | cons d cs ih =>
    rcases List.mem_cons.1 h with rfl | h
    · exact ⟨id, by simp [buildFrom]⟩
    · obtain ⟨j, hj⟩ := ih (id := id + 1) h
      exact ⟨j, by simp [buildFrom, hj]⟩

theorem Clause.Normal.ground {R : PRepr} {c : Clause T} (h : c.Normal R) (ρ : Valuation T) :
    c.body.map (PAtom.ground ρ) =
      (instances (c.body.map Prod.fst)).map (fun q => (q.1, (R.srcVars q.1 q.2).map ρ)) ∧
    PAtom.ground ρ c.head = (c.head.1, (R.tgtVars c.head.1).map ρ) := by
  constructor
  · conv => lhs; rw [h.2]
    simp [Function.comp_def, PAtom.ground, Tm.eval]
  · simp only [PAtom.ground, h.1]
    simp [Function.comp_def, Tm.eval]

theorem clauseEdge_rule {R : PRepr} (hR : R.WF) {c : Clause T} (h : c.Normal R) (j : Nat) (ρ : Valuation T) :
    ((clauseEdge j c).rule R ρ).head = PAtom.ground ρ c.head ∧
    ((clauseEdge j c).rule R ρ).body =
      (if c.body.isEmpty then [trueFact] else c.body.map (PAtom.ground ρ)) := by
  obtain ⟨h1, h2⟩ := h.ground ρ
  refine ⟨by rw [h2]; rfl, ?_⟩
  simp only [clauseEdge, Edge.rule, Edge.srcFacts]
  by_cases hb : c.body = []
  · simp [hb, instances, instancesAux, PRepr.srcVars, hR.tru, trueFact]
  · simp only [List.isEmpty_iff, List.map_eq_nil_iff, hb, if_false]
    rw [h1]

theorem buildGraph_derivable {R : PRepr} (hR : R.WF) {cs : List (Clause T)} (hn : ∀ c ∈ cs, c.Normal R) (f : Fact T) :
    Derivable (graphRules R (buildGraph cs)) f ↔ Derivable (clauseRules cs) f := by
  constructor
  · apply Derivable.of_rules
    rintro r ⟨e, he, ρ, hf, rfl⟩ hb
    obtain ⟨c, hc, j, rfl⟩ := mem_buildFrom he
    obtain ⟨h1, h2⟩ := clauseEdge_rule hR (hn c hc) j ρ
    rw [h1]
    have : clauseRules cs ⟨c.body.map (PAtom.ground ρ), PAtom.ground ρ c.head⟩ := ⟨c, hc, ρ, hf, rfl⟩
    refine Derivable.step _ this ?_
    intro b hbm
    apply hb
    rw [h2]
    by_cases hbe : c.body = []
    · simp [hbe] at hbm
    · simp only [List.isEmpty_iff, hbe, if_false]; exact hbm
  · apply Derivable.of_rules
    rintro r ⟨c, hc, ρ, hf, rfl⟩ hb
    obtain ⟨j, hj⟩ := clauseEdge_mem (id := 0) hc
    obtain ⟨h1, h2⟩ := clauseEdge_rule hR (hn c hc) j ρ
    simp only
    rw [← h1]
    refine Derivable.step _ ⟨_, hj, ρ, hf, rfl⟩ ?_
    intro b hbm
    rw [h2] at hbm
    split at hbm
    · simp at hbm; subst hbm; exact .entry
    · exact hb b hbm

theorem buildFrom_get (id : Nat) (cs : List (Clause T)) (i : Nat) :
    (buildFrom id cs)[i]? = (cs[i]?).map (clauseEdge (id + i)) := by
  induction cs generalizing id i with
  | nil => simp [buildFrom]
  | cons c cs ih =>
    cases i with
    | zero => simp [buildFrom]
    | succ i => simp only [buildFrom, List.getElem?_cons_succ, ih]; congr 2; omega

end Golem
