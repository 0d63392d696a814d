import Verif.Model.SingleLoop
import Verif.Props.ToTS
import Verif.Props.LinearGraph
import Verif.Lemmas.Pipeline

/-! Lemmas about `contractVertices`. -/

namespace Golem
variable {T : Theory}

/-! ### Substitutions given by two lists -/

theorem fn_zip_at {xs : List Var} {ts : List (Tm T)} (hn : xs.Nodup) {i : Nat} {x : Var} {t : Tm T} (hx : xs[i]? = some x)
    (ht : ts[i]? = some t) (m : SubstMap T) : SubstMap.fn (xs.zip ts ++ m) x = t := by
  unfold SubstMap.fn
  rw [SubstMap.find_append]
  have : SubstMap.find (xs.zip ts) x = some t := by
    unfold SubstMap.find
    induction xs generalizing ts i with
    | nil => simp at hx
    | cons y xs ih =>
      cases ts with
      | nil => simp at ht
      | cons u ts =>
        simp only [List.nodup_cons] at hn
        cases i with
        | zero =>
          simp only [List.getElem?_cons_zero, Option.some.injEq] at hx ht
          subst hx ht
          simp
        | succ i =>
          simp only [List.getElem?_cons_succ] at hx ht
          have hne : x ≠ y := by rintro rfl; exact hn.1 (List.mem_of_getElem? hx)
          have hb : (x == y) = false := by simpa using hne
          simp only [List.zip_cons_cons, List.lookup, hb]
          exact ih hn.2 hx ht
  rw [this]; rfl

theorem fn_zip_skip' {xs : List Var} {ts : List (Tm T)} {x : Var} (hx : x ∉ xs) (m : SubstMap T) :
    SubstMap.fn (xs.zip ts ++ m) x = m.fn x := by
  unfold SubstMap.fn
  rw [SubstMap.find_append, SubstMap.find_none]
  · simp
  · rintro ⟨a, b⟩ hp rfl
    exact hx (List.of_mem_zip hp).1

theorem map_fn_zip' {xs : List Var} {ts : List (Tm T)} (hn : xs.Nodup) (hl : xs.length = ts.length) (ρ : Valuation T)
    (m : SubstMap T) : xs.map (fun x => (SubstMap.fn (xs.zip ts ++ m) x).eval ρ) = ts.map (Tm.eval ρ) := by
  apply List.ext_getElem?
  intro i
  rw [List.getElem?_map, List.getElem?_map]
  cases hx : xs[i]? with
  | none =>
    have : xs.length ≤ i := by simpa using hx
    rw [List.getElem?_eq_none (by omega)]
    rfl
  | some x =>
    have hi : i < ts.length := by rw [← hl]; exact List.getElem?_lt hx
    obtain ⟨t, ht⟩ : ∃ t, ts[i]? = some t := ⟨_, List.getElem?_eq_getElem hi⟩
    rw [ht]
    simp [fn_zip_at hn hx ht]

/-! ### Names -/

/-- Not one of the names made up by the contraction, or by TRL. -/
def Name.isPlain : Name → Bool
  | .loc _ => false
  | .arg _ _ => false
  | .et _ => false
  | .trlId => false
  | .trlLc _ => false
  | .trlDiff _ => false
  | .paux _ => false
  | _ => true

abbrev Name.Plain (n : Name) : Prop := n.isPlain = true

def Var.nm : Var → Name
  | .base n => n
  | .src n _ => n
  | .tgt n => n
  | .ver n _ => n

theorem symNo_inj {p q : Pred} (h : p.symNo = q.symNo) : p = q := by
  cases p <;> cases q <;> simp [Pred.symNo] at h ⊢ <;> omega

theorem argNames_length (R : PRepr) (p : Pred) : (argNames R p).length = (R.args p).length := by simp [argNames]

theorem mem_argNames {R : PRepr} {p : Pred} {n : Name} (h : n ∈ argNames R p) : ∃ i, n = .arg p.symNo i := by
  simp only [argNames, List.mem_map] at h
  obtain ⟨i, _, rfl⟩ := h
  exact ⟨i, rfl⟩

theorem argNames_nodup (R : PRepr) (p : Pred) : (argNames R p).Nodup :=
  nodup_map_of_inj (by intro a b h; cases h; rfl) List.nodup_range

theorem contractedArgs_nodup {R : PRepr} {vs : List Pred} (h : vs.Nodup) : (contractedArgs R vs).Nodup := by
  unfold contractedArgs
  rw [List.nodup_append]
  refine ⟨nodup_map_of_inj (fun a b h => symNo_inj (by simpa [locName] using h)) h, ?_, ?_⟩
  · induction vs with
    | nil => exact List.nodup_nil
    | cons p vs ih =>
      simp only [List.nodup_cons] at h
      rw [List.flatMap_cons, List.nodup_append]
      refine ⟨argNames_nodup R p, ih h.2, ?_⟩
      rintro a ha b hb rfl
      obtain ⟨q, hq, hb⟩ := List.mem_flatMap.1 hb
      obtain ⟨i, rfl⟩ := mem_argNames ha
      obtain ⟨j, hj⟩ := mem_argNames hb
      simp only [Name.arg.injEq] at hj
      exact h.1 (symNo_inj hj.1 ▸ hq)
  · rintro a ha b hb rfl
    obtain ⟨q, hq, rfl⟩ := List.mem_map.1 ha
    obtain ⟨q', _, hb⟩ := List.mem_flatMap.1 hb
    obtain ⟨j, hj⟩ := mem_argNames hb
    cases hj

theorem contractedArgs_not_plain {R : PRepr} {vs : List Pred} {n : Name} (h : n ∈ contractedArgs R vs) : ¬ n.Plain := by
  intro hp
  rcases List.mem_append.1 h with h | h
  · obtain ⟨q, _, rfl⟩ := List.mem_map.1 h
    cases hp
  · obtain ⟨q, _, h⟩ := List.mem_flatMap.1 h
    obtain ⟨i, rfl⟩ := mem_argNames h
    cases hp

theorem et_not_contracted {R : PRepr} {vs : List Pred} {k : Nat} : Name.et k ∉ contractedArgs R vs := by
  intro h
  rcases List.mem_append.1 h with h | h
  · obtain ⟨q, _, h⟩ := List.mem_map.1 h; cases h
  · obtain ⟨q, _, h⟩ := List.mem_flatMap.1 h
    obtain ⟨i, h⟩ := mem_argNames h
    cases h

theorem loc_mem {R : PRepr} {vs : List Pred} {p : Pred} (h : p ∈ vs) : locName p ∈ contractedArgs R vs :=
  List.mem_append.2 (.inl (List.mem_map.2 ⟨p, h, rfl⟩))

theorem arg_mem {R : PRepr} {vs : List Pred} {p : Pred} (h : p ∈ vs) {n : Name} (hn : n ∈ argNames R p) :
    n ∈ contractedArgs R vs :=
  List.mem_append.2 (.inr (List.mem_flatMap.2 ⟨p, h, hn⟩))

/-- What the contraction relies on: the new vertex is new, and the names it makes up are. -/
structure Contractible (R : PRepr) (N : Pred) (vs : List Pred) : Prop where
  wf : R.WF
  nodup : vs.Nodup
  new : N ∉ vs
  ntru : N ≠ .tru
  nfls : N ≠ .fls
  tru : Pred.tru ∉ vs
  fls : Pred.fls ∉ vs
  fresh : ∀ p, ∀ n ∈ R.args p, n ∉ contractedArgs R vs

theorem contract_wf {R : PRepr} {N : Pred} {vs : List Pred} (h : Contractible R N vs) : (R.contract N vs).WF where
  tru := by simp [PRepr.contract, h.ntru.symm, h.wf.tru]
  fls := by simp [PRepr.contract, h.nfls.symm, h.wf.fls]
  nodup p := by
    simp only [PRepr.contract]
    split
    · exact contractedArgs_nodup h.nodup
    · exact h.wf.nodup p
  disjoint p q hne n hp hq := by
    simp only [PRepr.contract] at hp hq
    split at hp <;> split at hq
    · exact hne (by simp [*])
    · exact h.fresh q n hq hp
    · exact h.fresh p n hp hq
    · exact h.wf.disjoint p q hne n hp hq

theorem contract_args_ne {R : PRepr} {N : Pred} {vs : List Pred} {p : Pred} (h : p ≠ N) : (R.contract N vs).args p = R.args p := by
  simp [PRepr.contract, h]

theorem contract_args_new {R : PRepr} {N : Pred} {vs : List Pred} : (R.contract N vs).args N = contractedArgs R vs := by
  simp [PRepr.contract]

/-! ### States of the loop -/

/-- The names have the values of a state in which the graph is at `p` with arguments `v`. -/
structure AtLoc (R : PRepr) (vs : List Pred) (p : Pred) (v : List T.Val) (σ : Name → T.Val) : Prop where
  here : T.truth (σ (locName p)) = true
  others : ∀ q ∈ vs, q ≠ p → T.truth (σ (locName q)) = false
  args : (argNames R p).map σ = v

/-- The fact of the contracted vertex with these values. -/
def encFact (R : PRepr) (N : Pred) (vs : List Pred) (σ : Name → T.Val) : Fact T := (N, (contractedArgs R vs).map σ)

theorem AtLoc.unique {R : PRepr} {vs : List Pred} {p q : Pred} {v w : List T.Val} {σ : Name → T.Val} (h : AtLoc R vs p v σ)
    (h' : AtLoc R vs q w σ) (hq : q ∈ vs) : p = q ∧ v = w := by
  have : p = q := by
    apply Classical.byContradiction
    intro hne
    have h1 := h.others q hq (fun h => hne h.symm)
    rw [h'.here] at h1
    cases h1
  subst this
  exact ⟨rfl, h.args.symm.trans h'.args⟩

/-- Being at a location only depends on the state. -/
theorem AtLoc.congr {R : PRepr} {vs : List Pred} {p : Pred} {v : List T.Val} {σ τ : Name → T.Val} (h : AtLoc R vs p v σ)
    (hp : p ∈ vs) (he : (contractedArgs R vs).map σ = (contractedArgs R vs).map τ) : AtLoc R vs p v τ := by
  have key : ∀ n ∈ contractedArgs R vs, σ n = τ n := by
    intro n hn
    obtain ⟨i, hi⟩ := List.getElem?_of_mem hn
    have := congrArg (fun l => l[i]?) he
    simpa [List.getElem?_map, hi] using this
  refine ⟨?_, fun q hq hne => ?_, ?_⟩
  · rw [← key _ (loc_mem hp)]; exact h.here
  · rw [← key _ (loc_mem hq)]; exact h.others q hq hne
  · rw [← h.args]
    exact List.map_congr_left fun n hn => (key n (arg_mem hp hn)).symm

theorem exists_atLoc (R : PRepr) (vs : List Pred) (p : Pred) (v : List T.Val) (hv : v.length = (R.args p).length) :
    ∃ σ : Name → T.Val, AtLoc R vs p v σ := by
  refine ⟨fun n => match n with
    | .loc k => if k = p.symNo then T.vT else T.vF
    | .arg _ i => v[i]?.getD T.vT
    | _ => T.vT, ?_, ?_, ?_⟩
  · simp [locName, T.truth_vT]
  · intro q hq hne
    simp only [locName]
    rw [if_neg (fun h => hne (symNo_inj h))]
    exact T.truth_vF
  · apply List.ext_getElem?
    intro i
    simp only [argNames, List.map_map, List.getElem?_map]
    by_cases hi : i < (R.args p).length
    · rw [List.getElem?_range hi]
      have : i < v.length := by omega
      simp [List.getElem?_eq_getElem this]
    · rw [List.getElem?_eq_none (by simp; omega), List.getElem?_eq_none (by omega)]
      rfl

/-! ### Translated edges -/

theorem holds_locFla {p : Pred} {k : Int} {ρ : Valuation T} : (locFla p k).holds ρ ↔ T.truth (ρ (.ver (locName p) k)) = true := by
  simp [locFla, Fla.holds, Tm.eval]

theorem holds_otherLocs {vs : List Pred} {s t : Pred} {ρ : Valuation T} : (otherLocs vs s t).holds ρ ↔
    (∀ q ∈ vs, q ≠ t → T.truth (ρ (.ver (locName q) 1)) = false) ∧ (∀ q ∈ vs, q ≠ s → T.truth (ρ (.ver (locName q) 0)) = false) := by
  simp only [otherLocs, Fla.holds_conj, List.mem_flatMap]
  constructor
  · intro h
    refine ⟨fun q hq hne => ?_, fun q hq hne => ?_⟩
    · have := h (.not (locFla q 1)) ⟨q, hq, by simp [hne]⟩
      simp only [Fla.holds, holds_locFla] at this
      simpa using this
    · have := h (.not (locFla q 0)) ⟨q, hq, by simp [hne]⟩
      simp only [Fla.holds, holds_locFla] at this
      simpa using this
  · rintro ⟨h1, h2⟩ f ⟨q, hq, hf⟩
    rcases List.mem_append.1 hf with hf | hf
    · split at hf
      · rename_i hne
        simp only [List.mem_singleton] at hf
        subst hf
        simp [Fla.holds, holds_locFla, h1 q hq hne]
      · simp at hf
    · split at hf
      · rename_i hne
        simp only [List.mem_singleton] at hf
        subst hf
        simp [Fla.holds, holds_locFla, h2 q hq hne]
      · simp at hf

theorem mem_edgeAux_iff {R : PRepr} {e : LEdge T} {x : Var} :
    x ∈ edgeAux R e ↔ x ∈ e.fla.vars ∧ x ∉ R.stateVars e.src ∧ x ∉ R.nextVars e.tgt := by
  simp [edgeAux, List.mem_filter]

theorem state_not_next {R : PRepr} {p q : Pred} {x : Var} (h : x ∈ R.stateVars p) : x ∉ R.nextVars q := by
  intro h'
  obtain ⟨n, _, rfl⟩ := List.mem_map.1 h
  obtain ⟨m, _, hm⟩ := List.mem_map.1 h'
  cases hm

theorem stateVars_nodup {R : PRepr} (hR : R.WF) (p : Pred) : (R.stateVars p).Nodup :=
  nodup_map_of_inj (by intro a b h; cases h; rfl) (hR.nodup p)

theorem nextVars_nodup {R : PRepr} (hR : R.WF) (p : Pred) : (R.nextVars p).Nodup :=
  nodup_map_of_inj (by intro a b h; cases h; rfl) (hR.nodup p)

/-- What the substitution of a translated edge does, seen through a valuation. -/
theorem etSubst_eval {R : PRepr} (hR : R.WF) (k : Nat) (e : LEdge T) (ρ : Valuation T) :
    (R.stateVars e.src).map (fun x => ((etSubst R k e).fn x).eval ρ) = (argNames R e.src).map (fun n => ρ (.ver n 0)) ∧
    (R.nextVars e.tgt).map (fun x => ((etSubst R k e).fn x).eval ρ) = (argNames R e.tgt).map (fun n => ρ (.ver n 1)) ∧
    ∀ (i : Nat) x, (firstOcc (edgeAux R e))[i]? = some x → ((etSubst R k e).fn x).eval ρ = ρ (.ver (.et (k + i)) 0) := by
  have hs : ∀ x ∈ R.stateVars e.src, x ∉ firstOcc (edgeAux R e) := fun x hx h =>
    (mem_edgeAux_iff.1 (mem_firstOcc.1 h)).2.1 hx
  have ht : ∀ x ∈ R.nextVars e.tgt, x ∉ firstOcc (edgeAux R e) := fun x hx h =>
    (mem_edgeAux_iff.1 (mem_firstOcc.1 h)).2.2 hx
  refine ⟨?_, ?_, ?_⟩
  · rw [show (argNames R e.src).map (fun n => ρ (.ver n 0)) = ((argNames R e.src).map fun n => Tm.var (.ver n 0)).map (Tm.eval ρ) by
      simp [List.map_map, Function.comp_def, Tm.eval]]
    rw [← map_fn_zip' (stateVars_nodup hR e.src) (by simp [argNames_length, PRepr.stateVars]) ρ
      ((R.nextVars e.tgt).zip ((argNames R e.tgt).map fun n => Tm.var (.ver n 1)))]
    refine List.map_congr_left fun x hx => ?_
    rw [etSubst, fn_zip_skip' (hs x hx)]
  · rw [show (argNames R e.tgt).map (fun n => ρ (.ver n 1)) = ((argNames R e.tgt).map fun n => Tm.var (.ver n 1)).map (Tm.eval ρ) by
      simp [List.map_map, Function.comp_def, Tm.eval]]
    rw [← map_fn_zip' (nextVars_nodup hR e.tgt) (by simp [argNames_length, PRepr.nextVars]) ρ []]
    refine List.map_congr_left fun x hx => ?_
    rw [etSubst, fn_zip_skip' (ht x hx), fn_zip_skip' (fun h => state_not_next h hx), List.append_nil]
  · intro i x hx
    have hi := List.getElem?_lt hx
    rw [etSubst, fn_zip_at (firstOcc_nodup _) hx (t := .var (.ver (.et (k + i)) 0)) (by simp [List.getElem?_range hi])]
    rfl

theorem etSubst_other {R : PRepr} (k : Nat) {e : LEdge T} {x : Var} (hx : x ∈ e.fla.vars) :
    x ∈ R.stateVars e.src ∨ x ∈ R.nextVars e.tgt ∨ ∃ i : Nat, (firstOcc (edgeAux R e))[i]? = some x := by
  by_cases h1 : x ∈ R.stateVars e.src
  · exact .inl h1
  · by_cases h2 : x ∈ R.nextVars e.tgt
    · exact .inr (.inl h2)
    · exact .inr (.inr (List.getElem?_of_mem (mem_firstOcc.2 (mem_edgeAux_iff.2 ⟨hx, h1, h2⟩))))

/-- A translated edge describes the firing of the edge, between states at its source and its target. -/
theorem translateEdge_fires {R : PRepr} (hR : R.WF) {vs : List Pred} {k : Nat} {e : LEdge T} (hs : e.src ≠ .tru)
    {ρ : Valuation T} (h : (translateEdge R vs k e).holds ρ) :
    ∃ v w, AtLoc R vs e.src v (fun n => ρ (.ver n 0)) ∧ AtLoc R vs e.tgt w (fun n => ρ (.ver n 1)) ∧
      e.Fires R (e.src, v) (e.tgt, w) := by
  simp only [translateEdge, Fla.holds_conj, List.mem_cons, List.not_mem_nil, or_false, forall_eq_or_imp, forall_eq, hs,
    if_false] at h
  obtain ⟨h1, h2, h3, h4⟩ := h
  rw [holds_locFla] at h1 h3
  rw [holds_otherLocs] at h4
  rw [varSubstitute_holds] at h2
  obtain ⟨e1, e2, _⟩ := etSubst_eval hR k e ρ
  exact ⟨_, _, ⟨h1, h4.2, rfl⟩, ⟨h3, h4.1, rfl⟩, _, h2, by rw [LEdge.srcFact, e1], by rw [LEdge.tgtFact, e2]⟩

/-- Conversely, whenever the edge fires between two facts, the translated edge holds of any states at these facts. -/
theorem fires_translateEdge {R : PRepr} {vs : List Pred} (hR : R.WF) (k : Nat)
    {e : LEdge T} {v w : List T.Val}
    (hf : e.Fires R (e.src, v) (e.tgt, w)) {σ τ : Name → T.Val} (h1 : AtLoc R vs e.src v σ) (h2 : AtLoc R vs e.tgt w τ) :
    ∃ ρ : Valuation T, (translateEdge R vs k e).holds ρ ∧ (∀ n, (∀ i, n ≠ .et i) → ρ (.ver n 0) = σ n) ∧
      ∀ n, ρ (.ver n 1) = τ n := by
  obtain ⟨ρ, hρ, hv, hw⟩ := hf
  simp only [LEdge.srcFact, LEdge.tgtFact, Prod.mk.injEq, true_and] at hv hw
  refine ⟨fun x => match x with
    | .ver (.et j) 0 => ρ ((firstOcc (edgeAux R e))[j - k]?.getD default)
    | .ver n 0 => σ n
    | .ver n _ => τ n
    | _ => T.vT, ?_, ?_, ?_⟩
  · generalize hr : (fun x => match x with
      | .ver (.et j) 0 => ρ ((firstOcc (edgeAux R e))[j - k]?.getD default)
      | .ver n 0 => σ n
      | .ver n _ => τ n
      | _ => T.vT : Valuation T) = r
    have r0 : ∀ n, (∀ i, n ≠ .et i) → r (.ver n 0) = σ n := by
      intro n hn
      rw [← hr]
      cases n <;> first | rfl | exact absurd rfl (hn _)
    have r1 : ∀ n, r (.ver n 1) = τ n := by
      intro n; rw [← hr]; cases n <;> rfl
    have r2 : ∀ i, r (.ver (.et (k + i)) 0) = ρ ((firstOcc (edgeAux R e))[i]?.getD default) := by
      intro i; rw [← hr]; simp
    simp only [translateEdge, Fla.holds_conj, List.mem_cons, List.not_mem_nil, or_false, forall_eq_or_imp, forall_eq]
    refine ⟨?_, ?_, ?_, ?_⟩
    · split
      · trivial
      · rw [holds_locFla, r0 _ (by simp [locName])]; exact h1.here
    · rw [varSubstitute_holds]
      obtain ⟨e1, e2, e3⟩ := etSubst_eval hR k e r
      have e1' : (R.stateVars e.src).map (fun x => ((etSubst R k e).fn x).eval r) = (R.stateVars e.src).map ρ := by
        rw [e1, ← hv, ← h1.args]
        exact List.map_congr_left fun n hn => r0 n (by obtain ⟨i, rfl⟩ := mem_argNames hn; simp)
      have e2' : (R.nextVars e.tgt).map (fun x => ((etSubst R k e).fn x).eval r) = (R.nextVars e.tgt).map ρ := by
        rw [e2, ← hw, ← h2.args]
        exact List.map_congr_left fun n hn => r1 n
      refine (Fla.holds_congr ?_).1 hρ
      intro x hx
      rcases etSubst_other (R := R) k hx with h | h | ⟨i, h⟩
      · exact (List.map_inj_left.1 e1' x h).symm
      · exact (List.map_inj_left.1 e2' x h).symm
      · show ρ x = _
        rw [e3 i x h, r2, h]
        rfl
    · rw [holds_locFla, r1]; exact h2.here
    · rw [holds_otherLocs]
      refine ⟨fun q hq hne => ?_, fun q hq hne => ?_⟩
      · rw [r1]; exact h2.others q hq hne
      · rw [r0 _ (by simp [locName])]; exact h1.others q hq hne
  · intro n hn
    cases n <;> first | rfl | exact absurd rfl (hn _)
  · intro n; cases n <;> rfl

/-! ### The edges of the contracted graph -/

theorem mem_loopParts {R : PRepr} {vs : List Pred} {f : Fla T} : ∀ {es : List (LEdge T)} {k : Nat},
    f ∈ loopParts R vs k es → ∃ e ∈ es, ∃ j, f = translateEdge R vs j e
  | [], _, h => by simp [loopParts] at h
  | e :: es, k, h => by
    rcases List.mem_cons.1 h with rfl | h
    · exact ⟨e, by simp, k, rfl⟩
    · obtain ⟨e', he, j, rfl⟩ := mem_loopParts h
      exact ⟨e', by simp [he], j, rfl⟩

theorem loopParts_mem {R : PRepr} {vs : List Pred} {e : LEdge T} : ∀ {es : List (LEdge T)} {k : Nat},
    e ∈ es → ∃ j, translateEdge R vs j e ∈ loopParts R vs k es
  | [], _, h => by simp at h
  | e' :: es, k, h => by
    rcases List.mem_cons.1 h with rfl | h
    · exact ⟨k, by simp [loopParts]⟩
    · obtain ⟨j, hj⟩ := loopParts_mem (R := R) (vs := vs) (k := k + (firstOcc (edgeAux R e')).length) h
      exact ⟨j, by simp [loopParts, hj]⟩

section
variable {R : PRepr} {N : Pred} {vs : List Pred}

theorem state_new (ρ : Valuation T) :
    ((R.contract N vs).stateVars N).map ρ = (contractedArgs R vs).map (fun n => ρ (.ver n 0)) := by
  simp [PRepr.stateVars, contract_args_new, List.map_map, Function.comp_def]

theorem next_new (ρ : Valuation T) :
    ((R.contract N vs).nextVars N).map ρ = (contractedArgs R vs).map (fun n => ρ (.ver n 1)) := by
  simp [PRepr.nextVars, contract_args_new, List.map_map, Function.comp_def]

theorem state_old {q : Pred} (h : q ≠ N) : (R.contract N vs).stateVars q = R.stateVars q := by
  simp [PRepr.stateVars, contract_args_ne h]

theorem next_old {q : Pred} (h : q ≠ N) : (R.contract N vs).nextVars q = R.nextVars q := by
  simp [PRepr.nextVars, contract_args_ne h]

/-- The self loop steps between states at the ends of an inner edge that fires. -/
theorem loop_fires (hc : Contractible R N vs) {G : LGraph T} {f g : Fact T} :
    (loopEdge R N vs G).Fires (R.contract N vs) f g ↔ ∃ e ∈ G, e.src ∈ vs ∧ e.tgt ∈ vs ∧ ∃ σ τ : Name → T.Val, ∃ v w,
      f = encFact R N vs σ ∧ g = encFact R N vs τ ∧ AtLoc R vs e.src v σ ∧ AtLoc R vs e.tgt w τ ∧
      e.Fires R (e.src, v) (e.tgt, w) := by
  constructor
  · rintro ⟨ρ, h, rfl, rfl⟩
    simp only [loopEdge, Fla.holds_disj] at h
    obtain ⟨p, hp, h⟩ := h
    obtain ⟨e, he, j, rfl⟩ := mem_loopParts hp
    obtain ⟨heG, hin⟩ := List.mem_filter.1 he
    simp only [innerEdge, Bool.and_eq_true, decide_eq_true_eq] at hin
    obtain ⟨v, w, h1, h2, h3⟩ := translateEdge_fires hc.wf (by rintro ht; exact hc.tru (ht ▸ hin.1)) h
    exact ⟨e, heG, hin.1, hin.2, _, _, v, w, by simp only [LEdge.srcFact, loopEdge, state_new]; rfl, by simp only [LEdge.tgtFact, loopEdge, next_new]; rfl, h1, h2, h3⟩
  · rintro ⟨e, he, hs, ht, σ, τ, v, w, rfl, rfl, h1, h2, h3⟩
    obtain ⟨j, hj⟩ := loopParts_mem (R := R) (vs := vs) (k := 0) (List.mem_filter.2 ⟨he, (by simp [innerEdge, hs, ht] :
      innerEdge vs e = true)⟩)
    obtain ⟨ρ, hρ, r0, r1⟩ := fires_translateEdge hc.wf j h3 h1 h2
    refine ⟨ρ, (Fla.holds_disj).2 ⟨_, hj, hρ⟩, ?_, ?_⟩
    · simp only [LEdge.srcFact, loopEdge, state_new, encFact, Prod.mk.injEq, true_and]
      refine List.map_congr_left fun n hn => (r0 n ?_).symm
      rintro i rfl
      exact et_not_contracted hn
    · simp [LEdge.tgtFact, loopEdge, next_new, encFact, r1]

/-- An edge into the contracted set. -/
theorem cross_in_fires (hc : Contractible R N vs) {e : LEdge T} (hp : ∀ x ∈ e.fla.vars, x.nm ∉ contractedArgs R vs) (hs : e.src ∉ vs)
    (hsN : e.src ≠ N) (ht : e.tgt ∈ vs) {f g : Fact T} : (crossEdge R N vs e).Fires (R.contract N vs) f g ↔
      ∃ τ : Name → T.Val, ∃ w, g = encFact R N vs τ ∧ AtLoc R vs e.tgt w τ ∧ e.Fires R f (e.tgt, w) := by
  have hce : crossEdge R N vs e = { e with
      tgt := N
      fla := Fla.conj [Fla.conj ((vs.filter fun p => decide (p ≠ e.tgt)).map fun p => .not (locFla p 1)), locFla e.tgt 1,
        varSubstitute e.fla ((R.nextVars e.tgt).zip ((argNames R e.tgt).map fun n => Tm.var (.ver n 1)))] } := by
    simp [crossEdge, hs, ht]
  have hothers : ∀ ρ : Valuation T, (Fla.conj ((vs.filter fun p => decide (p ≠ e.tgt)).map fun p => .not (locFla p 1))).holds ρ ↔
      ∀ q ∈ vs, q ≠ e.tgt → T.truth (ρ (.ver (locName q) 1)) = false := by
    intro ρ
    simp only [Fla.holds_conj, List.mem_map, List.mem_filter, decide_eq_true_eq]
    constructor
    · intro h q hq hne
      have := h _ ⟨q, ⟨hq, hne⟩, rfl⟩
      simp only [Fla.holds, holds_locFla] at this
      simpa using this
    · rintro h _ ⟨q, ⟨hq, hne⟩, rfl⟩
      simp [Fla.holds, holds_locFla, h q hq hne]
  have hmap : ∀ ρ : Valuation T, (R.nextVars e.tgt).map
      (fun x => (SubstMap.fn ((R.nextVars e.tgt).zip ((argNames R e.tgt).map fun n => Tm.var (.ver n 1))) x).eval ρ) =
      (argNames R e.tgt).map fun n => ρ (.ver n 1) := by
    intro ρ
    have := map_fn_zip' (nextVars_nodup hc.wf e.tgt) (ts := (argNames R e.tgt).map fun n => Tm.var (.ver n 1))
      (by simp [argNames_length, PRepr.nextVars]) ρ []
    simpa [List.map_map, Function.comp_def, Tm.eval] using this
  have hskip : ∀ (ρ : Valuation T) x, x ∉ R.nextVars e.tgt →
      (SubstMap.fn ((R.nextVars e.tgt).zip ((argNames R e.tgt).map fun n => Tm.var (.ver n 1))) x).eval ρ = ρ x := by
    intro ρ x hx
    rw [← List.append_nil (List.zip _ _), fn_zip_skip' hx]
    rfl
  constructor
  · rintro ⟨ρ, h, rfl, rfl⟩
    rw [hce] at h ⊢
    simp only [Fla.holds_conj (l := [_, _, _]), List.mem_cons, List.not_mem_nil, or_false, forall_eq_or_imp, forall_eq] at h
    obtain ⟨h1, h2, h3⟩ := h
    rw [hothers] at h1
    rw [holds_locFla] at h2
    rw [varSubstitute_holds] at h3
    refine ⟨fun n => ρ (.ver n 1), _, by simp only [LEdge.tgtFact, next_new]; rfl, ⟨h2, h1, rfl⟩, _, h3, ?_, ?_⟩
    · simp only [LEdge.srcFact, state_old hsN, Prod.mk.injEq, true_and]
      exact List.map_congr_left fun x hx => (hskip ρ x (state_not_next hx)).symm
    · rw [LEdge.tgtFact, hmap]
  · rintro ⟨τ, w, rfl, hτ, ρ, hρ, rfl, hw⟩
    simp only [LEdge.tgtFact, Prod.mk.injEq, true_and] at hw
    let r : Valuation T := fun x => match x with
      | .ver n 1 => if n ∈ contractedArgs R vs then τ n else ρ x
      | x => ρ x
    have r1 : ∀ n, n ∈ contractedArgs R vs → r (.ver n 1) = τ n := by intro n hn; simp [r, hn]
    have rp : ∀ x : Var, x.nm ∉ contractedArgs R vs → r x = ρ x := by
      intro x hx
      simp only [r]
      split
      · exact if_neg hx
      · rfl
    refine ⟨r, ?_, ?_, ?_⟩
    · rw [hce]
      simp only [Fla.holds_conj (l := [_, _, _]), List.mem_cons, List.not_mem_nil, or_false, forall_eq_or_imp, forall_eq]
      refine ⟨(hothers r).2 fun q hq hne => ?_, holds_locFla.2 ?_, ?_⟩
      · rw [r1 _ (loc_mem hq)]; exact hτ.others q hq hne
      · rw [r1 _ (loc_mem ht)]; exact hτ.here
      · rw [varSubstitute_holds]
        refine (Fla.holds_congr fun x hx => ?_).1 hρ
        by_cases hx' : x ∈ R.nextVars e.tgt
        · have hmap' : (R.nextVars e.tgt).map
            (fun x => (SubstMap.fn ((R.nextVars e.tgt).zip ((argNames R e.tgt).map fun n => Tm.var (.ver n 1))) x).eval r) =
            (R.nextVars e.tgt).map ρ := by
            rw [hmap, ← hw, ← hτ.args]
            exact List.map_congr_left fun n hn => r1 n (arg_mem ht hn)
          exact (List.map_inj_left.1 hmap' x hx').symm
        · rw [hskip r x hx', rp x (hp x hx)]
    · rw [hce]
      simp only [LEdge.srcFact, state_old hsN, Prod.mk.injEq, true_and]
      refine List.map_congr_left fun x hx => (rp x ?_).symm
      obtain ⟨n, hn, rfl⟩ := List.mem_map.1 hx
      exact hc.fresh _ n hn
    · rw [hce]
      simp only [LEdge.tgtFact, next_new, encFact, Prod.mk.injEq, true_and]
      exact List.map_congr_left fun n hn => (r1 n hn).symm

/-- An edge out of the contracted set. -/
theorem cross_out_fires (hc : Contractible R N vs) {e : LEdge T} (hp : ∀ x ∈ e.fla.vars, x.nm ∉ contractedArgs R vs) (hs : e.src ∈ vs)
    (htN : e.tgt ≠ N) {f g : Fact T} : (crossEdge R N vs e).Fires (R.contract N vs) f g ↔
      ∃ σ : Name → T.Val, f = encFact R N vs σ ∧ T.truth (σ (locName e.src)) = true ∧
        e.Fires R (e.src, (argNames R e.src).map σ) g := by
  have hce : crossEdge R N vs e = { e with
      src := N
      fla := varSubstitute (.and e.fla (locFla e.src 0))
        ((R.stateVars e.src).zip ((argNames R e.src).map fun n => Tm.var (.ver n 0))) } := by
    simp [crossEdge, hs]
  have hmap : ∀ ρ : Valuation T, (R.stateVars e.src).map
      (fun x => (SubstMap.fn ((R.stateVars e.src).zip ((argNames R e.src).map fun n => Tm.var (.ver n 0))) x).eval ρ) =
      (argNames R e.src).map fun n => ρ (.ver n 0) := by
    intro ρ
    have := map_fn_zip' (stateVars_nodup hc.wf e.src) (ts := (argNames R e.src).map fun n => Tm.var (.ver n 0))
      (by simp [argNames_length, PRepr.stateVars]) ρ []
    simpa [List.map_map, Function.comp_def, Tm.eval] using this
  have hskip : ∀ (ρ : Valuation T) x, x ∉ R.stateVars e.src →
      (SubstMap.fn ((R.stateVars e.src).zip ((argNames R e.src).map fun n => Tm.var (.ver n 0))) x).eval ρ = ρ x := by
    intro ρ x hx
    rw [← List.append_nil (List.zip _ _), fn_zip_skip' hx]
    rfl
  have hloc : Var.ver (locName e.src) 0 ∉ R.stateVars e.src := by
    intro h
    obtain ⟨n, hn, he⟩ := List.mem_map.1 h
    cases he
    exact hc.fresh _ _ hn (loc_mem hs)
  constructor
  · rintro ⟨ρ, h, rfl, rfl⟩
    rw [hce] at h ⊢
    rw [varSubstitute_holds] at h
    obtain ⟨h1, h2⟩ := h
    rw [holds_locFla, hskip ρ _ hloc] at h2
    refine ⟨fun n => ρ (.ver n 0), by simp only [LEdge.srcFact, state_new]; rfl, h2, _, h1, ?_, ?_⟩
    · rw [LEdge.srcFact, hmap]
    · simp only [LEdge.tgtFact, next_old htN, Prod.mk.injEq, true_and]
      exact List.map_congr_left fun x hx => (hskip ρ x (fun h => state_not_next h hx)).symm
  · rintro ⟨σ, rfl, hσ, ρ, hρ, hv, rfl⟩
    simp only [LEdge.srcFact, Prod.mk.injEq, true_and] at hv
    let r : Valuation T := fun x => match x with
      | .ver n 0 => if n ∈ contractedArgs R vs then σ n else ρ x
      | x => ρ x
    have r1 : ∀ n, n ∈ contractedArgs R vs → r (.ver n 0) = σ n := by intro n hn; simp [r, hn]
    have rp : ∀ x : Var, x.nm ∉ contractedArgs R vs → r x = ρ x := by
      intro x hx
      simp only [r]
      split
      · exact if_neg hx
      · rfl
    refine ⟨r, ?_, ?_, ?_⟩
    · rw [hce, varSubstitute_holds]
      refine ⟨(Fla.holds_congr fun x hx => ?_).1 hρ, ?_⟩
      · by_cases hx' : x ∈ R.stateVars e.src
        · have hmap' : (R.stateVars e.src).map
            (fun x => (SubstMap.fn ((R.stateVars e.src).zip ((argNames R e.src).map fun n => Tm.var (.ver n 0))) x).eval r) =
            (R.stateVars e.src).map ρ := by
            rw [hmap, ← hv]
            exact List.map_congr_left fun n hn => r1 n (arg_mem hs hn)
          exact (List.map_inj_left.1 hmap' x hx').symm
        · rw [hskip r x hx', rp x (hp x hx)]
      · rw [holds_locFla, hskip r _ hloc, r1 _ (loc_mem hs)]
        exact hσ
    · rw [hce]
      simp only [LEdge.srcFact, state_new, encFact, Prod.mk.injEq, true_and]
      exact List.map_congr_left fun n hn => (r1 n hn).symm
    · rw [hce]
      simp only [LEdge.tgtFact, next_old htN, Prod.mk.injEq, true_and]
      refine List.map_congr_left fun x hx => (rp x ?_).symm
      obtain ⟨n, hn, rfl⟩ := List.mem_map.1 hx
      exact hc.fresh _ n hn

end

end Golem
