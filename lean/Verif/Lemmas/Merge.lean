import Verif.Model.Merge
import Verif.Lemmas.Graph
import Verif.Lemmas.LinearGraph
import Verif.Lemmas.Witness
import Verif.Lemmas.Transformers.Simple

namespace Golem
variable {T : Theory}

/-! ### Instances of merged sources -/

theorem count_map_replace {u v p : Pred} (hv : p ≠ v) (hu : p ≠ u) (l : List Pred) :
    (l.map fun p => if p = v then u else p).count p = l.count p := by
  induction l with
  | nil => rfl
  | cons a l ih =>
    simp only [List.map_cons, List.count_cons, ih]
    congr 1
    by_cases ha : a = v
    · subst ha; simp [Ne.symm hv, Ne.symm hu]
    · simp [ha]

theorem count_map_replace_self {u v : Pred} (l : List Pred) (hu : u ∉ l) :
    (l.map fun p => if p = v then u else p).count u = l.count v := by
  induction l with
  | nil => rfl
  | cons a l ih =>
    simp only [List.mem_cons, not_or] at hu
    simp only [List.map_cons, List.count_cons, ih hu.2]
    congr 1
    by_cases ha : a = v
    · simp [ha]
    · simp [ha, Ne.symm hu.1]

theorem instancesAux_replace {u v : Pred} (srcs seen : List Pred) (hu : u ∉ srcs) (hus : u ∉ seen)
    (hc : (seen ++ srcs).count v ≤ 1) :
    instancesAux (seen.map fun p => if p = v then u else p) (srcs.map fun p => if p = v then u else p) =
      (instancesAux seen srcs).map fun q => if q.1 = v then (u, 0) else q := by
  induction srcs generalizing seen with
  | nil => rfl
  | cons p srcs ih =>
    simp only [List.mem_cons, not_or] at hu
    simp only [List.map_cons, instancesAux]
    have hrec := ih (p :: seen) hu.2 (by simp [hus, hu.1]) (by
      rw [List.count_append] at hc ⊢
      simp only [List.count_cons] at hc ⊢
      omega)
    simp only [List.map_cons] at hrec
    rw [hrec]
    congr 1
    by_cases hp : p = v
    · subst hp
      simp only [if_true]
      rw [count_map_replace_self _ hus]
      rw [List.count_append, List.count_cons_self] at hc
      rw [show List.count p seen = 0 by omega]
    · simp only [hp, if_false]
      rw [count_map_replace hp (Ne.symm hu.1)]

theorem instances_replace {u v : Pred} (srcs : List Pred) (hu : u ∉ srcs) (hc : srcs.count v ≤ 1) :
    instances (srcs.map fun p => if p = v then u else p) = (instances srcs).map fun q => if q.1 = v then (u, 0) else q :=
  instancesAux_replace srcs [] hu (by simp) (by simpa using hc)

theorem instancesAux_filter (f : Pred → Bool) (srcs seen : List Pred) :
    instancesAux (seen.filter f) (srcs.filter f) = (instancesAux seen srcs).filter fun q => f q.1 := by
  induction srcs generalizing seen with
  | nil => rfl
  | cons p srcs ih =>
    by_cases hp : f p = true
    · rw [List.filter_cons_of_pos hp]
      simp only [instancesAux]
      rw [List.filter_cons_of_pos (by simpa using hp)]
      have := ih (p :: seen)
      rw [List.filter_cons_of_pos hp] at this
      rw [this, List.count_filter hp]
    · rw [List.filter_cons_of_neg hp]
      simp only [instancesAux]
      rw [List.filter_cons_of_neg (by simpa using hp)]
      have := ih (p :: seen)
      rw [List.filter_cons_of_neg hp] at this
      exact this

theorem instances_filter (f : Pred → Bool) (srcs : List Pred) :
    instances (srcs.filter f) = (instances srcs).filter fun q => f q.1 := instancesAux_filter f srcs []

/-! ### The substitution from target to source variables -/

theorem tgtToSrc_mem {R : PRepr} (hR : R.WF) {v : Pred} {n : Name} (hn : n ∈ R.args v) (m : SubstMap T) :
    SubstMap.fn (tgtToSrc R v ++ m) (.tgt n) = .var (.src n 0) :=
  map_fn_zip (R.args v) Var.tgt (fun n => Var.src n 0) (R.tgtVars_nodup hR v) hn m

theorem tgtToSrc_skip {R : PRepr} {v : Pred} {x : Var} (hx : x ∉ R.tgtVars v) (m : SubstMap T) :
    SubstMap.fn (tgtToSrc R v ++ m) x = m.fn x :=
  fn_zip_skip (R.args v) Var.tgt (fun n => Tm.var (.src n 0)) (by
    rintro n hn rfl; exact hx (R.mem_tgtVars.2 ⟨n, hn, rfl⟩)) m

theorem tgtToSrc_eval {R : PRepr} (hR : R.WF) (v : Pred) (ρ : Valuation T) :
    (∀ n ∈ R.args v, (SubstMap.fn (tgtToSrc R v) (.tgt n)).eval ρ = ρ (.src n 0)) ∧
    (∀ x, x ∉ R.tgtVars v → (SubstMap.fn (tgtToSrc R v) x).eval ρ = ρ x) := by
  refine ⟨fun n hn => ?_, fun x hx => ?_⟩
  · have := tgtToSrc_mem (T := T) hR hn []
    rw [List.append_nil] at this
    rw [this]; rfl
  · have := tgtToSrc_skip (T := T) hx []
    rw [List.append_nil] at this
    rw [this]; rfl

/-! ### Renaming to fresh variables -/

theorem firstOcc_nodup {α : Type} [DecidableEq α] (l : List α) : (firstOcc l).Nodup := by
  induction l with
  | nil => simp [firstOcc]
  | cons a l ih =>
    simp only [firstOcc, List.nodup_cons]
    exact ⟨by simp, ih.filter _⟩

/-- A substitution that sends the `i`-th variable of a list to the variable `g i`. -/
theorem zipIdxSubst_mem (g : Nat → Var) {xs : List Var} (hn : xs.Nodup) {i : Nat} {x : Var} (hx : xs[i]? = some x) :
    SubstMap.fn (T := T) (xs.zipIdx.map fun p => (p.1, .var (g p.2))) x = .var (g i) := by
  refine SubstMap.fn_of_mem ?_ (List.mem_map.2 ⟨(x, i), List.mk_mem_zipIdx_iff_getElem?.2 hx, rfl⟩)
  rw [List.map_map]
  have : (Prod.fst ∘ fun p : Var × Nat => (p.1, (Tm.var (g p.2) : Tm T))) = Prod.fst := rfl
  rw [this, List.zipIdx_map_fst]
  exact hn

theorem zipIdxSubst_skip (g : Nat → Var) {xs : List Var} {x : Var} (hx : x ∉ xs) :
    SubstMap.fn (T := T) (xs.zipIdx.map fun p => (p.1, .var (g p.2))) x = .var x := by
  unfold SubstMap.fn
  rw [SubstMap.find_none]
  · rfl
  · intro p hp
    obtain ⟨q, hq, rfl⟩ := List.mem_map.1 hp
    rintro rfl
    exact hx (List.fst_mem_of_mem_zipIdx hq)

theorem gauxSubst_mem (c : Nat) {xs : List Var} (hn : xs.Nodup) {i : Nat} {x : Var} (hx : xs[i]? = some x) :
    (gauxSubst (T := T) c xs).fn x = .var (.ver (.gaux (c + i)) 0) :=
  zipIdxSubst_mem (fun i => .ver (.gaux (c + i)) 0) hn hx

theorem gauxSubst_skip (c : Nat) {xs : List Var} {x : Var} (hx : x ∉ xs) : (gauxSubst (T := T) c xs).fn x = .var x :=
  zipIdxSubst_skip (fun i => .ver (.gaux (c + i)) 0) hx

/-- A valuation of the new variables that copies the old ones. -/
def gauxVal (c : Nat) (xs : List Var) (ρ : Valuation T) : Valuation T
  | .ver (.gaux k) 0 => if c ≤ k then (match xs[k - c]? with | some y => ρ y | none => ρ (.ver (.gaux k) 0))
      else ρ (.ver (.gaux k) 0)
  | x => ρ x

theorem gauxVal_not_ver {c : Nat} {xs : List Var} {ρ : Valuation T} {x : Var} (hx : ∀ n k, x ≠ .ver n k) :
    gauxVal c xs ρ x = ρ x := by
  cases x <;> first | rfl | exact absurd rfl (hx _ _)

theorem mem_auxiliaryVars {R : PRepr} {e : Edge T} {x : Var} :
    x ∈ auxiliaryVars R e ↔ x ∈ e.fla.vars ∧ x ∉ R.own e.src e.tgt := by
  simp [auxiliaryVars, mem_firstOcc]

theorem auxiliaryVars_nodup (R : PRepr) (e : Edge T) : (auxiliaryVars R e).Nodup := (firstOcc_nodup _).filter _

theorem own_not_ver {R : PRepr} {ss : List Pred} {t : Pred} {n : Name} {k : Int} : Var.ver n k ∉ R.own ss t := by
  intro h
  rcases List.mem_append.1 h with h | h
  · obtain ⟨q, _, h⟩ := List.mem_flatMap.1 h
    obtain ⟨_, _, e⟩ := R.mem_srcVars.1 h; cases e
  · obtain ⟨_, _, e⟩ := R.mem_tgtVars.1 h; cases e

theorem own_facts {R : PRepr} {ρ ρ' : Valuation T} {ss : List Pred} {t : Pred} {f : Fla T} {i : Nat}
    (h : ∀ x ∈ R.own ss t, ρ x = ρ' x) :
    (⟨ss, t, f, i⟩ : Edge T).srcFacts R ρ = (⟨ss, t, f, i⟩ : Edge T).srcFacts R ρ' ∧
    (⟨ss, t, f, i⟩ : Edge T).tgtFact R ρ = (⟨ss, t, f, i⟩ : Edge T).tgtFact R ρ' := by
  constructor
  · unfold Edge.srcFacts
    apply List.map_congr_left
    intro q hq
    simp only [Prod.mk.injEq, true_and]
    apply List.map_congr_left
    intro x hx
    exact h x (List.mem_append_left _ (List.mem_flatMap.2 ⟨q, hq, hx⟩))
  · unfold Edge.tgtFact
    simp only [Prod.mk.injEq, true_and]
    apply List.map_congr_left
    intro x hx
    exact h x (List.mem_append_right _ hx)

/-- Two labels that have the same solutions up to auxiliary variables define the same rules. -/
theorem fires_of_labels {R : PRepr} {ss : List Pred} {t : Pred} {f g : Fla T} {i j : Nat}
    (h1 : ∀ ρ : Valuation T, f.holds ρ → ∃ ρ' : Valuation T, (∀ x ∈ R.own ss t, ρ' x = ρ x) ∧ g.holds ρ')
    {b : List (Fact T)} {h : Fact T} (hf : (⟨ss, t, f, i⟩ : Edge T).Fires R b h) : (⟨ss, t, g, j⟩ : Edge T).Fires R b h := by
  obtain ⟨ρ, hh, rfl, rfl⟩ := hf
  obtain ⟨ρ', ho, hg⟩ := h1 ρ hh
  obtain ⟨a, b⟩ := own_facts (f := f) (i := i) ho
  exact ⟨ρ', hg, a.symm, b.symm⟩

theorem renameAuxiliaries_fwd {R : PRepr} {c : Nat} {e : Edge T} (ρ : Valuation T) (h : e.fla.holds ρ) :
    ∃ ρ' : Valuation T, (∀ x ∈ R.own e.src e.tgt, ρ' x = ρ x) ∧ (renameAuxiliaries R c e).1.holds ρ' := by
  refine ⟨gauxVal c (auxiliaryVars R e) ρ, ?_, ?_⟩
  · intro x hx
    exact gauxVal_not_ver fun n k h => own_not_ver (h ▸ hx)
  · unfold renameAuxiliaries
    rw [varSubstitute_holds]
    refine (Fla.holds_congr fun x hx => ?_).1 h
    by_cases ho : x ∈ R.own e.src e.tgt
    · rw [gauxSubst_skip _ fun h => (mem_auxiliaryVars.1 h).2 ho]
      exact (gauxVal_not_ver fun n k h => own_not_ver (h ▸ ho)).symm
    · obtain ⟨i, hi⟩ := List.mem_iff_getElem?.1 (mem_auxiliaryVars.2 ⟨hx, ho⟩)
      rw [gauxSubst_mem _ (auxiliaryVars_nodup R e) hi]
      simp only [Tm.eval, gauxVal]
      rw [if_pos (by omega), show c + i - c = i by omega, hi]

theorem renameAuxiliaries_bwd {R : PRepr} {c : Nat} {e : Edge T} (ρ : Valuation T)
    (h : (renameAuxiliaries R c e).1.holds ρ) :
    ∃ ρ' : Valuation T, (∀ x ∈ R.own e.src e.tgt, ρ' x = ρ x) ∧ e.fla.holds ρ' := by
  unfold renameAuxiliaries at h
  rw [varSubstitute_holds] at h
  refine ⟨_, ?_, h⟩
  intro x hx
  rw [gauxSubst_skip _ (fun h => (mem_auxiliaryVars.1 h).2 hx)]
  rfl

/-- Variables of a renamed label. -/
theorem renameAuxiliaries_vars {R : PRepr} {c : Nat} {e : Edge T} {x : Var} (hx : x ∈ (renameAuxiliaries R c e).1.vars) :
    (x ∈ R.own e.src e.tgt ∧ x ∈ e.fla.vars) ∨
      ∃ k, x = .ver (.gaux k) 0 ∧ c ≤ k ∧ k < (renameAuxiliaries R c e).2 := by
  unfold renameAuxiliaries varSubstitute at hx
  obtain ⟨y, hy, hx⟩ := Fla.mem_vars_subst.1 hx
  by_cases ho : y ∈ R.own e.src e.tgt
  · rw [gauxSubst_skip _ (fun h => (mem_auxiliaryVars.1 h).2 ho)] at hx
    simp only [Tm.vars, List.mem_singleton] at hx
    subst hx
    exact .inl ⟨ho, hy⟩
  · obtain ⟨i, hi⟩ := List.mem_iff_getElem?.1 (mem_auxiliaryVars.2 ⟨hy, ho⟩)
    rw [gauxSubst_mem _ (auxiliaryVars_nodup R e) hi] at hx
    simp only [Tm.vars, List.mem_singleton] at hx
    exact .inr ⟨c + i, hx, by omega, by
      unfold renameAuxiliaries
      have := List.getElem?_lt hi
      simp only; omega⟩

/-! ### The merged edge -/

/-- What `mergeEdgePair` relies on: the incoming edge is simple, its source is not the vertex to skip, that vertex occurs
once among the sources of the outgoing edge and the source does not occur there; variables are shared only through the
arguments of the common vertex. -/
structure MergeOk (R : PRepr) (u : Pred) (inc out : Edge T) : Prop where
  isrc : inc.src = [u]
  ne : u ≠ inc.tgt
  once : out.src.count inc.tgt = 1
  notin : u ∉ out.src
  tru : 1 < out.src.length → .tru ∉ out.src
  in_v : ∀ x ∈ inc.fla.vars, x ∉ R.srcVars inc.tgt 0
  in_sep : ∀ x ∈ inc.fla.vars, x ∉ R.tgtVars inc.tgt → x ∉ out.fla.vars ∧ x ∉ R.own out.src out.tgt
  out_u : ∀ x ∈ out.fla.vars, x ∉ R.srcVars u 0
  out_t : out.tgt ≠ inc.tgt → ∀ x ∈ out.fla.vars, x ∉ R.tgtVars inc.tgt

/-- The body of the merged rule: the fact of the skipped vertex is replaced by the fact it was derived from; facts of the
entry are dropped when the source is the entry. -/
def mergeBody (u v : Pred) (fu : Fact T) (body : List (Fact T)) : List (Fact T) :=
  let b := body.map fun f => if f.1 = v then fu else f
  if u = .tru then
    let b' := b.filter fun f => decide (f.1 ≠ .tru)
    if b'.isEmpty then [trueFact] else b'
  else b

theorem mergeSources_facts {R : PRepr} (hR : R.WF) {u v : Pred} {srcs : List Pred} (hu : u ∉ srcs)
    (hc : srcs.count v ≤ 1) (t : Pred) (f : Fla T) (i : Nat) (ρ : Valuation T) :
    (⟨mergeSources u v srcs, t, f, i⟩ : Edge T).srcFacts R ρ =
      mergeBody u v (u, (R.srcVars u 0).map ρ) ((⟨srcs, t, f, i⟩ : Edge T).srcFacts R ρ) := by
  have key : ∀ q : Pred × Nat, (fun p : Pred × Nat => ((p.1, (R.srcVars p.1 p.2).map ρ) : Fact T))
      (if q.1 = v then (u, 0) else q) =
      (fun f : Fact T => if f.1 = v then (u, (R.srcVars u 0).map ρ) else f) (q.1, (R.srcVars q.1 q.2).map ρ) := by
    intro q
    by_cases h : q.1 = v <;> simp [h]
  have hbody : (instances (srcs.map fun p => if p = v then u else p)).map
      (fun p : Pred × Nat => ((p.1, (R.srcVars p.1 p.2).map ρ) : Fact T)) =
      ((instances srcs).map (fun p : Pred × Nat => ((p.1, (R.srcVars p.1 p.2).map ρ) : Fact T))).map
        fun f : Fact T => if f.1 = v then (u, (R.srcVars u 0).map ρ) else f := by
    rw [instances_replace srcs hu hc, List.map_map, List.map_map]
    exact List.map_congr_left fun q _ => key q
  unfold mergeSources mergeBody
  simp only
  by_cases hut : u = .tru
  · simp only [hut, if_true]
    subst hut
    unfold Edge.srcFacts
    simp only
    rw [← hbody]
    have hf : ((instances (srcs.map fun p => if p = v then Pred.tru else p)).map
        (fun p : Pred × Nat => ((p.1, (R.srcVars p.1 p.2).map ρ) : Fact T))).filter (fun f => decide (f.1 ≠ .tru)) =
        (instances ((srcs.map fun p => if p = v then Pred.tru else p).filter fun p => decide (p ≠ .tru))).map
          fun p : Pred × Nat => ((p.1, (R.srcVars p.1 p.2).map ρ) : Fact T) := by
      rw [instances_filter, List.filter_map]; rfl
    rw [hf]
    generalize ((srcs.map fun p => if p = v then Pred.tru else p).filter fun p => decide (p ≠ .tru)) = s'
    cases s' with
    | nil => simp [instances, instancesAux, PRepr.srcVars, hR.tru, trueFact]
    | cons a s' => simp [instances, instancesAux]
  · simp only [hut, if_false]
    exact hbody

theorem mergeSources_single (u v : Pred) : mergeSources u v [v] = [u] := by
  unfold mergeSources
  by_cases h : u = .tru <;> simp [h]

/-- Variables of the new sources belong to the source or to the outgoing edge. -/
theorem mem_mergeSources {u v : Pred} {srcs : List Pred} (hu : u ∉ srcs) (hc : srcs.count v ≤ 1) {q : Pred × Nat}
    (hq : q ∈ instances (mergeSources u v srcs)) : q = (u, 0) ∨ (q ∈ instances srcs ∧ q.1 ≠ v) := by
  have base : ∀ q ∈ instances (srcs.map fun p => if p = v then u else p), q = (u, 0) ∨ (q ∈ instances srcs ∧ q.1 ≠ v) := by
    intro q hq
    rw [instances_replace srcs hu hc] at hq
    obtain ⟨q', hq', rfl⟩ := List.mem_map.1 hq
    by_cases h : q'.1 = v
    · simp [h]
    · simp [h, hq']
  unfold mergeSources at hq
  simp only at hq
  by_cases hut : u = .tru
  · simp only [hut, if_true] at hq
    subst hut
    split at hq
    · simp [instances, instancesAux] at hq
      exact .inl hq
    · rw [instances_filter (fun p => decide (p ≠ .tru))] at hq
      exact base q (List.mem_filter.1 hq).1
  · simp only [hut, if_false] at hq
    exact base q hq

theorem mem_own {R : PRepr} {ss : List Pred} {t : Pred} {x : Var} :
    x ∈ R.own ss t ↔ (∃ q ∈ instances ss, x ∈ R.srcVars q.1 q.2) ∨ x ∈ R.tgtVars t := by
  simp [PRepr.own, PRepr.keys, List.mem_flatMap]

theorem count_one_single {v : Pred} {l : List Pred} (h1 : l.length = 1) (h2 : l.count v = 1) : l = [v] := by
  match l, h1 with
  | [a], _ =>
    by_cases h : a = v
    · rw [h]
    · simp [h] at h2

theorem mergePre_src {R : PRepr} {E : Elim T} {c : Nat} {u : Pred} {inc out : Edge T} (h : MergeOk R u inc out) :
    (mergePre R E c u inc out).1 = mergeSources u inc.tgt out.src := by
  unfold mergePre
  simp only
  split
  · rename_i hc
    rw [count_one_single hc.1 h.once, mergeSources_single]
  · split <;> rfl

/-- The conjunction the merged label stands for. -/
def mergeConj (R : PRepr) (inc out : Edge T) : Fla T := .and (varSubstitute inc.fla (tgtToSrc R inc.tgt)) out.fla

theorem own_new_not_v {R : PRepr} (hR : R.WF) {u : Pred} {inc out : Edge T} (h : MergeOk R u inc out) {x : Var}
    (hx : x ∈ R.own (mergeSources u inc.tgt out.src) out.tgt) : x ∉ R.srcVars inc.tgt 0 := by
  rcases mem_own.1 hx with ⟨q, hq, hx⟩ | hx
  · rcases mem_mergeSources h.notin (by rw [h.once]; omega) hq with rfl | ⟨_, hq⟩
    · exact R.srcVars_disjoint hR (by simp [h.ne]) hx
    · exact R.srcVars_disjoint hR (by intro e; rw [Prod.mk.injEq] at e; exact hq e.1) hx
  · obtain ⟨n, _, rfl⟩ := R.mem_tgtVars.1 hx
    intro h; obtain ⟨_, _, e⟩ := R.mem_srcVars.1 h; cases e

theorem loopSubst_mem {R : PRepr} (hR : R.WF) {v : Pred} {c i : Nat} {x : Var} (hx : (R.srcVars v 0)[i]? = some x) :
    (loopSubst (T := T) R v c).fn x = .var (.ver (.auxg (c + i)) 0) :=
  zipIdxSubst_mem (fun i => .ver (.auxg (c + i)) 0) (R.srcVars_nodup hR v 0) hx

theorem loopSubst_skip {R : PRepr} {v : Pred} {c : Nat} {x : Var} (hx : x ∉ R.srcVars v 0) :
    (loopSubst (T := T) R v c).fn x = .var x :=
  zipIdxSubst_skip (fun i => .ver (.auxg (c + i)) 0) hx

def loopVal (c : Nat) (xs : List Var) (ρ : Valuation T) : Valuation T
  | .ver (.auxg k) 0 => if c ≤ k then (match xs[k - c]? with | some y => ρ y | none => ρ (.ver (.auxg k) 0))
      else ρ (.ver (.auxg k) 0)
  | x => ρ x

theorem loopVal_skip {c : Nat} {xs : List Var} {ρ : Valuation T} {x : Var} (hx : ∀ k, x = .ver (.auxg k) 0 → k < c) :
    loopVal c xs ρ x = ρ x := by
  unfold loopVal
  split
  · rename_i k
    rw [if_neg (by have := hx k rfl; omega)]
  · rfl

theorem mergeConj_vars {R : PRepr} (hR : R.WF) {inc out : Edge T} {x : Var} (hx : x ∈ (mergeConj R inc out).vars) :
    x ∈ R.srcVars inc.tgt 0 ∨ x ∈ inc.fla.vars ∧ x ∉ R.tgtVars inc.tgt ∨ x ∈ out.fla.vars := by
  simp only [mergeConj, Fla.vars, List.mem_append, varSubstitute] at hx
  rcases hx with hx | hx
  · obtain ⟨y, hy, hx⟩ := Fla.mem_vars_subst.1 hx
    by_cases hy' : y ∈ R.tgtVars inc.tgt
    · obtain ⟨n, hn, rfl⟩ := R.mem_tgtVars.1 hy'
      have := tgtToSrc_mem (T := T) hR hn []
      rw [List.append_nil] at this
      rw [this] at hx
      simp only [Tm.vars, List.mem_singleton] at hx
      exact .inl (R.mem_srcVars.2 ⟨n, hn, hx⟩)
    · have := tgtToSrc_skip (T := T) hy' []
      rw [List.append_nil] at this
      rw [this, fn_nil] at hx
      simp only [Tm.vars, List.mem_singleton] at hx
      subst hx
      exact .inr (.inl ⟨hy, hy'⟩)
  · exact .inr (.inr hx)

/-- Without the self-loop case the chain substitution is the same conjunction. -/
theorem chainConj {R : PRepr} (hR : R.WF) {u : Pred} {inc out : Edge T} (h : MergeOk R u inc out)
    (ht : out.tgt ≠ inc.tgt) (ρ : Valuation T) :
    (varSubstitute (Fla.conj ([inc, out].map Edge.fla)) (chainSubst R [inc, out])).holds ρ ↔
      (mergeConj R inc out).holds ρ := by
  rw [varSubstitute_holds]
  simp only [List.map_cons, List.map_nil, Fla.holds_conj, List.mem_cons, List.not_mem_nil, or_false, forall_eq_or_imp,
    forall_eq, mergeConj, Fla.holds_and, varSubstitute_holds, chainSubst, List.append_nil]
  refine and_congr Iff.rfl (Fla.holds_congr fun x hx => ?_)
  exact (tgtToSrc_eval hR _ ρ).2 x (h.out_t ht x hx)

theorem mergePre_fwd {R : PRepr} (hR : R.WF) {E : Elim T} (hE : E.Exact) {c : Nat} {u : Pred} {inc out : Edge T}
    (h : MergeOk R u inc out)
    (hc : ∀ x, (x ∈ inc.fla.vars ∨ x ∈ out.fla.vars) → ∀ k, x = .ver (.auxg k) 0 → k < c)
    (ρ : Valuation T) (hk : (mergeConj R inc out).holds ρ) :
    ∃ ρ' : Valuation T, (∀ x ∈ R.own (mergeSources u inc.tgt out.src) out.tgt, ρ' x = ρ x) ∧
      (mergePre R E c u inc out).2.1.holds ρ' := by
  unfold mergePre
  simp only
  split
  · rename_i hs
    exact ⟨ρ, fun _ _ => rfl, hE.except.weaker _ _ _ ((chainConj hR h hs.2 ρ).2 hk)⟩
  · have hl : (E.vars (R.srcVars inc.tgt 0) (mergeConj R inc out)).holds ρ := hE.weaker _ _ _ hk
    split
    · refine ⟨loopVal c (R.srcVars inc.tgt 0) ρ, ?_, ?_⟩
      · intro x hx
        exact loopVal_skip fun k e => absurd (e ▸ hx) own_not_ver
      · simp only [varSubstitute_holds]
        refine (Fla.holds_congr fun x hx => ?_).1 hl
        by_cases hv : x ∈ R.srcVars inc.tgt 0
        · obtain ⟨i, hi⟩ := List.mem_iff_getElem?.1 hv
          rw [loopSubst_mem hR hi]
          simp only [Tm.eval, loopVal]
          rw [if_pos (by omega), show c + i - c = i by omega, hi]
        · rw [loopSubst_skip hv]
          simp only [Tm.eval]
          refine (loopVal_skip ?_).symm
          have := mergeConj_vars hR (hE.novars _ _ x hx)
          refine hc x ?_
          rcases this with h1 | h1 | h1
          · exact absurd h1 hv
          · exact .inl h1.1
          · exact .inr h1
    · exact ⟨ρ, fun _ _ => rfl, hl⟩

theorem mergePre_bwd {R : PRepr} (hR : R.WF) {E : Elim T} (hE : E.Exact) {c : Nat} {u : Pred} {inc out : Edge T}
    (h : MergeOk R u inc out) (ρ : Valuation T) (hl : (mergePre R E c u inc out).2.1.holds ρ) :
    ∃ ρ' : Valuation T, (∀ x ∈ R.own (mergeSources u inc.tgt out.src) out.tgt, ρ' x = ρ x) ∧
      (mergeConj R inc out).holds ρ' := by
  unfold mergePre at hl
  simp only at hl
  split at hl
  · rename_i hs
    obtain ⟨ρ', h1, h2⟩ := hE.except.lift _ _ _ hl
    refine ⟨ρ', fun x hx => h1 x ?_, (chainConj hR h hs.2 ρ').1 h2⟩
    rw [count_one_single hs.1 h.once, mergeSources_single] at hx
    simpa [PRepr.own, PRepr.keys, instances, instancesAux] using hx
  · split at hl
    · simp only [varSubstitute_holds] at hl
      obtain ⟨ρ', h1, h2⟩ := hE.lift _ _ _ hl
      refine ⟨ρ', fun x hx => ?_, h2⟩
      have hv := own_new_not_v hR h hx
      rw [h1 x hv, loopSubst_skip hv]
      rfl
    · obtain ⟨ρ', h1, h2⟩ := hE.lift _ _ _ hl
      exact ⟨ρ', fun x hx => h1 x (own_new_not_v hR h hx), h2⟩

/-- Facts of the two edges under a solution of the conjunction. -/
theorem mergeConj_split {R : PRepr} (hR : R.WF) {u : Pred} {inc out : Edge T} (h : MergeOk R u inc out) {ρ : Valuation T}
    (hk : (mergeConj R inc out).holds ρ) :
    inc.Fires R [(u, (R.srcVars u 0).map ρ)] (inc.tgt, (R.srcVars inc.tgt 0).map ρ) ∧
      out.Fires R (out.srcFacts R ρ) (out.tgtFact R ρ) := by
  obtain ⟨h1, h2⟩ := hk
  rw [varSubstitute_holds] at h1
  refine ⟨⟨_, h1, ?_, ?_⟩, ρ, h2, rfl, rfl⟩
  · unfold Edge.srcFacts
    rw [h.isrc]
    simp only [instances, instancesAux, List.map_cons, List.map_nil, List.count_nil, List.cons.injEq, Prod.mk.injEq,
      true_and, and_true]
    apply List.map_congr_left
    intro x hx
    refine ((tgtToSrc_eval hR _ ρ).2 x ?_).symm
    obtain ⟨n, _, rfl⟩ := R.mem_srcVars.1 hx
    intro h'; obtain ⟨_, _, e⟩ := R.mem_tgtVars.1 h'; cases e
  · unfold Edge.tgtFact
    simp only [Prod.mk.injEq, true_and, PRepr.srcVars, PRepr.tgtVars, List.map_map]
    apply List.map_congr_left
    intro n hn
    exact ((tgtToSrc_eval hR _ ρ).1 n hn).symm

/-- Solutions of the two edges that agree on the common vertex combine. -/
theorem mergeConj_join {R : PRepr} (hR : R.WF) {u : Pred} {inc out : Edge T} (h : MergeOk R u inc out)
    {ρ1 ρ2 : Valuation T} (h1 : inc.fla.holds ρ1) (h2 : out.fla.holds ρ2)
    (hv : ∀ n ∈ R.args inc.tgt, ρ1 (.tgt n) = ρ2 (.src n 0)) :
    ∃ ρ : Valuation T, (mergeConj R inc out).holds ρ ∧ (∀ x ∈ R.srcVars u 0, ρ x = ρ1 x) ∧
      (∀ x ∈ R.own out.src out.tgt, ρ x = ρ2 x) := by
  classical
  let ρ : Valuation T := fun x =>
    if x ∈ R.srcVars u 0 ∨ (x ∈ inc.fla.vars ∧ x ∉ R.tgtVars inc.tgt) then ρ1 x else ρ2 x
  have hown : ∀ x ∈ R.own out.src out.tgt, x ∉ R.srcVars u 0 := by
    intro x hx hu
    rcases mem_own.1 hx with ⟨q, hq, hx⟩ | hx
    · refine R.srcVars_disjoint hR ?_ hx hu
      rintro e
      rw [Prod.mk.injEq] at e
      exact h.notin (e.1 ▸ mem_of_mem_instances hq)
    · obtain ⟨n, _, rfl⟩ := R.mem_tgtVars.1 hx
      obtain ⟨_, _, e⟩ := R.mem_srcVars.1 hu; cases e
  refine ⟨ρ, ⟨?_, ?_⟩, ?_, ?_⟩
  · rw [varSubstitute_holds]
    refine (Fla.holds_congr fun x hx => ?_).1 h1
    by_cases ht : x ∈ R.tgtVars inc.tgt
    · obtain ⟨n, hn, rfl⟩ := R.mem_tgtVars.1 ht
      rw [(tgtToSrc_eval hR _ ρ).1 n hn, hv n hn]
      have hs : Var.src n 0 ∈ R.srcVars inc.tgt 0 := R.mem_srcVars.2 ⟨n, hn, rfl⟩
      simp only [ρ]
      rw [if_neg]
      rintro (h' | h')
      · exact R.srcVars_disjoint hR (by simp [Ne.symm h.ne]) hs h'
      · exact h.in_v _ h'.1 hs
    · rw [(tgtToSrc_eval hR _ ρ).2 x ht]
      simp [ρ, hx, ht]
  · refine (Fla.holds_congr fun x hx => ?_).1 h2
    simp only [ρ]
    rw [if_neg]
    rintro (h' | h')
    · exact h.out_u x hx h'
    · exact (h.in_sep x h'.1 h'.2).1 hx
  · intro x hx; simp [ρ, hx]
  · intro x hx
    simp only [ρ]
    rw [if_neg]
    rintro (h' | h')
    · exact hown x hx h'
    · exact (h.in_sep x h'.1 h'.2).2 hx

/-- The edge made by `mergeEdgePair`. -/
def mergedEdge (R : PRepr) (E : Elim T) (st : GS T) (inc out : Edge T) : Edge T := (mergeEdgePair R E st inc out).2

theorem mergedEdge_eq {R : PRepr} {E : Elim T} {st : GS T} {u : Pred} {inc out : Edge T} (h : MergeOk R u inc out) :
    mergedEdge R E st inc out = ⟨mergeSources u inc.tgt out.src, out.tgt,
      (renameAuxiliaries R st.gaux ⟨mergeSources u inc.tgt out.src, out.tgt,
        (mergePre R E st.auxg u inc out).2.1, st.freeId⟩).1, st.freeId⟩ := by
  have : inc.src.headD .tru = u := by rw [h.isrc]; rfl
  simp only [mergedEdge, mergeEdgePair, this, mergePre_src h]

/-- `mergeEdgePair` composes the two edges: the new edge derives `head` from `body` exactly if the incoming edge derives
some fact of the common vertex from `fu` and the outgoing edge derives `head` using that fact. -/
theorem mergedEdge_fires {R : PRepr} (hR : R.WF) {E : Elim T} (hE : E.Exact) {st : GS T} {u : Pred} {inc out : Edge T}
    (h : MergeOk R u inc out)
    (hc : ∀ x, (x ∈ inc.fla.vars ∨ x ∈ out.fla.vars) → ∀ k, x = .ver (.auxg k) 0 → k < st.auxg)
    {body : List (Fact T)} {head : Fact T} :
    (mergedEdge R E st inc out).Fires R body head ↔
      ∃ fu fv bo, inc.Fires R [fu] fv ∧ out.Fires R bo head ∧ (∀ f ∈ bo, f.1 = inc.tgt → f = fv) ∧
        body = mergeBody u inc.tgt fu bo := by
  rw [mergedEdge_eq h]
  have hcount : out.src.count inc.tgt ≤ 1 := by rw [h.once]; omega
  constructor
  · rintro ⟨ρ, hl, rfl, rfl⟩
    obtain ⟨ρ1, e1, hl⟩ := renameAuxiliaries_bwd (e := ⟨_, _, _, _⟩) ρ hl
    obtain ⟨ρ2, e2, hk⟩ := mergePre_bwd hR hE h ρ1 hl
    obtain ⟨hi, ho⟩ := mergeConj_split hR h hk
    have hag : ∀ x ∈ R.own (mergeSources u inc.tgt out.src) out.tgt, ρ2 x = ρ x := fun x hx => (e2 x hx).trans (e1 x hx)
    refine ⟨_, _, out.srcFacts R ρ2, hi, ?_, ?_, ?_⟩
    · obtain ⟨_, e⟩ := own_facts (f := out.fla) (i := out.id) hag
      have : (out.tgtFact R ρ : Fact T) = out.tgtFact R ρ2 := e.symm
      show out.Fires R (out.srcFacts R ρ2) (out.tgtFact R ρ)
      rw [this]; exact ho
    · intro f hf hfv
      obtain ⟨q, hq, rfl⟩ := List.mem_map.1 hf
      simp only at hfv
      have hq0 : q.2 = 0 := by
        have key : ∀ (srcs seen : List Pred), (seen ++ srcs).count inc.tgt ≤ 1 → ∀ q ∈ instancesAux seen srcs,
            q.1 = inc.tgt → q.2 = 0 := by
          intro srcs
          induction srcs with
          | nil => intro _ _ q hq; simp [instancesAux] at hq
          | cons p srcs ih =>
            intro seen hc q hq hqv
            simp only [instancesAux, List.mem_cons] at hq
            rcases hq with rfl | hq
            · simp only at hqv
              subst hqv
              rw [List.count_append, List.count_cons_self] at hc
              simp only; omega
            · refine ih (p :: seen) ?_ q hq hqv
              rw [List.count_append] at hc ⊢
              simp only [List.count_cons] at hc ⊢
              omega
        exact key out.src [] (by simpa using hcount) q hq hfv
      simp only [hfv, hq0]
    · obtain ⟨e, _⟩ := own_facts (f := out.fla) (i := out.id) hag
      refine Eq.trans e.symm ?_
      rw [mergeSources_facts hR h.notin hcount]
  · rintro ⟨fu, fv, bo, ⟨ρ1, h1, e1, rfl⟩, ⟨ρ2, h2, rfl, rfl⟩, hv, rfl⟩
    have hfu : fu = (u, (R.srcVars u 0).map ρ1) := by
      unfold Edge.srcFacts at e1
      rw [h.isrc] at e1
      simpa [instances, instancesAux] using e1
    subst hfu
    have hmem : (inc.tgt, 0) ∈ instances out.src := by
      have key : ∀ (srcs seen : List Pred), inc.tgt ∈ srcs → inc.tgt ∉ seen → (inc.tgt, 0) ∈ instancesAux seen srcs := by
        intro srcs
        induction srcs with
        | nil => intro _ h; simp at h
        | cons p srcs ih =>
          intro seen hm hs
          simp only [instancesAux, List.mem_cons]
          by_cases hp : p = inc.tgt
          · left; subst hp; rw [List.count_eq_zero.2 hs]
          · right
            refine ih (p :: seen) ?_ (by simp [hs, Ne.symm hp])
            rcases List.mem_cons.1 hm with h | h
            · exact absurd h.symm hp
            · exact h
      exact key out.src [] (List.count_pos_iff.1 (by rw [h.once]; omega)) (by simp)
    have hv' := hv (inc.tgt, (R.srcVars inc.tgt 0).map ρ2) (List.mem_map.2 ⟨_, hmem, rfl⟩) rfl
    simp only [Edge.tgtFact, Prod.mk.injEq, true_and, PRepr.srcVars, PRepr.tgtVars, List.map_map] at hv'
    have hvals : ∀ n ∈ R.args inc.tgt, ρ1 (.tgt n) = ρ2 (.src n 0) := by
      intro n hn
      exact (List.map_inj_left.1 hv' n hn).symm
    obtain ⟨ρ, hk, ha, hb⟩ := mergeConj_join hR h h1 h2 hvals
    obtain ⟨ρ3, e3, hl⟩ := mergePre_fwd hR hE h hc ρ hk
    obtain ⟨ρ4, e4, hl⟩ := renameAuxiliaries_fwd (R := R) (c := st.gaux)
      (e := ⟨mergeSources u inc.tgt out.src, out.tgt, (mergePre R E st.auxg u inc out).2.1, st.freeId⟩) ρ3 hl
    have hag : ∀ x ∈ R.own (mergeSources u inc.tgt out.src) out.tgt, ρ x = ρ4 x :=
      fun x hx => ((e4 x hx).trans (e3 x hx)).symm
    refine ⟨ρ4, hl, ?_, ?_⟩
    · obtain ⟨e, _⟩ := own_facts (f := out.fla) (i := out.id) hag
      refine Eq.trans ?_ e
      rw [mergeSources_facts hR h.notin hcount]
      have e5 : (R.srcVars u 0).map ρ = (R.srcVars u 0).map ρ1 := List.map_congr_left ha
      obtain ⟨e6, _⟩ := own_facts (f := out.fla) (i := out.id) hb
      rw [e5, e6]
    · obtain ⟨_, e⟩ := own_facts (f := out.fla) (i := out.id) hag
      obtain ⟨_, e6⟩ := own_facts (f := out.fla) (i := out.id) hb
      exact e6.symm.trans e

end Golem
