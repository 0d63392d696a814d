import Mathlib.Data.Set.Finite.Lattice
import Mathlib.Data.Set.Finite.List
import Mathlib.Order.Interval.Set.Infinite
import Mathlib.Order.Interval.Finset.Defs
import Mathlib.Data.Int.Interval
import Verif.Lemmas.MBPInt

/-! The projections of one formula, over all models, are finitely many. -/

namespace Golem

/-- The function takes finitely many values on the set. -/
structure FinOn {ι α : Type} (W : Set ι) (g : ι → α) : Prop where
  fin : (g '' W).Finite

section
variable {ι α β : Type} {W : Set ι}

theorem FinOn.const (a : α) : FinOn W fun _ => a :=
  ⟨Set.Finite.subset (Set.finite_singleton a) (by rintro _ ⟨_, _, rfl⟩; simp)⟩

theorem FinOn.bind' {g : ι → α} {h : α → ι → β} (hg : FinOn W g) (hh : ∀ i ∈ W, FinOn W (h (g i))) :
    FinOn W fun i => h (g i) i := by
  refine ⟨Set.Finite.subset (hg.fin.biUnion (t := fun a => h a '' W) ?_) ?_⟩
  · rintro _ ⟨i, hi, rfl⟩; exact (hh i hi).fin
  rintro _ ⟨i, hi, rfl⟩
  exact Set.mem_biUnion ⟨i, hi, rfl⟩ ⟨i, hi, rfl⟩

theorem FinOn.bind {g : ι → α} {h : α → ι → β} (hg : FinOn W g) (hh : ∀ a, FinOn W (h a)) :
    FinOn W fun i => h (g i) i := hg.bind' fun i _ => hh (g i)

theorem FinOn.comp {κ : Type} {φ : κ → ι} {V : Set κ} {g : ι → α} (h : FinOn (φ '' V) g) : FinOn V fun k => g (φ k) := by
  have := h.fin
  rw [Set.image_image] at this
  exact ⟨this⟩

theorem FinOn.map {g : ι → α} (hg : FinOn W g) (h : α → β) : FinOn W fun i => h (g i) :=
  hg.bind (h := fun a _ => h a) fun _ => .const _

theorem FinOn.ite {c : ι → Prop} [∀ i, Decidable (c i)] {g h : ι → α} (hg : FinOn W g) (hh : FinOn W h) :
    FinOn W fun i => if c i then g i else h i := by
  refine ⟨Set.Finite.subset (hg.fin.union hh.fin) ?_⟩
  rintro _ ⟨i, hi, rfl⟩
  by_cases e : c i
  · simp only [e, if_true]; exact .inl ⟨i, hi, rfl⟩
  · simp only [e, if_false]; exact .inr ⟨i, hi, rfl⟩

theorem FinOn.prod {g : ι → α} {h : ι → β} (hg : FinOn W g) (hh : FinOn W h) : FinOn W fun i => (g i, h i) :=
  hg.bind (h := fun a i => (a, h i)) fun _ => hh.map _

theorem FinOn.of_subset {g : ι → α} {s : Set α} (hs : s.Finite) (h : ∀ i ∈ W, g i ∈ s) : FinOn W g :=
  ⟨hs.subset (by rintro _ ⟨i, hi, rfl⟩; exact h i hi)⟩

theorem FinOn.obind' {g : ι → Option α} {h : α → ι → Option β} (hg : FinOn W g)
    (hh : ∀ i ∈ W, ∀ a, g i = some a → FinOn W (h a)) : FinOn W fun i => (g i).bind fun a => h a i := by
  refine hg.bind' (h := fun o i => o.bind fun a => h a i) fun i hi => ?_
  cases e : g i with
  | none => exact .const _
  | some a => exact hh i hi a e

theorem FinOn.obind {g : ι → Option α} {h : α → ι → Option β} (hg : FinOn W g) (hh : ∀ a, FinOn W (h a)) :
    FinOn W fun i => (g i).bind fun a => h a i := hg.obind' fun _ _ a _ => hh a

theorem FinOn.mapM {l : List α} {g : ι → α → Option β} (h : ∀ a, FinOn W fun i => g i a) :
    FinOn W fun i => l.mapM (g i) := by
  induction l with
  | nil => exact .const _
  | cons a l ih =>
    simp only [List.mapM_cons, Option.bind_eq_bind]
    exact (h a).obind (h := fun b i => (l.mapM (g i)).bind fun bs => pure (b :: bs)) fun b =>
      ih.obind (h := fun bs _ => pure (b :: bs)) fun bs => .const _

theorem FinOn.flatMap {l : List α} {g : ι → α → List β} (h : ∀ a ∈ l, FinOn W fun i => g i a) :
    FinOn W fun i => l.flatMap (g i) := by
  induction l with
  | nil => exact .const _
  | cons a l ih =>
    simp only [List.flatMap_cons]
    exact (h a (by simp)).bind (h := fun b i => b ++ l.flatMap (g i)) fun b => (ih fun a ha => h a (by simp [ha])).map _

end

/-! ### Implicants -/

section
variable {T : Theory} {W : Set (Valuation T)}

theorem collect_fin (xs : List Var) (f : Fla T) (st : List (Fla T) × List (Lit T)) :
    FinOn W fun ρ => collectImplicant ρ xs f st := by
  induction f generalizing st with
  | and f g ihf ihg =>
    obtain ⟨seen, lits⟩ := st
    simp only [collectImplicant]
    split
    · exact .const _
    · exact (ihf _).obind (h := fun st ρ => collectImplicant ρ xs g st) fun st => ihg st
  | or f g ihf ihg =>
    obtain ⟨seen, lits⟩ := st
    simp only [collectImplicant]
    split
    · exact .const _
    split
    · exact .const _
    exact .ite (ihf _) (.ite (ihg _) (.const _))
  | not f ih =>
    obtain ⟨seen, lits⟩ := st
    simp only [collectImplicant]
    exact .const _
  | _ => obtain ⟨seen, lits⟩ := st; simp only [collectImplicant]; exact .const _

end

/-! ### Reals -/

section
variable {W : Set (Var → Rat)}

theorem realScan_fin (acc ls : List (MLit Rat)) : FinOn W fun ρ => realScan ρ acc ls := by
  induction ls generalizing acc with
  | nil => exact .const _
  | cons l ls ih =>
    obtain ⟨a, s⟩ := l
    cases a with
    | eq p =>
      cases s with
      | true => exact .const _
      | false =>
        simp only [realScan]
        refine FinOn.bind (g := fun ρ => replaceDiseq ρ p) (h := fun l ρ => realScan ρ (acc ++ [l]) ls) ?_ fun l => ih _
        exact .ite (.const _) (.const _)
    | leq p => exact ih _
    | dvd c p => exact ih _

theorem pickHighest_fin (us : List Bound) (cur : Bound) (bs : List Bound) : FinOn W fun ρ => pickHighest ρ us cur bs := by
  induction bs generalizing cur with
  | nil => exact .const _
  | cons b bs ih =>
    simp only [pickHighest]
    exact .ite (ih _) (.ite (.const _) (ih _))

theorem projectBounds_fin (bounds : List Bound) (rest : List (MLit Rat)) :
    FinOn W fun ρ => projectBounds ρ bounds rest := by
  unfold projectBounds
  simp only
  split
  · exact .const _
  · exact .const _
  · refine FinOn.obind (g := fun ρ => newLiterals ρ _ _ _ _ _) (h := fun n _ => some (postprocess MLit.view MLit.mkLeq (n ++ rest)))
      ?_ fun _ => .const _
    unfold newLiterals
    split
    · exact .const _
    split
    · exact .const _
    exact (pickHighest_fin _ _ _).map fun b => substituteBounds b bounds

theorem projectRealVar_fin (x : Var) (lits : List (MLit Rat)) : FinOn W fun ρ => projectRealVar ρ x lits := by
  unfold projectRealVar
  simp only
  refine (realScan_fin [] _).bind (h := fun s ρ => match s with
    | .eq p all => some ((all.map (MLit.subst x (solveFor x p)) ++ lits.filter fun l => !MLit.hasVar x l).filter
        fun l => !MLit.trivial l)
    | .ineqs l => (l.mapM (toBound x)).bind fun bs => projectBounds ρ bs (lits.filter fun l => !MLit.hasVar x l))
    fun s => ?_
  cases s with
  | eq p all => exact .const _
  | ineqs l =>
    simp only
    cases l.mapM (toBound x) with
    | none => exact .const _
    | some bs => exact projectBounds_fin _ _

theorem projectRealVars_fin (xs : List Var) (lits : List (MLit Rat)) : FinOn W fun ρ => projectRealVars ρ xs lits := by
  induction xs generalizing lits with
  | nil => exact .const _
  | cons x xs ih => exact (projectRealVar_fin x lits).obind (h := fun l ρ => projectRealVars ρ xs l) fun l => ih l

end

/-! ### Integers -/

section
variable {W : Set (Var → Int)}

theorem emod_fin (g : (Var → Int) → Int) (d : Int) (hd : d ≠ 0) : FinOn W fun ρ => g ρ % d := by
  refine FinOn.of_subset (Set.finite_Ico (0 : Int) (d.natAbs : Int)) fun ρ _ => ?_
  refine ⟨Int.emod_nonneg _ hd, ?_⟩
  have := Int.emod_lt_abs (g ρ) hd
  rwa [Int.abs_eq_natAbs] at this

theorem emod_bind {β : Type} (x : Var) (d : Int) (hd : d ≠ 0) (H : Int → (Var → Int) → β) (hH : ∀ u, FinOn W (H u)) :
    FinOn W fun ρ => H (ρ x % d) ρ := (emod_fin (fun ρ => ρ x) d hd).bind hH

theorem toIBound_fin (x : Var) (l : MLit Int) : FinOn W fun ρ => toIBound ρ x l := by
  obtain ⟨a, s⟩ := l
  cases a with
  | eq p =>
    cases s with
    | true => exact .const _
    | false =>
      simp only [toIBound]
      exact FinOn.map (.ite (.const _) (.const _)) some
  | leq p => exact .const _
  | dvd c p => exact .const _

theorem pickGreatest_fin (cur : Poly Int × Int) (others bs : List (Poly Int × Int)) :
    FinOn W fun ρ => pickGreatest ρ cur others bs := by
  induction bs generalizing cur others with
  | nil => exact .const _
  | cons b bs ih =>
    simp only [pickGreatest]
    exact .ite (ih _ _) (ih _ _)

theorem resolve_fin (low up : Poly Int × Int) (h1 : low.2 ≠ 0) (h2 : up.2 ≠ 0) : FinOn W fun ρ => resolve ρ low up := by
  obtain ⟨s, b⟩ := low
  obtain ⟨t, a⟩ := up
  unfold resolve
  simp only
  refine .ite (.const _) ?_
  split
  · exact (emod_fin (fun ρ => -s.eval ρ) b h1).map fun d => (iLeq (.smul a s) (.smul b t) ++
      (if d = 0 then [] else iLeq (.smul a (s.add (.const d))) (.smul b t)), [(⟨b, s.add (.const d)⟩ : DivC)])
  · exact (emod_fin (fun ρ => t.eval ρ) a h2).map fun d => (iLeq (.smul a s) (.smul b t) ++
      (if d = 0 then [] else iLeq (.smul a s) (.smul b (t.sub (.const d)))), [(⟨a, t.sub (.const d)⟩ : DivC)])

theorem pickGreatest_mem {L : List (Poly Int × Int)} (ρ : Var → Int) (bs : List (Poly Int × Int)) (cur : Poly Int × Int)
    (others : List (Poly Int × Int)) (hc : cur ∈ L) (hb : ∀ b ∈ bs, b ∈ L) : (pickGreatest ρ cur others bs).1 ∈ L := by
  induction bs generalizing cur others with
  | nil => exact hc
  | cons b bs ih =>
    simp only [pickGreatest]
    split
    · exact ih _ _ (hb b (by simp)) fun b hb' => hb b (by simp [hb'])
    · exact ih _ _ hc fun b hb' => hb b (by simp [hb'])

theorem eliminateBounds_fin (bs : List IBound) (hbs : ∀ b ∈ bs, 0 < b.a) : FinOn W fun ρ => eliminateBounds ρ bs := by
  unfold eliminateBounds
  split
  · rcases heq : lowersOf bs with _ | ⟨l, ls⟩
    · exact .const _
    rcases hus : uppersOf bs with _ | ⟨u, us⟩
    · exact .const _
    · rw [← hus]
      have hlow : ∀ q ∈ l :: ls, q.2 ≠ 0 := by
        intro q hq
        rw [← heq, mem_lowersOf] at hq
        exact (hbs _ hq).ne'
      have hup : ∀ q ∈ uppersOf bs, q.2 ≠ 0 := by
        intro q hq
        rw [mem_uppersOf] at hq
        exact (hbs _ hq).ne'
      have key : FinOn W fun ρ => (fun g ρ => ((uppersOf bs).flatMap fun u => (resolve ρ g.1 u).2,
        (g.2.flatMap fun b => iLeq (.smul g.1.2 b.1) (.smul b.2 g.1.1)) ++
          (uppersOf bs).flatMap fun u => (resolve ρ g.1 u).1)) (pickGreatest ρ l [] ls) ρ := by
        refine (pickGreatest_fin l [] ls).bind' (h := fun g ρ => ((uppersOf bs).flatMap fun u => (resolve ρ g.1 u).2,
          (g.2.flatMap fun b => iLeq (.smul g.1.2 b.1) (.smul b.2 g.1.1)) ++
            (uppersOf bs).flatMap fun u => (resolve ρ g.1 u).1)) fun ρ _ => ?_
        have hg := hlow _ (pickGreatest_mem (L := l :: ls) ρ ls l [] (by simp) fun b hb => by simp [hb])
        generalize pickGreatest ρ l [] ls = g at hg
        exact .prod (.flatMap fun u hu => (resolve_fin _ _ hg (hup u hu)).map Prod.snd)
          ((FinOn.flatMap fun u hu => (resolve_fin _ _ hg (hup u hu)).map Prod.fst).map _)
      rw [hus] at key ⊢
      exact key
  · exact .const _

theorem toIBound_pos {ρ : Var → Int} {x : Var} {l : MLit Int} {b : IBound} (h : toIBound ρ x l = some b)
    (hx : l.Has x) : 0 < b.a := by
  obtain ⟨a, s⟩ := l
  cases a with
  | eq p =>
    have hx : p.coeff x ≠ 0 := hx
    cases s with
    | true =>
      simp only [toIBound, Option.some.injEq] at h
      subst h
      split <;> simp only [IBound.a] <;> omega
    | false =>
      simp only [toIBound, Option.some.injEq] at h
      subst h
      split <;> split <;> simp only [IBound.a] <;> omega
  | leq p =>
    have hx : p.coeff x ≠ 0 := hx
    simp only [toIBound, Option.some.injEq] at h
    subst h
    cases s with
    | true => simp only [if_true]; split <;> simp only [IBound.a] <;> omega
    | false =>
      simp only [Bool.false_eq_true, if_false, Poly.coeff_sub, Poly.coeff_const]
      split <;> simp only [IBound.a] <;> omega
  | dvd c p => cases h

theorem eliminateBounds_pos {ρ : Var → Int} {bs : List IBound} (hbs : ∀ b ∈ bs, 0 < b.a) :
    ∀ d ∈ (eliminateBounds ρ bs).1, 0 < d.c := by
  unfold eliminateBounds
  split
  · rcases heq : lowersOf bs with _ | ⟨l, ls⟩
    · simp
    rcases hus : uppersOf bs with _ | ⟨u, us⟩
    · simp
    · rw [← hus]
      have hlow : ∀ q ∈ l :: ls, 0 < q.2 := by
        intro q hq
        rw [← heq, mem_lowersOf] at hq
        exact hbs _ hq
      intro d hd
      have hd : d ∈ (uppersOf bs).flatMap fun u => (resolve ρ (pickGreatest ρ l [] ls).1 u).2 := by
        rw [hus] at hd ⊢; exact hd
      obtain ⟨u, hu, hd⟩ := List.mem_flatMap.1 hd
      rw [mem_uppersOf] at hu
      exact resolve_pos (hlow _ (pickGreatest_mem (L := l :: ls) ρ ls l [] (by simp) fun b hb => by simp [hb]))
        (hbs _ hu) d hd
  · rename_i t a eqs heq
    have : IBound.eq t a ∈ bs := by
      have : (t, a) ∈ equalsOf bs := by rw [heq]; simp
      exact mem_equalsOf.1 this
    have := hbs _ this
    intro d hd
    simp only at hd
    split at hd
    · simp at hd
    · simp at hd; subst hd; exact this

theorem bounds_pos {ρ : Var → Int} {x : Var} {lits : List (MLit Int)} {bs : List IBound}
    (h : (lits.filter (MLit.hasVar x)).mapM (toIBound ρ x) = some bs) : ∀ b ∈ bs, 0 < b.a := by
  intro b hb
  obtain ⟨l, hl, h⟩ := (mapM_some h).2 b hb
  exact toIBound_pos h (MLit.hasVar_iff.1 (List.mem_filter.1 hl).2)

theorem processClassic_fin (x : Var) (divs : List DivC) (lits : List (MLit Int)) :
    FinOn W fun ρ => processClassic ρ x divs lits := by
  unfold processClassic
  simp only [Option.bind_eq_bind]
  refine FinOn.obind' (g := fun ρ => (lits.filter (MLit.hasVar x)).mapM (toIBound ρ x))
    (h := fun bs ρ => some (divs ++ (eliminateBounds ρ bs).1, (eliminateBounds ρ bs).2 ++
      lits.filter fun l => !MLit.hasVar x l)) (.mapM fun l => toIBound_fin x l) fun ρ _ bs hbs => ?_
  exact (eliminateBounds_fin bs (bounds_pos hbs)).map fun e => some (divs ++ e.1, e.2 ++ lits.filter fun l => !MLit.hasVar x l)

theorem processClassic_pos {ρ : Var → Int} {x : Var} {divs : List DivC} {lits : List (MLit Int)}
    {r : List DivC × List (MLit Int)} (hpos : ∀ d ∈ divs, 0 < d.c) (h : processClassic ρ x divs lits = some r) :
    ∀ d ∈ r.1, 0 < d.c := by
  unfold processClassic at h
  simp only [Option.bind_eq_bind, Option.bind_eq_some_iff, Option.pure_def, Option.some.injEq] at h
  obtain ⟨bs, hbs, rfl⟩ := h
  intro d hd
  rcases List.mem_append.1 hd with h | h
  · exact hpos d h
  · exact eliminateBounds_pos (bounds_pos hbs) d h

theorem processDiv_fin (x : Var) (divs : List DivC) (lits : List (MLit Int)) (hpos : ∀ d ∈ divs, 0 < d.c) :
    FinOn W fun ρ => processDiv ρ x divs lits := by
  unfold processDiv
  simp only
  split
  · exact processClassic_fin _ _ _
  · rename_i d0 ds hds
    have hp : ∀ d ∈ d0 :: ds, 0 < d.c := by
      intro d hd
      rw [← hds] at hd
      exact hpos d (List.mem_filter.1 hd).1
    obtain ⟨hd, _⟩ := foldl_lcm (ds := ds) d0.c (hp d0 (by simp)) fun d hd => hp d (by simp [hd])
    generalize ds.foldl (fun acc e => (Int.lcm acc e.c : Int)) d0.c = d at hd
    have key : ∀ (u : Int) D L, FinOn W fun ρ : Var → Int =>
        processClassic (fun y => if y = mbpTmp then (ρ x - u) / d else ρ y) mbpTmp D L := fun u D L =>
      FinOn.comp (g := fun ρ => processClassic ρ mbpTmp D L)
        (φ := fun (ρ : Var → Int) y => if y = mbpTmp then (ρ x - u) / d else ρ y) (processClassic_fin mbpTmp D L)
    have fin : ∀ (D : Int → List DivC) (L : Int → List (MLit Int)), FinOn W fun ρ : Var → Int =>
        processClassic (fun y => if y = mbpTmp then (ρ x - ρ x % d) / d else ρ y) mbpTmp (D (ρ x % d)) (L (ρ x % d)) :=
      fun D L => emod_bind x d hd.ne' (fun u ρ =>
        processClassic (fun y => if y = mbpTmp then (ρ x - u) / d else ρ y) mbpTmp (D u) (L u)) fun u => key u (D u) (L u)
    exact fin (fun u => ((divs.filter fun d => d.p.hasVar x).map fun e => (⟨e.c, e.p.subst x (.const u)⟩ : DivC)) ++
          divs.filter fun d => !d.p.hasVar x)
        (fun u => lits.map (MLit.subst x (Poly.add (.const u) (.smul d (.ofVar mbpTmp)))))

theorem processDiv_pos {ρ : Var → Int} {x : Var} {divs : List DivC} {lits : List (MLit Int)}
    {r : List DivC × List (MLit Int)} (hpos : ∀ d ∈ divs, 0 < d.c) (h : processDiv ρ x divs lits = some r) :
    ∀ d ∈ r.1, 0 < d.c := by
  unfold processDiv at h
  simp only at h
  split at h
  · exact processClassic_pos hpos h
  · rename_i d0 ds hds
    refine processClassic_pos ?_ h
    intro d hd
    rcases List.mem_append.1 hd with hd | hd
    · obtain ⟨e, he, rfl⟩ := List.mem_map.1 hd
      exact hpos e (List.mem_filter.1 he).1
    · exact hpos d (List.mem_filter.1 hd).1

theorem projectIntLoop_fin (xs : List Var) (divs : List DivC) (lits : List (MLit Int)) (hpos : ∀ d ∈ divs, 0 < d.c) :
    FinOn W fun ρ => projectIntLoop ρ xs divs lits := by
  induction xs generalizing divs lits with
  | nil => exact .const _
  | cons x xs ih =>
    refine FinOn.obind' (g := fun ρ => projectIntVar ρ x divs lits) (h := fun r ρ => projectIntLoop ρ xs r.1 r.2) ?_ ?_
    · unfold projectIntVar
      split
      · exact processClassic_fin _ _ _
      · exact processDiv_fin _ _ _ hpos
    · intro ρ _ r hr
      refine ih _ _ ?_
      unfold projectIntVar at hr
      split at hr
      · exact processClassic_pos hpos hr
      · exact processDiv_pos hpos hr

theorem projectIntVars_fin (xs : List Var) (lits : List (MLit Int)) (hpos : ∀ l ∈ lits, ∀ c p, l.1 = .dvd c p → 0 < c) :
    FinOn W fun ρ => projectIntVars ρ xs lits := by
  unfold projectIntVars
  simp only [Option.bind_eq_bind]
  refine FinOn.obind (g := fun ρ => projectIntLoop ρ xs _ _)
    (h := fun r _ => some (r.2 ++ r.1.map fun d => (.dvd d.c d.p, true))) (projectIntLoop_fin _ _ _ ?_) fun _ => .const _
  intro d hd
  obtain ⟨⟨a, s⟩, hl, h⟩ := List.mem_filterMap.1 hd
  cases a <;> cases s <;> simp [MLit.toDiv] at h
  subst h
  exact hpos _ hl _ _ rfl

end

/-! ### The whole projection -/

section
variable {K : Type} [CommRing K] [LinearOrder K] [IsStrictOrderedRing K] {md : K → K → K}

theorem parse_pos {l : List (Lit (laTheory K md))} {w : List (MLit K)} (h : l.mapM MLit.parse = some w) :
    ∀ m ∈ w, ∀ c p, m.1 = .dvd c p → 0 < c := by
  intro m hm
  obtain ⟨l, _, h⟩ := (mapM_some h).2 m hm
  exact (MLit.parse_spec h).2.2

theorem mbpProject_fin {W : Set (Var → K)} {core : (Var → K) → List Var → List (MLit K) → Option (List (MLit K))}
    {isBool : Var → Bool} (hcore : ∀ xs lits, (∀ l ∈ lits, ∀ c p, l.1 = .dvd c p → 0 < c) → FinOn W fun ρ => core ρ xs lits)
    (hW : ∀ ρ ∈ W, ∀ x, isBool x = true → ρ x = 0 ∨ ρ x = 1) (f : Fla (laTheory K md)) (vs : List Var) :
    FinOn W fun ρ => mbpProject (md := md) core isBool f vs ρ := by
  have h1 : ∀ bs : List Var, (∀ x ∈ bs, isBool x = true) → FinOn W fun ρ : Var → K =>
      (fun x => if x ∈ bs then .const (ρ x) else .var x : Var → Tm (laTheory K md)) := by
    intro bs hbs
    induction bs with
    | nil => simp only [List.not_mem_nil, if_false]; exact .const _
    | cons b bs ih =>
      have hb : FinOn W fun ρ : Var → K => ρ b :=
        .of_subset (s := {0, 1}) (Set.toFinite _) fun ρ hρ => by simpa using hW ρ hρ b (hbs b (by simp))
      have := (ih fun x hx => hbs x (by simp [hx])).bind (h := fun σ (ρ : Var → K) =>
        (fun x => if x = b then .const (ρ b) else σ x : Var → Tm (laTheory K md))) fun σ =>
        hb.map fun v => (fun x => if x = b then .const v else σ x : Var → Tm (laTheory K md))
      convert this using 3 with ρ x
      by_cases e : x = b
      · subst e; simp
      · simp [e]
  unfold mbpProject
  simp only
  have hbs : ∀ x ∈ vs.filter isBool, isBool x = true := fun x hx => (List.mem_filter.1 hx).2
  generalize vs.filter isBool = bs at hbs
  generalize (vs.filter fun x => !isBool x) = ns
  refine FinOn.bind (g := fun ρ => if bs = [] then f else f.subst fun x => if x ∈ bs then .const (ρ x) else .var x)
    (h := fun f1 ρ => if ns = [] then some f1
      else (toNNF f1).bind fun nnf => (collectImplicant ρ ns nnf ([], [])).bind fun st =>
        ((st.2.filter fun l => interesting ns l.1).mapM MLit.parse).bind fun w => (core ρ ns w).bind fun r =>
        some (Fla.conj ((postprocess ELit.view ELit.mk (r.map Sum.inl ++
          (st.2.filter fun l => !interesting ns l.1).map ELit.ofLit)).map ELit.fla))) ?_ fun f1 => ?_
  · split
    · exact .const _
    · exact (h1 bs hbs).map fun σ => f.subst σ
  · split
    · exact .const _
    · cases toNNF f1 with
      | none => exact .const _
      | some nnf =>
        refine (collect_fin ns nnf ([], [])).obind (h := fun st ρ =>
          ((st.2.filter fun l => interesting ns l.1).mapM MLit.parse).bind fun w => (core ρ ns w).bind fun r =>
          some (Fla.conj ((postprocess ELit.view ELit.mk (r.map Sum.inl ++
            (st.2.filter fun l => !interesting ns l.1).map ELit.ofLit)).map ELit.fla))) fun st => ?_
        cases hw : (st.2.filter fun l => interesting ns l.1).mapM MLit.parse with
        | none => exact .const _
        | some w =>
          have := (hcore ns w (parse_pos hw)).map fun o => o.bind fun r =>
            some (Fla.conj ((postprocess ELit.view ELit.mk (r.map Sum.inl ++
              (st.2.filter fun l => !interesting ns l.1).map ELit.ofLit)).map (ELit.fla (md := md))))
          exact this

end

end Golem
