import Verif.Lemmas.MBPReal
import Verif.Lemmas.MBPInt
import Verif.Lemmas.MBPTotal
import Verif.Lemmas.MBPFin
import Verif.Props.QE
import Verif.Props.TrivialQE

/-! C35: model-based projection. -/

namespace Golem

section
variable {T : Theory}

/-! ### The implicant -/

/-- The literals imply the formula. -/
def LitsEntail (lits : List (Lit T)) (f : Fla T) : Prop := ∀ ρ : Valuation T, (∀ l ∈ lits, l.fla.holds ρ) → f.holds ρ

theorem LitsEntail.mono {a b : List (Lit T)} {f : Fla T} (h : ∀ l ∈ a, l ∈ b) (ha : LitsEntail a f) : LitsEntail b f :=
  fun ρ hb => ha ρ fun l hl => hb l (h l hl)

theorem LitsEntail.mem {a : List (Lit T)} {l : Lit T} (h : l ∈ a) : LitsEntail a l.fla := fun _ hb => hb l h

structure CollectOk (ρ : Valuation T) (f : Fla T) (seen : List (Fla T)) (lits : List (Lit T)) (seen' : List (Fla T))
    (lits' : List (Lit T)) : Prop where
  sub : ∀ l ∈ lits, l ∈ lits'
  new : ∀ l ∈ lits', l ∈ lits ∨ (l.fla.holds ρ ∧ ∀ x ∈ l.1.vars, x ∈ f.vars)
  seen : ∀ g ∈ seen', g ∈ seen ∨ LitsEntail lits' g
  entails : LitsEntail lits' f

theorem collect_skip {ρ : Valuation T} {f : Fla T} {seen : List (Fla T)} {lits : List (Lit T)} (h : LitsEntail lits f) :
    CollectOk ρ f seen lits seen lits :=
  ⟨fun _ h => h, fun _ h => .inl h, fun _ h => .inl h, h⟩

theorem collect_leaf {ρ : Valuation T} {f : Fla T} {seen : List (Fla T)} {lits : List (Lit T)} {l : Lit T}
    (hl : l.fla = f) (hv : l.1.vars = f.vars) (h : f.holds ρ) :
    CollectOk ρ f seen lits (f :: seen) (lits ++ [l]) := by
  have e : LitsEntail (lits ++ [l]) f := by
    rw [← hl]; exact LitsEntail.mem (by simp)
  refine ⟨fun _ h => by simp [h], fun k hk => ?_, fun g hg => ?_, e⟩
  · rcases List.mem_append.1 hk with h | h
    · exact .inl h
    · simp only [List.mem_singleton] at h
      subst h
      exact .inr ⟨by rw [hl]; exact h, fun x hx => by rw [← hv]; exact hx⟩
  · rcases List.mem_cons.1 hg with rfl | h
    · exact .inr e
    · exact .inl h

theorem collect_spec {ρ : Valuation T} {xs : List Var} {f : Fla T} {seen seen' : List (Fla T)} {lits lits' : List (Lit T)}
    (hf : f.holds ρ) (hI : ∀ g ∈ seen, LitsEntail lits g ∨ sizeOf f < sizeOf g)
    (h : collectImplicant ρ xs f (seen, lits) = some (seen', lits')) : CollectOk ρ f seen lits seen' lits' := by
  have skip : ∀ {f : Fla T} {seen : List (Fla T)} {lits : List (Lit T)},
      (∀ g ∈ seen, LitsEntail lits g ∨ sizeOf f < sizeOf g) → f ∈ seen → CollectOk ρ f seen lits seen lits := by
    intro f seen lits hI h
    rcases hI f h with h | h
    · exact collect_skip h
    · omega
  induction f generalizing seen lits seen' lits' with
  | and f g ihf ihg =>
    unfold collectImplicant at h
    split at h
    · rename_i hs; cases h; exact skip hI hs
    · simp only [Option.bind_eq_bind, Option.bind_eq_some_iff] at h
      obtain ⟨⟨s1, l1⟩, h1, h2⟩ := h
      have o1 := ihf hf.1 (fun k hk => by
        rcases List.mem_cons.1 hk with rfl | hk
        · right; simp; omega
        · rcases hI k hk with h | h
          · exact .inl h
          · right; simp at h; omega) h1
      have o2 := ihg hf.2 (fun k hk => by
        rcases o1.seen k hk with hk | hk
        · rcases List.mem_cons.1 hk with rfl | hk
          · right; simp
          · rcases hI k hk with h | h
            · exact .inl (h.mono o1.sub)
            · right; simp at h; omega
        · exact .inl hk) h2
      have e : LitsEntail lits' (.and f g) := fun ρ' h' => ⟨o1.entails.mono o2.sub ρ' h', o2.entails ρ' h'⟩
      refine ⟨fun l hl => o2.sub l (o1.sub l hl), fun l hl => ?_, fun k hk => ?_, e⟩
      · rcases o2.new l hl with hl | ⟨a, b⟩
        · rcases o1.new l hl with hl | ⟨a, b⟩
          · exact .inl hl
          · exact .inr ⟨a, fun x hx => by simp [Fla.vars, b x hx]⟩
        · exact .inr ⟨a, fun x hx => by simp [Fla.vars, b x hx]⟩
      · rcases o2.seen k hk with hk | hk
        · rcases o1.seen k hk with hk | hk
          · rcases List.mem_cons.1 hk with rfl | hk
            · exact .inr e
            · exact .inl hk
          · exact .inr (hk.mono o2.sub)
        · exact .inr hk
  | or f g ihf ihg =>
    unfold collectImplicant at h
    split at h
    · rename_i hs; cases h; exact skip hI hs
    split at h
    · cases h; exact collect_leaf rfl rfl hf
    split at h
    · rename_i hh
      have o := ihf hh (fun k hk => by
        rcases List.mem_cons.1 hk with rfl | hk
        · right; simp; omega
        · rcases hI k hk with h | h
          · exact .inl h
          · right; simp at h; omega) h
      have e : LitsEntail lits' (.or f g) := fun ρ' h' => .inl (o.entails ρ' h')
      refine ⟨o.sub, fun l hl => ?_, fun k hk => ?_, e⟩
      · exact (o.new l hl).imp id fun ⟨a, b⟩ => ⟨a, fun x hx => by simp [Fla.vars, b x hx]⟩
      · rcases o.seen k hk with hk | hk
        · rcases List.mem_cons.1 hk with rfl | hk
          · exact .inr e
          · exact .inl hk
        · exact .inr hk
    split at h
    · rename_i hh
      have o := ihg hh (fun k hk => by
        rcases List.mem_cons.1 hk with rfl | hk
        · right; simp
        · rcases hI k hk with h | h
          · exact .inl h
          · right; simp at h; omega) h
      have e : LitsEntail lits' (.or f g) := fun ρ' h' => .inr (o.entails ρ' h')
      refine ⟨o.sub, fun l hl => ?_, fun k hk => ?_, e⟩
      · exact (o.new l hl).imp id fun ⟨a, b⟩ => ⟨a, fun x hx => by simp [Fla.vars, b x hx]⟩
      · rcases o.seen k hk with hk | hk
        · rcases List.mem_cons.1 hk with rfl | hk
          · exact .inr e
          · exact .inl hk
        · exact .inr hk
    · cases h
  | not f ih =>
    unfold collectImplicant at h
    split at h
    · rename_i hs; cases h; exact skip hI hs
    split at h
    · cases h; exact collect_leaf rfl rfl hf
    · cases h
  | iff f g _ _ => cases h
  | _ =>
    unfold collectImplicant at h
    split at h
    · rename_i hs; cases h; exact skip hI hs
    · cases h; exact collect_leaf rfl rfl hf

end

/-! ### The whole projection -/

section
variable {K : Type} [CommRing K] [LinearOrder K] [IsStrictOrderedRing K] {md : K → K → K}

theorem ELit.fla_ofLit (l : Lit (laTheory K md)) (ρ : Var → K) : (ELit.ofLit l).fla.holds ρ ↔ l.fla.holds ρ := by
  unfold ELit.ofLit
  split
  · rename_i m h
    simp only [ELit.fla, MLit.fla_holds]
    exact (MLit.parse_spec h).1 ρ
  · rfl

theorem ELit.vars_ofLit {l : Lit (laTheory K md)} {x : Var} (hx : x ∈ (ELit.ofLit l).fla.vars) : x ∈ l.1.vars := by
  unfold ELit.ofLit at hx
  split at hx
  · rename_i m h
    exact (MLit.parse_spec h).2.1 x (MLit.fla_vars hx)
  · simp only [ELit.fla, Lit.fla] at hx
    split at hx <;> exact hx

/-- What is needed of the elimination of arithmetic variables for a formula with variables `vars`. -/
def CoreOk (md : K → K → K) (core : (Var → K) → List Var → List (MLit K) → Option (List (MLit K))) (vars xs : List Var) :
    Prop :=
  ∀ ρ lits r, (∀ l ∈ lits, l.Holds md ρ) → (∀ l ∈ lits, ∀ y, l.Has y → y ∈ vars) →
    (∀ l ∈ lits, ∀ c p, l.1 = .dvd c p → 0 < c) → core ρ xs lits = some r → ProjOk md (· ∈ xs) ρ lits r

theorem mem_mapM_some {α β : Type} {f : α → Option β} : ∀ {l : List α} {r : List β}, l.mapM f = some r →
    (∀ b ∈ r, ∃ a ∈ l, f a = some b) ∧ ∀ a ∈ l, ∃ b ∈ r, f a = some b := by
  intro l
  induction l with
  | nil => intro r h; cases h; simp
  | cons a l ih =>
    intro r h
    simp only [List.mapM_cons, Option.bind_eq_bind, Option.bind_eq_some_iff, Option.pure_def, Option.some.injEq] at h
    obtain ⟨b, hb, r', hr, rfl⟩ := h
    obtain ⟨h1, h2⟩ := ih hr
    refine ⟨fun c hc => ?_, fun c hc => ?_⟩
    · rcases List.mem_cons.1 hc with rfl | hc
      · exact ⟨a, by simp, hb⟩
      · obtain ⟨a', ha, h⟩ := h1 c hc; exact ⟨a', by simp [ha], h⟩
    · rcases List.mem_cons.1 hc with rfl | hc
      · exact ⟨b, by simp, hb⟩
      · obtain ⟨a', ha, h⟩ := h2 c hc; exact ⟨a', by simp [ha], h⟩

theorem mbpProject_sound {core : (Var → K) → List Var → List (MLit K) → Option (List (MLit K))} {isBool : Var → Bool}
    {f : Fla (laTheory K md)} {vs : List Var} (hc : CoreOk md core f.vars (vs.filter fun x => !isBool x)) :
    (mbpProject core isBool).SoundAt f vs := by
  intro ρ p hf h
  unfold mbpProject at h
  simp only at h
  generalize hbs : vs.filter isBool = bs at h
  generalize hns : (vs.filter fun x => !isBool x) = ns at h hc
  have mb : ∀ x, x ∈ bs ↔ x ∈ vs ∧ isBool x = true := by intro x; rw [← hbs]; simp
  have mn : ∀ x, x ∈ ns ↔ x ∈ vs ∧ isBool x = false := by intro x; rw [← hns]; simp
  have vs_iff : ∀ x, x ∈ vs ↔ x ∈ bs ∨ x ∈ ns := by
    intro x; rw [mb, mn]; cases isBool x <;> simp
  generalize hf1 : (if bs = [] then f else f.subst fun x => if x ∈ bs then .const (ρ x) else .var x) = f1 at h
  -- values of the Boolean variables
  have f1h : ∀ ρ' : Var → K, f1.holds ρ' ↔ f.holds fun x => if x ∈ bs then ρ x else ρ' x := by
    intro ρ'
    rw [← hf1]
    split
    · rename_i e; subst e; simp
    · rw [Fla.holds_subst]
      apply iff_of_eq; congr 1
      funext x
      split <;> rfl
  have f1v : ∀ x ∈ f1.vars, x ∈ f.vars ∧ x ∉ bs := by
    intro x hx
    rw [← hf1] at hx
    split at hx
    · rename_i e; subst e; exact ⟨hx, by simp⟩
    · obtain ⟨y, hy, hx⟩ := Fla.mem_vars_subst.1 hx
      split at hx
      · simp [Tm.vars] at hx
      · rename_i hn; simp [Tm.vars] at hx; subst hx; exact ⟨hy, hn⟩
  have f1m : f1.holds ρ := by
    rw [f1h]
    exact (Fla.holds_congr fun x _ => by split <;> rfl).1 hf
  split at h
  · rename_i e
    cases h
    refine ⟨f1m, fun x hx => ⟨(f1v x hx).1, ?_⟩, fun ρ' h' => ⟨_, fun x hx => ?_, (f1h ρ').1 h'⟩⟩
    · rw [vs_iff, e]; simp [(f1v x hx).2]
    · have : x ∉ bs := fun hb => hx ((vs_iff x).2 (.inl hb))
      simp [this]
  · simp only [Option.bind_eq_bind, Option.bind_eq_some_iff, Option.pure_def, Option.some.injEq] at h
    obtain ⟨nnf, h1, ⟨seen, lits⟩, h2, w, h3, r, h4, rfl⟩ := h
    obtain ⟨nnf', e1, _, e3⟩ := C29_nnf f1
    rw [h1] at e1; cases e1
    have hv := toNNF_vars h1
    have C := collect_spec ((e3 ρ).2 f1m) (by simp) h2
    have Cn : ∀ l ∈ lits, l.fla.holds ρ ∧ ∀ x ∈ l.1.vars, x ∈ nnf.vars := by
      intro l hl
      rcases C.new l hl with h | h
      · cases h
      · exact h
    obtain ⟨w1, w2⟩ := mem_mapM_some h3
    have P : ProjOk md (· ∈ ns) ρ w r := by
      refine hc ρ w r ?_ ?_ ?_ h4
      · intro m hm
        obtain ⟨l, hl, e⟩ := w1 m hm
        rw [(MLit.parse_spec e).1]
        exact (Cn l (List.mem_filter.1 hl).1).1
      · intro m hm y hy
        obtain ⟨l, hl, e⟩ := w1 m hm
        exact (f1v y (hv y ((Cn l (List.mem_filter.1 hl).1).2 y ((MLit.parse_spec e).2.1 y hy)))).1
      · intro m hm
        obtain ⟨l, hl, e⟩ := w1 m hm
        exact (MLit.parse_spec e).2.2
    generalize hall : r.map Sum.inl ++ (lits.filter fun l => !interesting ns l.1).map ELit.ofLit = all
    have mem_all : ∀ k, k ∈ all ↔ (∃ m ∈ r, k = .inl m) ∨ ∃ l ∈ lits, interesting ns l.1 = false ∧ k = ELit.ofLit l := by
      intro k
      rw [← hall]
      simp only [List.mem_append, List.mem_map, List.mem_filter, Bool.not_eq_true', and_assoc]
      constructor
      · rintro (⟨m, a, rfl⟩ | ⟨l, a, b, rfl⟩)
        · exact .inl ⟨m, a, rfl⟩
        · exact .inr ⟨l, a, b, rfl⟩
      · rintro (⟨m, a, rfl⟩ | ⟨l, a, b, rfl⟩)
        · exact .inl ⟨m, a, rfl⟩
        · exact .inr ⟨l, a, b, rfl⟩
    have not_int : ∀ {l : Lit (laTheory K md)}, interesting ns l.1 = false → ∀ x ∈ l.1.vars, x ∉ ns := by
      intro l hl x hx hn
      unfold interesting at hl
      rw [List.any_eq_false] at hl
      exact hl x hx (by simp [hn])
    have holds_iff : ∀ ρ' : Var → K,
        (Fla.conj ((postprocess ELit.view ELit.mk all).map ELit.fla)).holds ρ' ↔ ∀ k ∈ all, (ELit.fla k).holds ρ' := by
      intro ρ'
      rw [Fla.holds_conj]
      simp only [List.forall_mem_map]
      refine postprocess_holds (ρ := ρ') (view := ELit.view (K := K) (md := md)) (H := fun k => (ELit.fla k).holds ρ') ?_ ?_ all
      · rintro (m | l) b hb
        · simp only [ELit.fla, MLit.fla_holds]
          exact MLit.view_holds hb ρ'
        · cases hb
      · intro b
        simp only [ELit.mk, ELit.fla, MLit.fla_holds]
        exact Iff.rfl
    refine ⟨?_, ?_, ?_⟩
    · rw [holds_iff]
      intro k hk
      rcases (mem_all k).1 hk with ⟨m, hm, rfl⟩ | ⟨l, hl, _, rfl⟩
      · simp only [ELit.fla, MLit.fla_holds]; exact P.model m hm
      · rw [ELit.fla_ofLit]; exact (Cn l hl).1
    · intro x hx
      obtain ⟨g, hg, hx⟩ := Fla.mem_vars_conj.1 hx
      obtain ⟨k, hk, rfl⟩ := List.mem_map.1 hg
      have V : ∃ k ∈ all, (match k with | .inl m => MLit.Has m x | .inr l => x ∈ Fla.vars (Lit.fla l)) := by
        refine postprocess_vars (view := ELit.view) (mk := ELit.mk)
          (V := fun k x => match k with | .inl m => MLit.Has m x | .inr l => x ∈ Fla.vars (Lit.fla l)) ?_ ?_ hk ?_
        · rintro (m | l) p s y hb hp
          · obtain ⟨a, s'⟩ := m
            cases a <;> simp [ELit.view, MLit.view] at hb
            obtain ⟨rfl, rfl⟩ := hb
            exact hp
          · cases hb
        · intro b y hy; exact hy
        · rcases k with m | l
          · exact MLit.fla_vars hx
          · exact hx
      obtain ⟨k, hk, hx⟩ := V
      rcases (mem_all k).1 hk with ⟨m, hm, rfl⟩ | ⟨l, hl, hi, rfl⟩
      · obtain ⟨a, m0, b, c⟩ := P.vars m hm x hx
        obtain ⟨l, hl, e⟩ := w1 m0 b
        have := f1v x (hv x ((Cn l (List.mem_filter.1 hl).1).2 x ((MLit.parse_spec e).2.1 x c)))
        exact ⟨this.1, fun h => ((vs_iff x).1 h).elim this.2 a⟩
      · have hx : x ∈ l.1.vars := by
          unfold ELit.ofLit at hx
          split at hx
          · rename_i heq
            split at heq
            · rename_i e; cases heq; exact (MLit.parse_spec e).2.1 x hx
            · cases heq
          · rename_i heq
            split at heq
            · cases heq
            · cases heq
              simp only [Lit.fla] at hx
              split at hx <;> exact hx
        have := f1v x (hv x ((Cn l hl).2 x hx))
        exact ⟨this.1, fun h => ((vs_iff x).1 h).elim this.2 (not_int hi x hx)⟩
    · intro ρ' h'
      rw [holds_iff] at h'
      obtain ⟨ρ1, a, b⟩ := P.lift ρ' fun m hm => by
        have := h' (.inl m) ((mem_all _).2 (.inl ⟨m, hm, rfl⟩))
        simpa only [ELit.fla, MLit.fla_holds] using this
      have hn : nnf.holds ρ1 := by
        apply C.entails
        intro l hl
        cases hi : interesting ns l.1 with
        | false =>
          have := h' (ELit.ofLit l) ((mem_all _).2 (.inr ⟨l, hl, hi, rfl⟩))
          rw [ELit.fla_ofLit] at this
          refine (Fla.holds_congr fun x hx => ?_).1 this
          have hx : x ∈ l.1.vars := by
            simp only [Lit.fla] at hx
            split at hx <;> exact hx
          exact (a x (not_int hi x hx)).symm
        | true =>
          obtain ⟨m, hm, e⟩ := w2 l (List.mem_filter.2 ⟨hl, hi⟩)
          exact ((MLit.parse_spec e).1 ρ1).1 (b m hm)
      refine ⟨_, fun x hx => ?_, (f1h ρ1).1 ((e3 ρ1).1 hn)⟩
      rw [vs_iff, not_or] at hx
      simp only [hx.1, if_false]
      exact a x hx.2

end

/-- C35, reals: in a model of the formula the projection, if one is returned, is true; it mentions variables of the
formula that are not eliminated; and it implies the existential quantification of the formula. -/
theorem C35_real (isBool : Var → Bool) : (realMbp isBool).Sound := fun _ _ =>
  mbpProject_sound fun _ _ _ hm _ _ h => projectRealVars_ok _ hm h

/-- C35, integers: the same, unless the name of the internal variable of the projection is in use. -/
theorem C35_int (isBool : Var → Bool) (f : Fla intTheory) (vs : List Var) (hf : mbpTmp ∉ f.vars) (hvs : mbpTmp ∉ vs) :
    (intMbp isBool).SoundAt f vs :=
  mbpProject_sound fun _ _ _ hm hv hp h => projectIntVars_ok _ (fun hx => hvs (List.mem_filter.1 hx).1) hm
    (fun l hl hx => hf (hv l hl _ hx)) hp h

/-- C35. `keepOnly` projects on the variables to keep: its result is true in the model, mentions only variables of the
formula that are to be kept, and implies the existential quantification of the others. -/
theorem C35_keepOnly {T : Theory} {M : Mbp T} {f : Fla T} {keep : List Var}
    (hM : M.SoundAt f (f.vars.filter fun x => decide (x ∉ keep))) (ρ : Valuation T) (p : Fla T) (hf : f.holds ρ)
    (h : mbpKeepOnly M f keep ρ = some p) :
    p.holds ρ ∧ (∀ x ∈ p.vars, x ∈ f.vars ∧ x ∈ keep) ∧
    ∀ ρ' : Valuation T, p.holds ρ' → ∃ ρ'', (∀ x ∈ keep, ρ'' x = ρ' x) ∧ f.holds ρ'' := by
  obtain ⟨h1, h2, h3⟩ := hM ρ p hf h
  refine ⟨h1, fun x hx => ?_, fun ρ' h' => ?_⟩
  · obtain ⟨a, b⟩ := h2 x hx
    exact ⟨a, by simpa [a] using b⟩
  · obtain ⟨ρ'', a, b⟩ := h3 ρ' h'
    exact ⟨ρ'', fun x hx => a x (by simp [hx]), b⟩

/-! ### Linear formulas -/

section
variable {K : Type} [CommRing K] [LinearOrder K] [IsStrictOrderedRing K] {md : K → K → K}

/-- Linear terms. -/
inductive LinTm : Tm (laTheory K md) → Prop
  | var (x : Var) : LinTm (.var x)
  | const (c : K) : LinTm (.const c)
  | plus {a b : Tm (laTheory K md)} : LinTm a → LinTm b → LinTm (.ap2 .plus a b)
  | timesL (c : K) {a : Tm (laTheory K md)} : LinTm a → LinTm (.ap2 .times (.const c) a)
  | timesR (c : K) {a : Tm (laTheory K md)} : LinTm a → LinTm (.ap2 .times a (.const c))

/-- Linear literals: possibly negated inequalities and equations; with `div`, also `t mod c = 0` for positive `c`. -/
inductive LinLit (div : Bool) : Fla (laTheory K md) → Prop
  | leq {a b : Tm (laTheory K md)} : LinTm a → LinTm b → LinLit div (.atom (.ap2 .leq a b))
  | eq {a b : Tm (laTheory K md)} : LinTm a → LinTm b → LinLit div (.eq a b)
  | nleq {a b : Tm (laTheory K md)} : LinTm a → LinTm b → LinLit div (.not (.atom (.ap2 .leq a b)))
  | neq {a b : Tm (laTheory K md)} : LinTm a → LinTm b → LinLit div (.not (.eq a b))
  | dvd {t : Tm (laTheory K md)} (c : K) : div = true → 0 < c → LinTm t →
      LinLit div (.eq (.ap2 .mod t (.const c)) (.const 0))

/-- Formulas in negation normal form from which the variables `vs` can be projected: a literal with a number variable to
eliminate is linear and has no Boolean variable to eliminate. -/
inductive Projectable (div : Bool) (isBool : Var → Bool) (vs : List Var) : Fla (laTheory K md) → Prop
  | free {l : Fla (laTheory K md)} : IsLiteral l → (∀ x ∈ l.vars, x ∈ vs → isBool x = true) → Projectable div isBool vs l
  | lin {l : Fla (laTheory K md)} : LinLit div l → (∀ x ∈ l.vars, x ∈ vs → isBool x = false) → Projectable div isBool vs l
  | and {f g : Fla (laTheory K md)} : Projectable div isBool vs f → Projectable div isBool vs g →
      Projectable div isBool vs (.and f g)
  | or {f g : Fla (laTheory K md)} : Projectable div isBool vs f → Projectable div isBool vs g →
      Projectable div isBool vs (.or f g)

theorem LinTm.ofTm {t : Tm (laTheory K md)} (h : LinTm t) : ∃ p, Poly.ofTm t = some p := by
  induction h with
  | var x => exact ⟨_, rfl⟩
  | const c => exact ⟨_, rfl⟩
  | plus _ _ ih1 ih2 =>
    obtain ⟨p, hp⟩ := ih1
    obtain ⟨q, hq⟩ := ih2
    exact ⟨p.add q, by simp [Poly.ofTm, hp, hq]⟩
  | timesL c _ ih =>
    obtain ⟨p, hp⟩ := ih
    exact ⟨.smul c p, by simp [Poly.ofTm, hp, Poly.const, Poly.isConst]⟩
  | timesR c _ ih =>
    obtain ⟨p, hp⟩ := ih
    by_cases e : p.isConst = true
    · exact ⟨.smul p.k (.const c), by simp [Poly.ofTm, hp, e]⟩
    · have hc : (Poly.const c).isConst = true := by simp [Poly.const, Poly.isConst]
      exact ⟨.smul c p, by simp only [Poly.ofTm, hp, Option.bind_eq_bind, Option.bind_some, e, hc]; rfl⟩

theorem parse_eq_lin {a b : Tm (laTheory K md)} (ha : LinTm a) (hb : LinTm b) :
    ∃ p, MAtom.parse (.eq a b) = some (.eq p) := by
  obtain ⟨p, hp⟩ := ha.ofTm
  obtain ⟨q, hq⟩ := hb.ofTm
  refine ⟨p.sub q, ?_⟩
  unfold MAtom.parse
  split
  · rename_i h; cases h
  · rename_i h; cases h; cases ha
  · rename_i h; cases h; cases hb
  · rename_i h; cases h; simp [hp, hq]
  · rename_i h; exact absurd rfl (h a b)

/-- The literals of a formula: what may be collected in an implicant. -/
def LitOk (div : Bool) (ns : List Var) (l : Lit (laTheory K md)) : Prop :=
  (∀ x ∈ l.1.vars, x ∉ ns) ∨ ∃ m, MLit.parse l = some m ∧ (NoDvd m ∨ (div = true ∧ m.2 = true))

theorem LinLit.ok {div : Bool} {f : Fla (laTheory K md)} (h : LinLit div f) (ns : List Var) :
    (∃ a, f = .not a ∧ a.isAtom = true ∧ LitOk div ns (a, false)) ∨ (f.isAtom = true ∧ LitOk div ns (f, true)) := by
  cases h with
  | leq ha hb =>
    obtain ⟨p, hp⟩ := ha.ofTm
    obtain ⟨q, hq⟩ := hb.ofTm
    exact .inr ⟨rfl, .inr ⟨(.leq (q.sub p), true), by simp [MLit.parse, MAtom.parse, hp, hq],
      .inl fun c r e => by cases e⟩⟩
  | nleq ha hb =>
    obtain ⟨p, hp⟩ := ha.ofTm
    obtain ⟨q, hq⟩ := hb.ofTm
    exact .inl ⟨_, rfl, rfl, .inr ⟨(.leq (q.sub p), false), by simp [MLit.parse, MAtom.parse, hp, hq],
      .inl fun c r e => by cases e⟩⟩
  | eq ha hb =>
    obtain ⟨p, hp⟩ := parse_eq_lin ha hb
    exact .inr ⟨rfl, .inr ⟨(.eq p, true), by simp [MLit.parse, hp], .inl fun c r e => by cases e⟩⟩
  | neq ha hb =>
    obtain ⟨p, hp⟩ := parse_eq_lin ha hb
    exact .inl ⟨_, rfl, rfl, .inr ⟨(.eq p, false), by simp [MLit.parse, hp], .inl fun c r e => by cases e⟩⟩
  | dvd c hd hc ht =>
    obtain ⟨p, hp⟩ := ht.ofTm
    exact .inr ⟨rfl, .inr ⟨(.dvd c p, true), by simp [MLit.parse, MAtom.parse, hp, hc], .inr ⟨hd, rfl⟩⟩⟩

/-- Formulas whose implicants can be projected. -/
inductive Collectable (div : Bool) (ns : List Var) : Fla (laTheory K md) → Prop
  | pos {a : Fla (laTheory K md)} : a.isAtom = true → LitOk div ns (a, true) → Collectable div ns a
  | neg {a : Fla (laTheory K md)} : a.isAtom = true → LitOk div ns (a, false) → Collectable div ns (.not a)
  | and {f g : Fla (laTheory K md)} : Collectable div ns f → Collectable div ns g → Collectable div ns (.and f g)
  | or {f g : Fla (laTheory K md)} : Collectable div ns f → Collectable div ns g → Collectable div ns (.or f g)

theorem collect_total {ρ : Var → K} {div : Bool} {ns : List Var} {f : Fla (laTheory K md)} (h : Collectable div ns f)
    (hf : f.holds ρ) (seen : List (Fla (laTheory K md))) (lits : List (Lit (laTheory K md)))
    (hl : ∀ l ∈ lits, LitOk div ns l) :
    ∃ seen' lits', collectImplicant (T := laTheory K md) ρ ns f (seen, lits) = some (seen', lits') ∧
      ∀ l ∈ lits', LitOk div ns l := by
  have snoc : ∀ {lits : List (Lit (laTheory K md))} {k}, (∀ l ∈ lits, LitOk div ns l) → LitOk div ns k →
      ∀ l ∈ lits ++ [k], LitOk div ns l := by
    intro lits k h1 h2 l hl
    rcases List.mem_append.1 hl with h | h
    · exact h1 l h
    · simp only [List.mem_singleton] at h; subst h; exact h2
  induction h generalizing seen lits with
  | @pos a ha hok =>
    cases a with
    | tt | ff | atom | eq =>
      simp only [collectImplicant]
      split
      · exact ⟨_, _, rfl, hl⟩
      · exact ⟨_, _, rfl, snoc hl hok⟩
    | _ => cases ha
  | @neg a ha hok =>
    simp only [collectImplicant, ha, if_true]
    split
    · exact ⟨_, _, rfl, hl⟩
    · exact ⟨_, _, rfl, snoc hl hok⟩
  | @and f g _ _ ihf ihg =>
    simp only [collectImplicant]
    split
    · exact ⟨_, _, rfl, hl⟩
    · obtain ⟨s1, l1, e1, h1⟩ := ihf hf.1 (.and f g :: seen) lits hl
      obtain ⟨s2, l2, e2, h2⟩ := ihg hf.2 s1 l1 h1
      exact ⟨s2, l2, by simp [e1, e2], h2⟩
  | @or f g _ _ ihf ihg =>
    simp only [collectImplicant]
    split
    · exact ⟨_, _, rfl, hl⟩
    split
    · rename_i hi
      refine ⟨_, _, rfl, snoc hl (.inl fun x hx hn => ?_)⟩
      simp only [interesting, Bool.not_eq_true', List.any_eq_false, decide_eq_true_eq] at hi
      exact hi x hx hn
    split
    · rename_i hh; exact ihf hh _ lits hl
    split
    · rename_i hh; exact ihg hh _ lits hl
    · rename_i h1 h2; exact (hf.elim h1 h2).elim

theorem isAtom_subst {a : Fla (laTheory K md)} (h : a.isAtom = true) (σ : Var → Tm (laTheory K md)) :
    (a.subst σ).isAtom = true := by
  cases a <;> simp [Fla.isAtom, Fla.subst] at h ⊢

/-- Boolean variables are replaced by constants, what is left can be projected. -/
theorem Projectable.collectable {div : Bool} {isBool : Var → Bool} {vs : List Var} {f : Fla (laTheory K md)}
    (h : Projectable div isBool vs f) (σ : Var → Tm (laTheory K md))
    (hσ : ∀ x, (x ∈ vs ∧ isBool x = true ∧ (σ x).vars = []) ∨ (¬ (x ∈ vs ∧ isBool x = true) ∧ σ x = .var x)) :
    Collectable div (vs.filter fun x => !isBool x) (f.subst σ) := by
  have free : ∀ {a : Fla (laTheory K md)}, (∀ x ∈ a.vars, x ∈ vs → isBool x = true) →
      ∀ x ∈ (a.subst σ).vars, x ∉ vs.filter fun x => !isBool x := by
    intro a ha x hx hn
    obtain ⟨y, hy, hx⟩ := Fla.mem_vars_subst.1 hx
    rcases hσ y with ⟨_, _, h⟩ | ⟨_, h⟩
    · rw [h] at hx; cases hx
    · rw [h] at hx
      simp only [Tm.vars, List.mem_singleton] at hx
      subst hx
      obtain ⟨h1, h2⟩ := List.mem_filter.1 hn
      rw [ha x hy h1] at h2
      cases h2
  induction h with
  | free hl hv =>
    cases hl with
    | pos ha => exact .pos (isAtom_subst ha σ) (.inl (free hv))
    | neg ha => exact .neg (isAtom_subst ha σ) (.inl (free (fun x hx => hv x hx)))
  | @lin l hl hv =>
    rw [Fla.subst_id]
    · rcases hl.ok (vs.filter fun x => !isBool x) with ⟨a, rfl, ha, hok⟩ | ⟨ha, hok⟩
      · exact .neg ha hok
      · exact .pos ha hok
    · intro x hx
      rcases hσ x with ⟨h1, h2, _⟩ | ⟨_, h⟩
      · rw [hv x hx h1] at h2; cases h2
      · exact h
  | and _ _ ih1 ih2 => exact .and ih1 ih2
  | or _ _ ih1 ih2 => exact .or ih1 ih2

theorem Collectable.nnf {div : Bool} {ns : List Var} {f : Fla (laTheory K md)} (h : Collectable div ns f) :
    toNNF f = some f := by
  unfold toNNF
  induction h with
  | @pos a ha _ => cases a <;> first | rfl | cases ha
  | @neg a ha _ => cases a <;> first | rfl | cases ha
  | and _ _ ih1 ih2 => simp [nnfTransform, ih1, ih2]
  | or _ _ ih1 ih2 => simp [nnfTransform, ih1, ih2]

theorem mbpProject_total {core : (Var → K) → List Var → List (MLit K) → Option (List (MLit K))} {isBool : Var → Bool}
    {div : Bool} {f : Fla (laTheory K md)} {vs : List Var}
    (hc : ∀ ρ xs lits, (∀ l ∈ lits, NoDvd l ∨ (div = true ∧ l.2 = true)) → ∃ r, core ρ xs lits = some r)
    (hf : Projectable div isBool vs f) (ρ : Var → K) (hm : f.holds ρ) : ∃ p, mbpProject core isBool f vs ρ = some p := by
  unfold mbpProject
  simp only
  generalize hf1 : (if vs.filter isBool = [] then f else f.subst fun x =>
    if x ∈ vs.filter isBool then .const (ρ x) else .var x) = f1
  have e1 : f1 = f.subst fun x => if x ∈ vs.filter isBool then .const (ρ x) else .var x := by
    rw [← hf1]
    split
    · rename_i e
      rw [Fla.subst_id]
      intro x _
      rw [e]; simp
    · rfl
  have hcol : Collectable div (vs.filter fun x => !isBool x) f1 := by
    rw [e1]
    refine hf.collectable _ fun x => ?_
    by_cases e : x ∈ vs.filter isBool
    · obtain ⟨a, b⟩ := List.mem_filter.1 e
      exact .inl ⟨a, b, by simp only [e, if_true]; rfl⟩
    · exact .inr ⟨fun h => e (List.mem_filter.2 h), by simp only [e, if_false]⟩
  have hm1 : f1.holds ρ := by
    rw [e1, Fla.holds_subst]
    exact (Fla.holds_congr fun x _ => by split <;> rfl).1 hm
  split
  · exact ⟨_, rfl⟩
  · obtain ⟨s, lits, e2, hl⟩ := collect_total hcol hm1 [] [] (by simp)
    obtain ⟨w, hw⟩ := mapM_total (f := MLit.parse) (l := lits.filter fun l => interesting (vs.filter fun x => !isBool x) l.1)
      fun l h => by
        obtain ⟨h1, h2⟩ := List.mem_filter.1 h
        rcases hl l h1 with h3 | ⟨m, h3, _⟩
        · exfalso
          simp only [interesting, List.any_eq_true, decide_eq_true_eq] at h2
          obtain ⟨x, h4, h5⟩ := h2
          exact h3 x h4 h5
        · exact ⟨m, h3⟩
    obtain ⟨r, hr⟩ := hc ρ (vs.filter fun x => !isBool x) w fun m hm => by
      obtain ⟨l, h, hp⟩ := (mapM_some hw).2 m hm
      obtain ⟨h1, h2⟩ := List.mem_filter.1 h
      rcases hl l h1 with h3 | ⟨m', h3, h4⟩
      · exfalso
        simp only [interesting, List.any_eq_true, decide_eq_true_eq] at h2
        obtain ⟨x, h5, h6⟩ := h2
        exact h3 x h5 h6
      · rw [hp] at h3; cases h3; exact h4
    exact ⟨_, by simp only [hcol.nnf, Option.bind_eq_bind, Option.bind_some, e2, hw, hr]; rfl⟩

end

/-- C35, reals: projection of a linear formula does not fail. -/
theorem C35_real_total (isBool : Var → Bool) {f : Fla realTheory} {vs : List Var} (hf : Projectable false isBool vs f)
    (ρ : Var → Rat) (hm : f.holds ρ) : ∃ p, realMbp isBool f vs ρ = some p :=
  mbpProject_total (fun ρ xs _ h => projectRealVars_total ρ xs fun l hl => (h l hl).elim id (by simp)) hf ρ hm

/-- C35, integers: projection of a linear formula (with divisibility constraints) does not fail. -/
theorem C35_int_total (isBool : Var → Bool) {f : Fla intTheory} {vs : List Var} (hf : Projectable true isBool vs f)
    (ρ : Var → Int) (hm : f.holds ρ) : ∃ p, intMbp isBool f vs ρ = some p :=
  mbpProject_total (fun ρ xs _ h => projectIntVars_total ρ xs fun l hl h2 => (h l hl).elim id fun h3 => by
    rw [h2] at h3; cases h3.2) hf ρ hm

/-- C35: over all models (in which Boolean variables have Boolean values) the projections of one formula are finitely
many, so a set of projections of one formula covering its models is always finite. -/
theorem C35_real_finite (isBool : Var → Bool) (f : Fla realTheory) (vs : List Var) :
    ∃ F : List (Fla realTheory), ∀ ρ : Var → Rat, (∀ x, isBool x = true → ρ x = 0 ∨ ρ x = 1) → ∀ p,
      realMbp isBool f vs ρ = some p → p ∈ F := by
  have := (mbpProject_fin (W := {ρ | ∀ x, isBool x = true → ρ x = 0 ∨ ρ x = 1}) (core := projectRealVars) (isBool := isBool)
    (fun xs lits _ => projectRealVars_fin xs lits) (fun ρ h => h) f vs).fin
  refine ⟨this.toFinset.toList.filterMap id, fun ρ hρ p hp => ?_⟩
  simp only [List.mem_filterMap, Finset.mem_toList, Set.Finite.mem_toFinset]
  exact ⟨some p, ⟨ρ, hρ, hp⟩, rfl⟩

theorem C35_int_finite (isBool : Var → Bool) (f : Fla intTheory) (vs : List Var) :
    ∃ F : List (Fla intTheory), ∀ ρ : Var → Int, (∀ x, isBool x = true → ρ x = 0 ∨ ρ x = 1) → ∀ p,
      intMbp isBool f vs ρ = some p → p ∈ F := by
  have := (mbpProject_fin (W := {ρ | ∀ x, isBool x = true → ρ x = 0 ∨ ρ x = 1}) (core := projectIntVars) (isBool := isBool)
    (fun xs lits h => projectIntVars_fin xs lits h) (fun ρ h => h) f vs).fin
  refine ⟨this.toFinset.toList.filterMap id, fun ρ hρ p hp => ?_⟩
  simp only [List.mem_filterMap, Finset.mem_toList, Set.Finite.mem_toFinset]
  exact ⟨some p, ⟨ρ, hρ, hp⟩, rfl⟩

/-! ### Quantifier elimination for linear arithmetic -/

/-- C36 for linear real arithmetic: elimination always ends with a quantifier-free equivalent of the existential
quantification. `hb`: models give Boolean values to Boolean variables. -/
theorem C36_real {S : Smt realTheory} (hS : S.Correct) (hc : S.Complete) {isBool : Var → Bool}
    {simp : Fla realTheory → Fla realTheory} (hs : SimpOk simp) {f f' : Fla realTheory} (hf' : toNNF f = some f')
    {vs : List Var} (hf : Projectable false isBool vs f')
    (hb : ∀ st, S.check (f' :: st) = .sat → ∀ x, isBool x = true → S.model (f' :: st) x = 0 ∨ S.model (f' :: st) x = 1) :
    ∃ N, ∀ fuel, N < fuel → ∃ g, qeEliminate S (realMbp isBool) simp fuel f vs = .done g ∧
      (∀ x ∈ g.vars, x ∈ f.vars ∧ x ∉ vs) ∧
      ∀ ρ : Var → Rat, g.holds ρ ↔ ∃ ρ' : Var → Rat, (∀ x, x ∉ vs → ρ' x = ρ x) ∧ f.holds ρ' := by
  obtain ⟨F, hF⟩ := C35_real_finite isBool f' vs
  refine ⟨F.length, fun fuel hfuel => ?_⟩
  obtain ⟨g, hg⟩ := C36_terminates hS hc simp f f' hf' vs (C35_real isBool f' vs) F (fun ps h => by
    have hm := (hS.sat _ h) f' (by simp)
    obtain ⟨p, hp⟩ := C35_real_total isBool hf _ hm
    exact ⟨p, hF _ (hb _ h) p hp, hp⟩) fuel hfuel
  exact ⟨g, hg, C36_eliminate_at hS hf' (C35_real isBool f' vs) hs fuel g hg⟩

/-- C36 for linear integer arithmetic with divisibility constraints. -/
theorem C36_int {S : Smt intTheory} (hS : S.Correct) (hc : S.Complete) {isBool : Var → Bool}
    {simp : Fla intTheory → Fla intTheory} (hs : SimpOk simp) {f f' : Fla intTheory} (hf' : toNNF f = some f')
    {vs : List Var} (hf : Projectable true isBool vs f') (hft : mbpTmp ∉ f.vars) (hvt : mbpTmp ∉ vs)
    (hb : ∀ st, S.check (f' :: st) = .sat → ∀ x, isBool x = true → S.model (f' :: st) x = 0 ∨ S.model (f' :: st) x = 1) :
    ∃ N, ∀ fuel, N < fuel → ∃ g, qeEliminate S (intMbp isBool) simp fuel f vs = .done g ∧
      (∀ x ∈ g.vars, x ∈ f.vars ∧ x ∉ vs) ∧
      ∀ ρ : Var → Int, g.holds ρ ↔ ∃ ρ' : Var → Int, (∀ x, x ∉ vs → ρ' x = ρ x) ∧ f.holds ρ' := by
  obtain ⟨F, hF⟩ := C35_int_finite isBool f' vs
  have hM := C35_int isBool f' vs (fun h => hft (toNNF_vars hf' _ h)) hvt
  refine ⟨F.length, fun fuel hfuel => ?_⟩
  obtain ⟨g, hg⟩ := C36_terminates hS hc simp f f' hf' vs hM F (fun ps h => by
    have hm := (hS.sat _ h) f' (by simp)
    obtain ⟨p, hp⟩ := C35_int_total isBool hf _ hm
    exact ⟨p, hF _ (hb _ h) p hp, hp⟩) fuel hfuel
  exact ⟨g, hg, C36_eliminate_at hS hf' hM hs fuel g hg⟩

/-! ### Examples -/

namespace MBPEx

def x : Var := .base (.user "x")
def y : Var := .base (.user "y")
def z : Var := .base (.user "z")
def b : Var := .base (.user "b")

/-- `(b ∨ x < y) ∧ x ≤ z ∧ (y ≤ 2x ∨ z ≤ y)` over the reals. -/
def rf : Fla realTheory :=
  .and (.or (.atom (.var b)) (.not (.atom (.ap2 .leq (.var y) (.var x)))))
    (.and (.atom (.ap2 .leq (.var x) (.var z)))
      (.or (.atom (.ap2 .leq (.var y) (.ap2 .times (.const 2) (.var x)))) (.atom (.ap2 .leq (.var z) (.var y)))))

def isB : Var → Bool := fun v => decide (v = b)

/-- `b = false, x = 1, y = 3/2, z = 1`. -/
def rρ : Var → Rat := fun v => if v = b then 0 else if v = x then 1 else if v = y then 3 / 2 else 1

theorem rf_projectable : Projectable false isB [x, b] rf := by
  refine .and (.or (.free (.pos rfl) (by decide)) (.lin (.nleq (.var _) (.var _)) (by decide)))
    (.and (.lin (.leq (.var _) (.var _)) (by decide))
      (.or (.lin (.leq (.var _) (.timesL _ (.var _))) (by decide)) (.free (.pos rfl) (by decide))))

/-- The hypotheses of the theorems about reals are met: a model of the formula, and the projection exists. -/
example : rf.holds rρ ∧ (realMbp isB rf [x, b] rρ).isSome = true ∧ Projectable false isB [x, b] rf ∧
    toNNF rf = some rf ∧ (oracleSmt realTheory).Correct ∧ (oracleSmt realTheory).Complete :=
  ⟨by decide +kernel, by decide +kernel, rf_projectable, by decide +kernel, oracleSmt_correct, oracleSmt_complete⟩

/-- `3 divides x ∧ y ≤ 2x ∧ 3x ≤ z` over the integers. -/
def if0 : Fla intTheory :=
  .and (.eq (.ap2 .mod (.var x) (.const 3)) (.const 0))
    (.and (.atom (.ap2 .leq (.var y) (.ap2 .times (.const 2) (.var x))))
      (.atom (.ap2 .leq (.ap2 .times (.const 3) (.var x)) (.var z))))

def iρ : Var → Int := fun v => if v = x then 3 else if v = y then 5 else 10

theorem if0_projectable : Projectable true (fun _ => false) [x] if0 :=
  .and (.lin (.dvd 3 rfl (by decide) (.var _)) (by decide))
    (.and (.lin (.leq (.var _) (.timesL _ (.var _))) (by decide)) (.lin (.leq (.timesL _ (.var _)) (.var _)) (by decide)))

/-- The hypotheses of the theorems about integers are met; here the projection needs a new divisibility constraint. -/
example : if0.holds iρ ∧ (intMbp (fun _ => false) if0 [x] iρ).isSome = true ∧ mbpTmp ∉ if0.vars ∧ mbpTmp ∉ [x] ∧
    Projectable true (fun _ => false) [x] if0 ∧ toNNF if0 = some if0 ∧
    (oracleSmt intTheory).Correct ∧ (oracleSmt intTheory).Complete ∧
    ∀ (st : List (Fla intTheory)), (oracleSmt intTheory).check (if0 :: st) = .sat → ∀ v, (fun _ : Var => false) v = true →
      (oracleSmt intTheory).model (if0 :: st) v = 0 ∨ (oracleSmt intTheory).model (if0 :: st) v = 1 :=
  ⟨by decide +kernel, by decide +kernel, by decide +kernel, by decide +kernel, if0_projectable, by decide +kernel,
    oracleSmt_correct, oracleSmt_complete, by simp⟩

/-- `2 divides x ∧ x = t` where `t` has the name of the internal variable. -/
def clash : Fla intTheory :=
  .and (.eq (.ap2 .mod (.var x) (.const 2)) (.const 0)) (.eq (.var x) (.var mbpTmp))

/-- The side condition of `C35_int` is needed: the projection of `x` from `2 ∣ x ∧ x = MBP_LIA_tmp` at `x = 2` is true
everywhere, although there is no such `x` for `MBP_LIA_tmp = 1`. -/
theorem C35_tmp_clash : ¬ (intMbp fun _ => false).SoundAt clash [x] := by
  intro h
  have e : ∃ p, intMbp (fun _ => false) clash [x] (fun _ => 2) = some p ∧ p.holds fun _ : Var => (1 : Int) := by
    refine ⟨_, rfl, ?_⟩
    decide +kernel
  obtain ⟨p, hp, h1⟩ := e
  obtain ⟨_, _, h2⟩ := h (fun _ => 2) p (by decide +kernel) hp
  obtain ⟨ρ, h3, h4⟩ := h2 _ h1
  have ht : ρ mbpTmp = 1 := h3 mbpTmp (by decide +kernel)
  simp only [clash, Fla.holds, Tm.eval] at h4
  obtain ⟨h5, h6⟩ := h4
  rw [h6, ht] at h5
  exact absurd h5 (by decide)

end MBPEx

end Golem
