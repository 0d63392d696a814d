import Verif.Model.Entailment
import Verif.Lemmas.Smt

/-!
C38: entailment filtering is exact.
-/

namespace Golem
variable {T : Theory}

/-- `As` entails `c`. -/
def Entails (As : List (Fla T)) (c : Fla T) : Prop := ∀ ρ : Valuation T, AllHold ρ As → c.holds ρ

/-- No activation variable occurs. -/
def NoAct (f : Fla T) : Prop := ∀ k, actVar k ∉ f.vars

/-- `ρ` with the activation variables set according to `en`. -/
def withAct (ρ : Valuation T) (en : List Bool) : Valuation T
  | .base (.act k) => if en[k]?.getD false then T.vT else T.vF
  | x => ρ x

theorem withAct_holds {ρ : Valuation T} {en : List Bool} {f : Fla T} (h : NoAct f) :
    f.holds (withAct ρ en) ↔ f.holds ρ := by
  apply Fla.holds_congr
  intro x hx
  unfold withAct
  split
  · exact absurd hx (h _)
  · rfl

theorem withAct_actLits (ρ : Valuation T) (en : List Bool) : AllHold (withAct ρ en) (actLits (T := T) en) := by
  intro f hf
  simp only [actLits, List.mem_map, Prod.exists, List.mem_zipIdx_iff_getElem?] at hf
  obtain ⟨b, k, hk, rfl⟩ := hf
  cases b <;> simp [Tm.eval, actVar, withAct, hk, T.truth_vT, T.truth_vF]

theorem disableFalsified_length {ρ : Valuation T} {cs : List (Fla T)} {en : List Bool} (h : en.length = cs.length) :
    (disableFalsified ρ cs en).length = cs.length := by
  simp [disableFalsified, entQueries, h]

theorem disableFalsified_get {ρ : Valuation T} {cs : List (Fla T)} {en : List Bool} {i : Nat} {b : Bool} {c : Fla T}
    (h : en[i]? = some b) (hc : cs[i]? = some c) :
    (disableFalsified ρ cs en)[i]? = some (b && !decide ((entQuery i c).holds ρ)) := by
  simp [disableFalsified, entQueries, List.zip, List.getElem?_zipWith, List.getElem?_zipIdx, h, hc]

/-- Falsified candidates are recorded only when a model of the assertions falsifies them. -/
def DisabledOk (As cs : List (Fla T)) (en : List Bool) : Prop :=
  en.length = cs.length ∧ ∀ (i : Nat) (c : Fla T), en[i]? = some false → cs[i]? = some c → ¬ Entails As c

def ExactMask (As cs : List (Fla T)) (en : List Bool) : Prop :=
  en.length = cs.length ∧ ∀ (i : Nat) (b : Bool) (c : Fla T), en[i]? = some b → cs[i]? = some c →
    (b = true ↔ Entails As c)

theorem count_lt_of_pointwise : ∀ (l l' : List Bool), l.length = l'.length →
    (∀ i : Nat, l[i]? = some false → l'[i]? = some false) → l.count false ≤ l'.count false
  | [], [], _, _ => by simp
  | a :: l, b :: l', hl, h => by
    have h0 := h 0
    have := count_lt_of_pointwise l l' (by simpa using hl) (fun i hi => by simpa using h (i + 1) (by simpa using hi))
    cases a <;> cases b <;> simp at h0 ⊢ <;> omega

theorem count_lt_of_strict : ∀ (l l' : List Bool), l.length = l'.length →
    (∀ i : Nat, l[i]? = some false → l'[i]? = some false) → (∃ i : Nat, l[i]? = some true ∧ l'[i]? = some false) →
    l.count false < l'.count false
  | [], [], _, _, h => by simp at h
  | a :: l, b :: l', hl, h, ⟨i, hi, hi'⟩ => by
    have h0 := h 0
    have ht : ∀ i : Nat, l[i]? = some false → l'[i]? = some false :=
      fun i hi => by simpa using h (i + 1) (by simpa using hi)
    have hle := count_lt_of_pointwise l l' (by simpa using hl) ht
    cases i with
    | zero =>
      simp at hi hi'
      subst hi; subst hi'
      simp; omega
    | succ i =>
      have := count_lt_of_strict l l' (by simpa using hl) ht ⟨i, by simpa using hi, by simpa using hi'⟩
      cases a <;> cases b <;> simp at h0 ⊢ <;> omega

theorem impliedLoop_spec {S : Smt T} (hS : S.Sound) {As cs : List (Fla T)} (hA : ∀ f ∈ As, NoAct f)
    (hC : ∀ f ∈ cs, NoAct f) : ∀ (n : Nat) (en : List Bool), DisabledOk As cs en →
      cs.length < en.count false + n →
      (∃ en', impliedLoop S As cs n en = .done en' ∧ ExactMask As cs en') ∨
      (impliedLoop S As cs n en = .thrown ∧ ∃ fs, S.check fs ≠ .sat ∧ S.check fs ≠ .unsat) := by
  intro n
  induction n with
  | zero =>
    intro en hen hn
    have := List.count_le_length (a := false) (l := en)
    have := hen.1
    omega
  | succ n ih =>
    intro en hen hn
    unfold impliedLoop
    simp only []
    split
    · rename_i hlt
      generalize hst : As ++ [Fla.disj (entQueries cs), Fla.conj (actLits en)] = st
      split
      · rename_i hu
        left
        refine ⟨en, rfl, hen.1, ?_⟩
        intro i b c hb hc
        cases b with
        | false => simp [hen.2 i c hb hc]
        | true =>
          simp only [true_iff]
          intro ρ hρ
          refine Classical.byContradiction fun hnc => ?_
          apply hS.unsat _ hu
          refine ⟨withAct ρ en, ?_⟩
          rw [← hst, allHold_append]
          refine ⟨fun f hf => (withAct_holds (hA f hf)).2 (hρ f hf), ?_⟩
          have hcm : c ∈ cs := List.mem_of_getElem? hc
          intro f hf
          simp only [List.mem_cons, List.not_mem_nil, or_false] at hf
          rcases hf with rfl | rfl
          · rw [Fla.holds_disj]
            refine ⟨entQuery i c, ?_, ?_⟩
            · simp only [entQueries, List.mem_map, Prod.exists, List.mem_zipIdx_iff_getElem?]
              exact ⟨c, i, hc, rfl⟩
            · simp only [entQuery, Fla.holds_and, Fla.holds_not, Fla.holds_atom, withAct_holds (hC c hcm)]
              exact ⟨by simp [Tm.eval, actVar, withAct, hb, T.truth_vT], hnc⟩
          · exact holds_conj_iff.2 (withAct_actLits ρ en)
      · rename_i hsat
        have hm := hS.sat _ hsat
        generalize S.model st = ρ at hm
        rw [← hst, allHold_append] at hm
        have hq := hm.2 (Fla.disj (entQueries cs)) (by simp)
        have ha := holds_conj_iff.1 (hm.2 (Fla.conj (actLits en)) (by simp))
        rw [Fla.holds_disj] at hq
        obtain ⟨q, hqm, hq⟩ := hq
        simp only [entQueries, List.mem_map, Prod.exists, List.mem_zipIdx_iff_getElem?] at hqm
        obtain ⟨c, i, hc, rfl⟩ := hqm
        have hilt : i < cs.length := (List.getElem?_eq_some_iff.1 hc).1
        have hien : en[i]? = some (en[i]'(by rw [hen.1]; exact hilt)) := List.getElem?_eq_getElem _
        have hbt : en[i]? = some true := by
          rw [hien]
          generalize hb : en[i]'(by rw [hen.1]; exact hilt) = b
          rw [hb] at hien
          cases b with
          | true => rfl
          | false =>
            exfalso
            have := ha (.not (.atom (.var (actVar i)))) (by
              simp only [actLits, List.mem_map, Prod.exists, List.mem_zipIdx_iff_getElem?]
              exact ⟨false, i, hien, rfl⟩)
            exact this hq.1
        have hlen := disableFalsified_length (ρ := ρ) (cs := cs) hen.1
        have hget : ∀ (j : Nat) (b : Bool), en[j]? = some b → ∃ c', cs[j]? = some c' ∧
            (disableFalsified ρ cs en)[j]? = some (b && !decide ((entQuery j c').holds ρ)) := by
          intro j b hj
          have hjlt : j < cs.length := by rw [← hen.1]; exact (List.getElem?_eq_some_iff.1 hj).1
          exact ⟨cs[j], List.getElem?_eq_getElem _, disableFalsified_get hj (List.getElem?_eq_getElem _)⟩
        have hstrict : en.count false < (disableFalsified ρ cs en).count false := by
          apply count_lt_of_strict
          · rw [hlen, hen.1]
          · intro j hj
            obtain ⟨c', -, h⟩ := hget j _ hj
            simpa using h
          · refine ⟨i, hbt, ?_⟩
            rw [disableFalsified_get hbt hc]
            simp [hq]
        apply ih
        · refine ⟨hlen, ?_⟩
          intro j c' hj hc'
          have hjlt : j < en.length := by rw [hen.1]; exact (List.getElem?_eq_some_iff.1 hc').1
          have hjen : en[j]? = some en[j] := List.getElem?_eq_getElem _
          rw [disableFalsified_get hjen hc'] at hj
          cases hb : en[j] with
          | false => exact hen.2 j c' (by rw [hjen, hb]) hc'
          | true =>
            simp [hb] at hj
            exact fun he => hj.2 (he ρ hm.1)
        · omega
      · rename_i h1 h2
        right
        exact ⟨rfl, st, h2, h1⟩
    · rename_i hge
      left
      refine ⟨en, rfl, hen.1, ?_⟩
      intro i b c hb hc
      have hcount : en.count false = en.length := by
        have := List.count_le_length (a := false) (l := en)
        have := hen.1
        omega
      have hbf : b = false := ((List.count_eq_length.1 hcount) b (List.mem_of_getElem? hb)).symm
      subst hbf
      simp [hen.2 i c hb hc]

theorem filterMap_zip_exact (P : Fla T → Prop) [DecidablePred P] : ∀ (cs : List (Fla T)) (en : List Bool),
    en.length = cs.length →
    (∀ (i : Nat) (b : Bool) (c : Fla T), en[i]? = some b → cs[i]? = some c → (b = true ↔ P c)) →
    ((cs.zip en).filterMap fun p => if p.2 then some p.1 else none) = cs.filter P
  | [], _, _, _ => by simp
  | c :: cs, b :: en, hl, h => by
    have h0 := h 0 b c (by simp) (by simp)
    have ih := filterMap_zip_exact P cs en (by simpa using hl)
      (fun i b c hb hc => h (i + 1) b c (by simpa using hb) (by simpa using hc))
    by_cases hp : P c
    · have hb : b = true := h0.2 hp
      subst hb
      simp [hp, ih]
    · have hb : b = false := by cases b <;> simp_all
      subst hb
      simp [hp, ih]

/-- **C38** `impliedBy` always terminates within `candidates.size() + 1` solver calls; when it returns, it returns exactly
the entailed candidates, in order; it throws only when the backend failed to decide a query. -/
theorem C38_impliedBy_exact (S : Smt T) (hS : S.Sound) (As cs : List (Fla T)) (hA : ∀ f ∈ As, NoAct f)
    (hC : ∀ f ∈ cs, NoAct f) [DecidablePred (Entails As)] :
    impliedBy S As cs = .done (cs.filter (Entails As)) ∨
    (impliedBy S As cs = .thrown ∧ ∃ fs, S.check fs ≠ .sat ∧ S.check fs ≠ .unsat) := by
  unfold impliedBy
  rcases impliedLoop_spec hS hA hC (cs.length + 1) (cs.map fun _ => true)
    ⟨by simp, by intro i c h; simp at h⟩ (by omega) with ⟨en, h, hex⟩ | ⟨h, hun⟩
  · left
    rw [h]
    simp only [filterMap_zip_exact (Entails As) cs en hex.1 hex.2]
  · right
    rw [h]
    exact ⟨rfl, hun⟩

/-- **C38** With a backend that decides, `impliedBy` returns exactly the entailed candidates. -/
theorem C38_impliedBy_complete (S : Smt T) (hS : S.Sound) (hc : S.Complete) (As cs : List (Fla T))
    (hA : ∀ f ∈ As, NoAct f) (hC : ∀ f ∈ cs, NoAct f) [DecidablePred (Entails As)] :
    impliedBy S As cs = .done (cs.filter (Entails As)) := by
  rcases C38_impliedBy_exact S hS As cs hA hC with h | ⟨_, fs, h1, h2⟩
  · exact h
  · rcases hc fs with h | h
    · exact absurd h h1
    · exact absurd h h2

/-- **C38** The one-by-one variant returns only entailed candidates, and all of them when the backend decides. -/
theorem C38_oneByOne_exact (S : Smt T) (hS : S.Sound) (As cs : List (Fla T)) :
    (∀ c ∈ checkEntailmentOneByOne S As cs, c ∈ cs ∧ Entails As c) ∧
    (S.Complete → ∀ [DecidablePred (Entails As)], checkEntailmentOneByOne S As cs = cs.filter (Entails As)) := by
  have hsound : ∀ c, S.check (As ++ [.not c]) = .unsat → Entails As c := by
    intro c hu ρ hρ
    refine Classical.byContradiction fun hn => ?_
    exact hS.unsat _ hu ⟨ρ, by rw [allHold_append]; exact ⟨hρ, by simpa [AllHold] using hn⟩⟩
  constructor
  · intro c hc
    simp only [checkEntailmentOneByOne, List.mem_filter, decide_eq_true_eq] at hc
    exact ⟨hc.1, hsound c hc.2⟩
  · intro hcomp _
    unfold checkEntailmentOneByOne
    apply List.filter_congr
    intro c _
    simp only [decide_eq_decide]
    refine ⟨hsound c, fun he => ?_⟩
    rcases hcomp (As ++ [.not c]) with h | h
    · have := hS.sat _ h
      rw [allHold_append] at this
      exact absurd (he _ this.1) (this.2 (.not c) (by simp))
    · exact h

/-- The hypotheses are met by a concrete run: from `a ∧ b` the candidates `a`, `c`, `a ∨ c` are filtered to `a`, `a ∨ c`. -/
theorem C38_example :
    let v (s : String) : Fla propTheory := .atom (.var (.base (.user s)))
    impliedBy propSmt [.and (v "a") (v "b")] [v "a", v "c", .or (v "a") (v "c")] =
      .done [v "a", .or (v "a") (v "c")] ∧
    (∀ f ∈ [Fla.and (v "a") (v "b")], NoAct f) ∧ (∀ f ∈ [v "a", v "c", .or (v "a") (v "c")], NoAct f) := by
  refine ⟨by decide +kernel, ?_, ?_⟩ <;>
  · intro f hf k hk
    simp only [List.mem_cons, List.not_mem_nil, or_false] at hf
    rcases hf with rfl | rfl | rfl <;> simp [Fla.vars, Tm.vars, actVar] at hk

end Golem
