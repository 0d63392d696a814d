import Verif.Lemmas.LawiTree

/-!
The interpolants of a refuted path of LAWI.
-/

namespace Golem
variable {T : Theory}

theorem pathQuery_length (es : List (LEdge T)) : (pathQuery es).length = es.length := by simp [pathQuery]

theorem pathQuery_get {es : List (LEdge T)} {i : Nat} {e : LEdge T} (h : es[i]? = some e) :
    (pathQuery es)[i]? = some (sendFla e.fla (i : Nat)) := by
  simp [pathQuery, List.getElem?_map, List.getElem?_zipIdx, h]

theorem lwPathItps_get {I : Smt T} {fs : List (Fla T)} {n i : Nat} (hi : i + 1 < n) :
    (lwNormalize (lwPathItps I fs n))[i]? = some (sendFla (I.itp (fs.take (i + 1)) (fs.drop (i + 1))) (-((i : Int) + 1))) := by
  have h1 : (lwPathItps I fs n)[i]? = some (I.itp (fs.take (i + 1)) (fs.drop (i + 1))) := by
    unfold lwPathItps
    rw [List.getElem?_append_left (by simp; omega), List.getElem?_map, List.getElem?_range (by omega)]
    rfl
  simp [lwNormalize, List.getElem?_map, List.getElem?_zipIdx, h1]

theorem lwPathItps_last {I : Smt T} {fs : List (Fla T)} {n : Nat} (_ : 0 < n) :
    (lwNormalize (lwPathItps I fs n))[n - 1]? = some (sendFla .ff (-(((n - 1 : Nat) : Int) + 1))) := by
  have h1 : (lwPathItps I fs n)[n - 1]? = some .ff := by
    unfold lwPathItps
    rw [List.getElem?_append_right (by simp)]
    simp
  simp [lwNormalize, List.getElem?_map, List.getElem?_zipIdx, h1]

theorem lwPathItps_length {I : Smt T} {fs : List (Fla T)} {n : Nat} (hn : 0 < n) : (lwNormalize (lwPathItps I fs n)).length = n := by
  simp [lwNormalize, lwPathItps]; omega

theorem sendFla_ff (k : Int) : sendFla (.ff : Fla T) k = .ff := by
  unfold sendFla; split <;> rfl

theorem vars_sendFla {f : Fla T} {k : Int} {x : Var} (h : x ∈ (sendFla f k).vars) : ∃ y ∈ f.vars, x = shift k y := by
  unfold sendFla at h
  split at h
  · rename_i hk; subst hk; exact ⟨x, h, (shift_zero x).symm⟩
  · obtain ⟨y, hy, rfl⟩ := Fla.mem_vars_rename.1 h
    exact ⟨y, hy, rfl⟩

/-- What the normalized interpolants of a refuted path do for the labels. -/
structure LwItps (R : PRepr) (es : List (LEdge T)) (N : List (Fla T)) : Prop where
  len : N.length = es.length
  first : ∀ e f, es[0]? = some e → N[0]? = some f → ∀ ρ : Valuation T, e.fla.holds ρ → f.holds (fun x => ρ (shift 1 x))
  step : ∀ (i : Nat) e f g, es[i + 1]? = some e → N[i]? = some f → N[i + 1]? = some g → ∀ ρ : Valuation T, f.holds ρ →
    e.fla.holds ρ → g.holds (fun x => ρ (shift 1 x))
  last : ∀ f, N[es.length - 1]? = some f → ∀ ρ : Valuation T, ¬ f.holds ρ
  vars : ∀ (i : Nat) e f, es[i]? = some e → N[i]? = some f → ∀ x ∈ f.vars, x ∈ R.stateVars e.tgt

theorem lwItps_ok {I : Smt T} (hI : I.Sound) {R : PRepr} {es : List (LEdge T)} (hl : ∀ e ∈ es, e.LabelOk R) (hne : es ≠ [])
    (hu : I.check (pathQuery es) = .unsat) : LwItps R es (lwNormalize (lwPathItps I (pathQuery es) es.length)) := by
  have hpos : 0 < es.length := List.length_pos_of_ne_nil hne
  have hq := pathQuery_length es
  -- interpolants at shifted valuations
  have hback : ∀ (k : Int) (ρ : Valuation T) (f : Fla T), (sendFla f (-k)).holds (fun x => ρ (shift k x)) ↔ f.holds ρ := by
    intro k ρ f
    rw [sendFla_holds]
    refine Fla.holds_congr fun x _ => ?_
    simp only [shift_shift]
    rw [show -k + k = 0 by omega, shift_zero]
  refine ⟨lwPathItps_length hpos, ?_, ?_, ?_, ?_⟩
  · intro e f he hf ρ hh
    have hq0 : (pathQuery es)[0]? = some e.fla := by rw [pathQuery_get he]; simp [sendFla]
    by_cases h1 : 0 + 1 < es.length
    · rw [lwPathItps_get h1, Option.some.injEq] at hf
      rw [← hf]
      have := (hback 1 ρ (I.itp ((pathQuery es).take (0 + 1)) ((pathQuery es).drop (0 + 1)))).2 ((hI.pathItp hu 0).fromA ρ (by
        have : (pathQuery es).take (0 + 1) = [e.fla] := by
          rw [List.take_add_one, hq0]; simp
        rw [this]; simpa [AllHold] using hh))
      simpa using this
    · have h2 : es.length = 1 := by omega
      exfalso
      refine hI.unsat _ hu ⟨ρ, ?_⟩
      rw [pathQuery_hold]
      intro i e' he'
      have := List.getElem?_lt he'
      obtain rfl : i = 0 := by omega
      rw [he] at he'; cases he'
      simpa [sendFla] using hh
  · intro i e f g he hf hg ρ h1 h2
    have hil := List.getElem?_lt he
    rw [lwPathItps_get hil, Option.some.injEq] at hf
    subst hf
    -- the valuation of the whole path
    let σ : Valuation T := fun x => ρ (shift (-((i : Int) + 1)) x)
    have hσ1 : (I.itp ((pathQuery es).take (i + 1)) ((pathQuery es).drop (i + 1))).holds σ := sendFla_holds.1 h1
    have hqi := pathQuery_get he
    have hlt : i + 1 < (pathQuery es).length := by omega
    have hge : (pathQuery es)[i + 1] = sendFla e.fla ((i + 1 : Nat) : Int) := by
      rw [List.getElem?_eq_getElem hlt, Option.some.injEq] at hqi; exact hqi
    have hσ2 : (pathQuery es)[i + 1].holds σ := by
      rw [hge, sendFla_holds]
      refine (Fla.holds_congr fun x _ => ?_).1 h2
      simp only [σ, shift_shift]
      rw [show ((i + 1 : Nat) : Int) + -((i : Int) + 1) = 0 by omega, shift_zero]
    by_cases h3 : i + 1 + 1 < es.length
    · rw [lwPathItps_get h3, Option.some.injEq] at hg
      subst hg
      have := hI.pathItp_step hu (i + 1) hlt σ hσ1 hσ2
      rw [sendFla_holds]
      refine (Fla.holds_congr fun x _ => ?_).1 this
      simp only [σ, shift_shift]
      rw [show -(((i + 1 : Nat) : Int) + 1) + 1 = -((i : Int) + 1) by omega]
    · exfalso
      refine (hI.pathItp hu i).refuteB σ hσ1 ?_
      have : (pathQuery es).drop (i + 1) = [(pathQuery es)[i + 1]] := by
        rw [List.drop_eq_getElem_cons hlt, List.drop_eq_nil_of_le (by omega)]
      rw [this]
      simpa [AllHold] using hσ2
  · intro f hf ρ
    rw [lwPathItps_last hpos, Option.some.injEq, sendFla_ff] at hf
    subst hf
    simp [Fla.holds]
  · intro i e f he hf x hx
    have hil := List.getElem?_lt he
    by_cases h1 : i + 1 < es.length
    · rw [lwPathItps_get h1, Option.some.injEq] at hf
      subst hf
      obtain ⟨y, hy, rfl⟩ := vars_sendFla hx
      obtain ⟨h3, h4⟩ := (hI.pathItp hu i).shared y hy
      obtain ⟨a, ha, hya⟩ := Fla.mem_vars_conj.1 h3
      obtain ⟨b, hb, hyb⟩ := Fla.mem_vars_conj.1 h4
      obtain ⟨j, hj, rfl⟩ := List.getElem_of_mem ha
      obtain ⟨k, hk, rfl⟩ := List.getElem_of_mem hb
      rw [List.getElem_take] at hya
      rw [List.getElem_drop] at hyb
      rw [List.length_take] at hj
      rw [List.length_drop] at hk
      have hfs : ∀ (m : Nat) (hm : m < (pathQuery es).length), ∃ em ∈ es, es[m]? = some em ∧
          (pathQuery es)[m] = sendFla em.fla (m : Int) := by
        intro m hm
        have hm' : m < es.length := by omega
        refine ⟨es[m], List.getElem_mem _, List.getElem?_eq_getElem hm', ?_⟩
        have := pathQuery_get (List.getElem?_eq_getElem hm')
        rw [List.getElem?_eq_getElem hm, Option.some.injEq] at this
        exact this
      obtain ⟨ej, hej, hej', hqj⟩ := hfs j (by omega)
      obtain ⟨ek, hek, _, hqk⟩ := hfs (i + 1 + k) (by omega)
      rw [hqj] at hya
      rw [hqk] at hyb
      obtain ⟨y1, hy1, rfl⟩ := vars_sendFla hya
      obtain ⟨y2, hy2, he2⟩ := vars_sendFla hyb
      have hlow : ∀ z ∈ ek.fla.vars, (∃ n, z = .ver n 0) ∨ (∃ n, z = .ver n 1) ∨ ∃ n, z = .src n 0 := by
        intro z hz
        rcases hl ek hek z hz with h | h | h
        · obtain ⟨n, _, rfl⟩ := List.mem_map.1 h; exact .inl ⟨n, rfl⟩
        · obtain ⟨n, _, rfl⟩ := List.mem_map.1 h; exact .inr (.inl ⟨n, rfl⟩)
        · rcases h with ⟨n, rfl, _⟩ | ⟨n, rfl, _⟩
          · exact .inl ⟨n, rfl⟩
          · exact .inr (.inr ⟨n, rfl⟩)
      rcases hl ej hej y1 hy1 with h | h | h
      · exfalso
        obtain ⟨n, _, rfl⟩ := List.mem_map.1 h
        rcases hlow y2 hy2 with ⟨m, rfl⟩ | ⟨m, rfl⟩ | ⟨m, rfl⟩ <;> simp [shift] at he2 <;> omega
      · obtain ⟨n, hn, rfl⟩ := List.mem_map.1 h
        have hji : j = i := by
          rcases hlow y2 hy2 with ⟨m, rfl⟩ | ⟨m, rfl⟩ | ⟨m, rfl⟩ <;> simp [shift] at he2 <;> omega
        subst hji
        rw [he] at hej'; cases hej'
        refine List.mem_map.2 ⟨n, hn, ?_⟩
        simp only [shift]
        congr 1
        omega
      · exfalso
        rcases h with ⟨n, rfl, _⟩ | ⟨n, rfl, _⟩ <;> rcases hlow y2 hy2 with ⟨m, rfl⟩ | ⟨m, rfl⟩ | ⟨m, rfl⟩ <;> simp [shift] at he2 <;> omega
    · obtain rfl : i = es.length - 1 := by omega
      rw [lwPathItps_last hpos, Option.some.injEq, sendFla_ff] at hf
      subst hf
      simp [Fla.vars] at hx

end Golem
