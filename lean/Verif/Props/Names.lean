import Verif.Lemmas.Names
/-
C34: versioned names never collide and versions compose.
-/

namespace Golem
namespace Names

/-! ### Specification -/

/-- A name in which neither separator occurs. -/
def Plain (s : Str) : Prop := ¬ ['#', '#'] <:+: s ∧ ¬ ['_', '_'] <:+: s

/-- A base name golem can tell from its own names: generated names always are; an input name must be plain and must not
be one of the generated names. -/
def Legal : Name → Prop
  | .user s => Plain s.toList ∧ ∀ n : Name, (∀ t, n ≠ .user t) → s.toList ≠ render n
  | _ => True

/-- The base name of a variable. -/
def baseName : Var → Name
  | .base n => n
  | .src n _ => n
  | .tgt n => n
  | .ver n _ => n

/-- The C++ type `int`. -/
def IsInt (k : Int) : Prop := -2147483648 ≤ k ∧ k < 2147483648

/-! ### Rendering of base names -/

theorem no_rfind {s : Str} (h : Plain s) : rfind verSep s = none ∧ rfind tagSep s = none :=
  ⟨rfind_none_iff.2 h.1, rfind_none_iff.2 h.2⟩

theorem plain_of_rfind {s : Str} (h : rfind verSep s = none ∧ rfind tagSep s = none) : Plain s :=
  ⟨rfind_none_iff.1 h.1, rfind_none_iff.1 h.2⟩

theorem hash_showNat (n : Nat) : '#' ∉ showNat n := showNat_not (by decide) n
theorem under_showNat (n : Nat) : '_' ∉ showNat n := showNat_not (by decide) n

theorem plain_prefix (p : Str) (k : Nat) (h : rfind verSep p = none ∧ rfind tagSep p = none) :
    rfind verSep (p ++ showNat k) = none ∧ rfind tagSep (p ++ showNat k) = none :=
  ⟨rfind_append_not h.1 (hash_showNat k), rfind_append_not h.2 (under_showNat k)⟩

theorem getLast_showNat (p : Str) (n : Nat) (c : Char) (h : isDigit c = false) : (p ++ showNat n).getLast? ≠ some c := by
  have hn := showNat_ne_nil n
  have : (p ++ showNat n).getLast? = (showNat n).getLast? := by
    rw [List.getLast?_append]
    cases hs : (showNat n).getLast? with
    | none => exact absurd (List.getLast?_eq_none_iff.1 hs) hn
    | some x => rfl
  rw [this]
  exact last_not_mem (showNat_not h n)

/-- Generated base names, and legal input names, contain no separator. -/
theorem render_plain (n : Name) (h : Legal n) : rfind verSep (render n) = none ∧ rfind tagSep (render n) = none := by
  cases n with
  | user s => exact no_rfind h.1
  | pr k => exact plain_prefix _ k (by decide)
  | aux k => exact plain_prefix _ k (by decide)
  | gaux k => exact plain_prefix _ k (by decide)
  | auxg k => exact plain_prefix _ k (by decide)
  | loc k => exact plain_prefix _ k (by decide)
  | et k => exact plain_prefix _ k (by decide)
  | ei k => exact plain_prefix _ k (by decide)
  | act k => exact plain_prefix _ k (by decide)
  | trlId => exact (by decide)
  | trlLc k => exact plain_prefix _ k (by decide)
  | trlDiff k => exact plain_prefix _ k (by decide)
  | paux k => exact plain_prefix _ k (by decide)
  | arg p i =>
    have h1 := plain_prefix ['.', 'a', 'r', 'g', '_'] p (by decide)
    have e : render (.arg p i) = (['.', 'a', 'r', 'g', '_'] ++ showNat p) ++ ('_' :: showNat i) := by
      simp only [render, List.append_assoc]
    rw [e]
    refine ⟨rfind_append_not h1.1 ?_, rfind_append_none h1.2 ?_ (Or.inl (getLast_showNat _ p _ (by decide)))⟩
    · intro hc
      rcases List.mem_cons.1 hc with hc | hc
      · revert hc; decide
      · exact hash_showNat i hc
    · exact rfind_cons_none.2 ⟨rfind_not_mem (under_showNat i), fun hh => head_not_mem (under_showNat i) hh.2⟩
  | bmc p i =>
    have h1 := plain_prefix ['g', 'o', 'l', 'e', 'm', '_', 'b', 'm', 'c'] p (by decide)
    have e : render (.bmc p i) = (['g', 'o', 'l', 'e', 'm', '_', 'b', 'm', 'c'] ++ showNat p) ++ ('#' :: showNat i) := by
      simp only [render, List.append_assoc]
    rw [e]
    refine ⟨rfind_append_none h1.1 ?_ (Or.inl (getLast_showNat _ p _ (by decide))), rfind_append_not h1.2 ?_⟩
    · exact rfind_cons_none.2 ⟨rfind_not_mem (hash_showNat i), fun hh => head_not_mem (hash_showNat i) hh.2⟩
    · intro hc
      rcases List.mem_cons.1 hc with hc | hc
      · revert hc; decide
      · exact under_showNat i hc

theorem showNat_ne_cons {c : Char} (h : isDigit c = false) (n : Nat) (r : Str) : showNat n ≠ c :: r := by
  intro e
  exact showNat_not h n (by rw [e]; exact List.mem_cons_self)

theorem prefix_inj {p : Str} {a b : Nat} (h : p ++ showNat a = p ++ showNat b) : a = b :=
  showNat_inj (List.append_cancel_left h)

/-- Distinct generated base names are rendered differently. -/
theorem render_inj_generated {m n : Name} (hm : ∀ t, m ≠ .user t) (hn : ∀ t, n ≠ .user t) (h : render m = render n) :
    m = n := by
  have k1 : ∀ (a : Nat) (r : Str), showNat a ≠ 'g' :: r := fun a r => showNat_ne_cons (by decide) a r
  have k2 : ∀ (a : Nat) (r : Str), 'g' :: r ≠ showNat a := fun a r h => k1 a r h.symm
  cases m <;> cases n <;>
    first
    | rfl
    | exact absurd rfl (hm _)
    | exact absurd rfl (hn _)
    | (simp only [render, List.cons_append, List.nil_append, List.cons.injEq, true_and, k1, k2] at h; done)
    | (simp only [render, List.cons_append, List.nil_append, List.cons.injEq, true_and, k1, k2] at h
       first
       | (rw [showNat_inj h])
       | (have h1 := split_inj (under_showNat _) (under_showNat _) h
          rw [showNat_inj h1.1, showNat_inj h1.2])
       | (have h1 := split_inj (hash_showNat _) (hash_showNat _) h
          rw [showNat_inj h1.1, showNat_inj h1.2])
       | exact absurd h (by simp))

theorem render_inj {m n : Name} (hm : Legal m) (hn : Legal n) (h : render m = render n) : m = n := by
  by_cases h1 : ∃ s, m = .user s
  · obtain ⟨s, rfl⟩ := h1
    by_cases h2 : ∃ t, n = .user t
    · obtain ⟨t, rfl⟩ := h2
      have : s = t := String.toList_injective h
      rw [this]
    · exact absurd h (hm.2 n fun t ht => h2 ⟨t, ht⟩)
  · by_cases h2 : ∃ t, n = .user t
    · obtain ⟨t, rfl⟩ := h2
      exact absurd h.symm (hn.2 m fun t ht => h1 ⟨t, ht⟩)
    · exact render_inj_generated (fun t ht => h1 ⟨t, ht⟩) (fun t ht => h2 ⟨t, ht⟩) h

/-! ### Splitting off versions and tags -/

theorem rfind_ver (n : Str) {r : Str} (h : '#' ∉ r) : rfind verSep (n ++ verSep ++ r) = some n.length := by
  have : n ++ verSep ++ r = n ++ '#' :: '#' :: r := by simp [verSep]
  rw [this]; exact rfind_last n h

theorem rfind_tag (n : Str) {r : Str} (h : '_' ∉ r) : rfind tagSep (n ++ tagSep ++ r) = some n.length := by
  have : n ++ tagSep ++ r = n ++ '_' :: '_' :: r := by simp [tagSep]
  rw [this]; exact rfind_last n h

theorem tagged_not_versioned {n : Str} (h : rfind verSep n = none) {c : Char} (hc : c ≠ '#') :
    rfind verSep (n ++ tagSep ++ [c]) = none := by
  rw [List.append_assoc]
  refine rfind_append_not h ?_
  simp [tagSep]; exact fun h => hc h.symm

/-- Cutting a name at the last occurrence of a separator. -/
def cut (sep s : Str) : Str × Option Str :=
  match rfind sep s with
  | some p => (s.take p, some (s.drop (p + 2)))
  | none => (s, none)

theorem cut_ver (n : Str) {r : Str} (h : '#' ∉ r) : cut verSep (n ++ verSep ++ r) = (n, some r) := by
  unfold cut
  rw [rfind_ver n h]
  simp [verSep]

theorem cut_tag (n : Str) {r : Str} (h : '_' ∉ r) : cut tagSep (n ++ tagSep ++ r) = (n, some r) := by
  unfold cut
  rw [rfind_tag n h]
  simp [tagSep]

theorem cut_none {sep s : Str} (h : rfind sep s = none) : cut sep s = (s, none) := by
  unfold cut; rw [h]

/-- What is left of a variable's name after cutting version and tag. -/
theorem cut_str (v : Var) (h : Legal (baseName v)) :
    (cut verSep (str v)).2 = (match v with | .src _ i => some (showInt i) | .ver _ k => some (showInt k) | _ => none) ∧
    cut tagSep (cut verSep (str v)).1 =
      (render (baseName v), match v with | .src _ _ => some ['s'] | .tgt _ => some ['t'] | _ => none) := by
  obtain ⟨h1, h2⟩ := render_plain _ h
  cases v with
  | base n =>
    have h1' : rfind verSep (render n) = none := h1
    have h2' : rfind tagSep (render n) = none := h2
    simp [str, cut_none h1', cut_none h2', baseName]
  | src n i =>
    simp only [str, cut_ver _ (showInt_not_hash i), cut_tag _ (by decide : '_' ∉ ['s']), baseName, and_self]
  | tgt n =>
    have e : cut verSep (str (.tgt n)) = (render n ++ tagSep ++ ['t'], none) :=
      cut_none (tagged_not_versioned h1 (by decide : 't' ≠ '#'))
    rw [e]
    simp only [cut_tag _ (by decide : '_' ∉ ['t']), baseName, and_self]
  | ver n k =>
    have h2' : rfind tagSep (render n) = none := h2
    simp only [str, cut_ver _ (showInt_not_hash k), cut_none h2', baseName, and_self]

end Names

open Names

/-- **C34** Distinct combinations of base name, tag and version have distinct names: source instances, target copies,
versions and base variables never collide. -/
theorem C34_names_distinct (u v : Var) (hu : Legal (baseName u)) (hv : Legal (baseName v)) (h : str u = str v) :
    u = v := by
  obtain ⟨a1, a2⟩ := cut_str u hu
  obtain ⟨b1, b2⟩ := cut_str v hv
  rw [h, b1] at a1
  rw [h, b2] at a2
  have e1 := (Prod.mk.inj a2).1
  have e2 := (Prod.mk.inj a2).2
  have hb := render_inj hv hu e1
  cases u <;> cases v <;> simp only [baseName] at hb <;> subst hb <;>
    simp only [Option.some.injEq, reduceCtorEq] at a1 e2 <;>
    first
    | rfl
    | (rw [showInt_inj a1])
    | (exact absurd e2 (by decide))

/-- The hypothesis on input names is needed: an input variable called `a__t` is the target copy of `a`. -/
theorem C34_tagged_input_name_collides :
    str (.base (.user "a__t")) = str (.tgt (.user "a")) ∧ str (.base (.user "a##0")) = str (.ver (.user "a") 0) ∧
      str (.base (.user "x#0")) = str (.base (.pr 0)) := by
  have h0 : showNat 0 = ['0'] := by rw [showNat]; rfl
  have h0' : showInt 0 = ['0'] := h0
  refine ⟨?_, ?_, ?_⟩
  · simp only [str, render]; decide
  · simp only [str, render, h0']; decide
  · simp only [str, render, h0]; decide

/-- **C34** Taking the tag or version off again returns the name it was put on, whatever the name for sources and
versions; for target copies the name must not contain the version separator (the code asserts this). -/
theorem C34_unversioning_inverts (s : Str) (i : Nat) :
    toBase (toSource s i) = s ∧ (¬ ['#', '#'] <:+: s → toBase (toTarget s) = s) ∧
      getUnversioned (getVarVersionZero s) = s ∧ getVersionNumber (getVarVersionZero s) = some 0 ∧
      isVersionedName (getVarVersionZero s) = true ∧ isVersionedName (toSource s i) = true ∧
      isTaggedName (toTarget s) = true := by
  have hi : '#' ∉ showNat i := hash_showNat i
  have h0 : '#' ∉ showNat 0 := hash_showNat 0
  have z0 : stoi (showNat 0) = some 0 := stoi_showInt 0 (by decide)
  refine ⟨?_, ?_, ?_, ?_, ?_, ?_, ?_⟩
  · unfold toBase toSource ensureNoVersion removeTag
    rw [rfind_ver _ hi]
    simp only
    rw [List.append_assoc (s ++ tagSep ++ ['s']), List.take_left', rfind_tag s (by decide : '_' ∉ ['s'])]
    · simp
    · rfl
  · intro h
    unfold toBase toTarget ensureNoVersion removeTag
    rw [tagged_not_versioned (rfind_none_iff.2 h) (by decide)]
    simp only
    rw [rfind_tag s (by decide : '_' ∉ ['t'])]
    simp
  · unfold getUnversioned getVarVersionZero; rw [rfind_ver s h0]; simp
  · unfold getVersionNumber getVarVersionZero; rw [rfind_ver s h0]
    simp only
    have : (s ++ verSep ++ showNat 0).drop (s.length + 2) = showNat 0 := by simp [verSep]
    rw [this, z0]
  · unfold isVersionedName getVarVersionZero; rw [rfind_ver s h0]; rfl
  · unfold isVersionedName toSource; rw [rfind_ver _ hi]; rfl
  · unfold isTaggedName toTarget; rw [rfind_tag s (by decide : '_' ∉ ['t'])]; rfl

theorem Names.rfind_bound {c : Char} {s : Str} {p : Nat} (h : rfind [c, c] s = some p) :
    s.take (p + 2) = s.take p ++ [c, c] := by
  induction s generalizing p with
  | nil => simp [rfind, List.isPrefixOf] at h
  | cons d s ih =>
    rw [rfind] at h
    split at h
    · rename_i q hq
      cases h
      show (d :: s).take (q + 2 + 1) = (d :: s).take (q + 1) ++ _
      rw [List.take_succ_cons, List.take_succ_cons, ih hq]; rfl
    · split at h
      · rename_i hp
        cases h
        cases s with
        | nil => simp [List.isPrefixOf] at hp
        | cons e s =>
          simp [List.isPrefixOf] at hp
          obtain ⟨rfl, rfl⟩ := hp; simp
      · cases h

theorem Names.send_eq {s : Str} (hv : isVersionedName s = true) {v : Int} (h : getVersionNumber s = some v) (k : Int) :
    sendVarThroughTime s k = some (getUnversioned s ++ verSep ++ showInt (v + k)) := by
  unfold isVersionedName at hv
  unfold getVersionNumber at h
  unfold sendVarThroughTime getUnversioned
  cases hp : rfind verSep s with
  | none => rw [hp] at hv; cases hv
  | some p =>
    rw [hp] at h
    simp only at h ⊢
    rw [h]
    simp only [Option.map_some]
    rw [Names.rfind_bound hp]; rfl

/-- **C34** Moving a versioned name in time: the result has the version moved, the same base, and moving `k` then `m`
steps is moving `k + m` steps, in particular `m` steps back after `m` steps forward; no exception is raised as long as
the versions are in the range of `int`. -/
theorem C34_time_steps_compose (s : Str) (hs : isVersionedName s = true) (v k m : Int)
    (hv : getVersionNumber s = some v) (hk : IsInt (v + k)) :
    ∃ t, sendVarThroughTime s k = some t ∧ isVersionedName t = true ∧ getVersionNumber t = some (v + k) ∧
      getUnversioned t = getUnversioned s ∧ sendVarThroughTime t m = sendVarThroughTime s (k + m) := by
  have e := send_eq hs hv k
  have hr : rfind verSep (getUnversioned s ++ verSep ++ showInt (v + k)) = some (getUnversioned s).length :=
    rfind_ver _ (showInt_not_hash _)
  have h1 : isVersionedName (getUnversioned s ++ verSep ++ showInt (v + k)) = true := by
    unfold isVersionedName; rw [hr]; rfl
  have h2 : getVersionNumber (getUnversioned s ++ verSep ++ showInt (v + k)) = some (v + k) := by
    unfold getVersionNumber; rw [hr]
    simp only
    have : (getUnversioned s ++ verSep ++ showInt (v + k)).drop ((getUnversioned s).length + 2) = showInt (v + k) := by
      simp [verSep]
    rw [this, stoi_showInt _ hk]
  have h3 : getUnversioned (getUnversioned s ++ verSep ++ showInt (v + k)) = getUnversioned s := by
    generalize getUnversioned s = u at hr ⊢
    unfold getUnversioned
    rw [hr]; simp
  refine ⟨_, e, h1, h2, h3, ?_⟩
  rw [send_eq h1 h2, send_eq hs hv, h3, Int.add_assoc]

/-- **C34** The tagged variables of the rest of the model are these strings: every operation on tags is the string
operation golem performs. -/
theorem C34_model_of_names (n : Name) (i : Nat) (j k : Int) (hj : IsInt j) :
    str (toSrc i (.base n)) = toSource (str (.base n)) i ∧ str (toTgt (.base n)) = toTarget (str (.base n)) ∧
      str (.ver n 0) = getVarVersionZero (str (.base n)) ∧
      some (str (shift k (.ver n j))) = sendVarThroughTime (str (.ver n j)) k ∧
      some (str (shift k (.src n j))) = sendVarThroughTime (str (.src n j)) k := by
  refine ⟨rfl, rfl, rfl, ?_, ?_⟩
  · have hr : rfind verSep (str (.ver n j)) = some (render n).length := rfind_ver _ (showInt_not_hash _)
    rw [send_eq (v := j) (by unfold isVersionedName; rw [hr]; rfl)]
    · unfold getUnversioned; rw [hr]; simp [str, shift]
    · unfold getVersionNumber; rw [hr]
      simp only
      have : (str (.ver n j)).drop ((render n).length + 2) = showInt j := by simp [str, verSep]
      rw [this, stoi_showInt _ hj]
  · have es : str (.src n j) = (render n ++ tagSep ++ ['s']) ++ verSep ++ showInt j := rfl
    have es' : str (shift k (.src n j)) = (render n ++ tagSep ++ ['s']) ++ verSep ++ showInt (j + k) := rfl
    rw [es, es']
    generalize render n ++ tagSep ++ ['s'] = w
    have hr : rfind verSep (w ++ verSep ++ showInt j) = some w.length := rfind_ver _ (showInt_not_hash _)
    rw [send_eq (v := j) (by unfold isVersionedName; rw [hr]; rfl)]
    · unfold getUnversioned; rw [hr]; simp
    · unfold getVersionNumber; rw [hr]
      simp only
      have : (w ++ verSep ++ showInt j).drop (w.length + 2) = showInt j := by simp [verSep]
      rw [this, stoi_showInt _ hj]

/-- A name outside this format makes the version number unreadable: `stoi` throws. -/
theorem C34_bad_version_throws : sendVarThroughTime ['a', '#', '#', 'b'] 1 = none := by decide

/-- Non-vacuity: a concrete variable, moved three steps forward and five back. -/
example : ∃ t, sendVarThroughTime (str (.ver (.aux 12) 3)) 4 = some t ∧ t = str (.ver (.aux 12) 7) := by
  have h := (C34_model_of_names (.aux 12) 0 3 4 ⟨by decide, by decide⟩).2.2.2.1
  exact ⟨_, h.symm, rfl⟩

example : Legal (baseName (.src (.pr 3) 1)) ∧ Legal (baseName (.base (.user "count"))) := by
  refine ⟨trivial, ⟨by unfold Plain; decide, ?_⟩⟩
  intro n hn
  cases n <;> first | exact absurd rfl (hn _) | simp [render]

end Golem
