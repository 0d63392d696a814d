import Verif.Lemmas.ItsTerms

/-! Files of integer transition systems: what `resolveAll` makes of a well-formed file. -/

namespace Golem
namespace Its
open Spec SExpr

/-- The declaration of a location with `n` integer arguments. -/
def intDecl (f : Spec.Str) (n : Nat) : Decl := ⟨f, List.replicate n "Int".toList, "Int".toList⟩

def ruleOf (r : SRule) : Rule := ⟨⟨r.src, r.srcArgs⟩, ⟨r.tgt, r.tgtArgs⟩, r.guard.map Gx.expr⟩

theorem asAtoms_map : ∀ l : List Spec.Str, asAtoms (l.map .atom) = some l
  | [] => rfl
  | s :: l => by simp [asAtoms, asAtom, asAtoms_map l]

theorem parseLoc_locS (f : Spec.Str) (args : List Spec.Str) : parseLoc (locS f args) = some ⟨f, args⟩ := by
  unfold locS
  split
  · rename_i h; subst h; rfl
  · simp only [parseLoc, asAtom, asAtoms_map]

theorem parseFun_typeS (kw : SExp) (f : Spec.Str) (n : Nat) : parseFun [kw, .atom f, typeS n] = some (intDecl f n) := by
  unfold typeS
  split
  · rename_i h; subst h; rfl
  · have h1 : (List.replicate (n + 1) (Spec.a "Int")).getLast? = some (Spec.a "Int") := by
      rw [List.getLast?_replicate]; simp
    have h2 : (List.replicate (n + 1) (Spec.a "Int")).dropLast = (List.replicate n "Int".toList).map .atom := by
      rw [List.dropLast_replicate, List.map_replicate]; rfl
    have h3 : asAtom (Spec.a "->") = some "->".toList := rfl
    have h4 : asAtom (.atom f) = some f := rfl
    simp only [parseFun, h1, h2, asAtoms_map, h4]
    rw [if_pos h3]
    rfl

/-- The rules of a well-formed file, as far as the parser is concerned. -/
def NamesOk : Item → Prop
  | .rule r => ∀ g, r.guard = some g → ∀ x ∈ g.vars, IsName x
  | _ => True

/-- What one command does. -/
def applyItem (its : Itss) : Item → Itss
  | .format s => { its with format := s }
  | .theory s => { its with theory := s }
  | .fn f n => { its with locations := insertDecl its.locations (intDecl f n) }
  | .entry f => { its with entrypoint := f }
  | .rule r => { its with rules := its.rules ++ [ruleOf r] }

theorem parseRule_ok (kw : SExp) (r : SRule) (h : ∀ g, r.guard = some g → ∀ x ∈ g.vars, IsName x) :
    parseRule ([kw, locS r.src r.srcArgs, locS r.tgt r.tgtArgs] ++
      match r.guard with
      | none => []
      | some g => [Spec.a ":guard", g.toS]) = some (ruleOf r) := by
  cases hg : r.guard with
  | none => simp only [parseRule, List.cons_append, List.nil_append, parseLoc_locS, ruleOf, hg]; rfl
  | some g =>
    have h3 : asAtom (Spec.a ":guard") = some ":guard".toList := rfl
    simp only [parseRule, List.cons_append, List.nil_append, parseLoc_locS, ruleOf, hg]
    rw [if_pos h3, parse_gx g (h g hg)]
    rfl

theorem resolve_item (its : Itss) (i : Item) (h : NamesOk i) : resolve its i.toS = some (applyItem its i) := by
  cases i with
  | format s =>
    simp only [Item.toS, Spec.a, resolve, asAtom]
    rw [if_pos True.intro]; rfl
  | theory s =>
    simp only [Item.toS, Spec.a, resolve, asAtom]
    rw [if_neg (by decide +kernel), if_pos True.intro]; rfl
  | fn f n =>
    simp only [Item.toS, Spec.a, resolve, asAtom]
    rw [if_neg (by decide +kernel), if_neg (by decide +kernel), if_pos True.intro, parseFun_typeS]; rfl
  | entry f =>
    simp only [Item.toS, Spec.a, resolve, asAtom]
    rw [if_neg (by decide +kernel), if_neg (by decide +kernel), if_neg (by decide +kernel), if_pos True.intro]; rfl
  | rule r =>
    have := parseRule_ok (Spec.a "rule") r h
    simp only [List.cons_append, List.nil_append] at this
    simp only [Item.toS, List.cons_append, List.nil_append, resolve]
    rw [show asAtom (Spec.a "rule") = some "rule".toList from rfl]
    simp only
    rw [if_neg (by decide +kernel), if_neg (by decide +kernel), if_neg (by decide +kernel), if_neg (by decide +kernel), if_pos True.intro]
    exact congrArg (Option.map _) this

theorem resolveAll_items : ∀ (items : List Item) (its : Itss), (∀ i ∈ items, NamesOk i) →
    resolveAll its (items.map Item.toS) = some (items.foldl applyItem its)
  | [], _, _ => rfl
  | i :: items, its, h => by
    simp only [List.map_cons, resolveAll, resolve_item its i (h i (by simp)), List.foldl_cons]
    exact resolveAll_items items _ fun j hj => h j (List.mem_cons_of_mem _ hj)

def declOf : Item → Option (Spec.Str × Decl)
  | .fn f n => some (f, intDecl f n)
  | _ => none

def ruleItem : Item → Option Rule
  | .rule r => some (ruleOf r)
  | _ => none

def entryItem : Item → Option Spec.Str
  | .entry f => some f
  | _ => none

theorem fold_rules : ∀ (items : List Item) (its : Itss), (items.foldl applyItem its).rules = its.rules ++ items.filterMap ruleItem
  | [], its => by simp
  | i :: items, its => by
    rw [List.foldl_cons, fold_rules items]
    cases i <;> simp [applyItem, ruleItem, List.filterMap_cons]

theorem fold_entry : ∀ (items : List Item) (its : Itss),
    (items.foldl applyItem its).entrypoint = ((items.filterMap entryItem).getLast?).getD its.entrypoint
  | [], its => by simp
  | i :: items, its => by
    rw [List.foldl_cons, fold_entry items]
    cases i <;> simp [applyItem, entryItem, List.filterMap_cons, List.getLast?_cons]

theorem entries_eq (items : List Item) : entries items = items.filterMap entryItem := by
  unfold entries
  rfl

theorem fold_locations : ∀ (items : List Item) (its : Itss), (its.locations.map Prod.fst ++ declared items).Nodup →
    (items.foldl applyItem its).locations = its.locations ++ items.filterMap declOf
  | [], its, _ => by simp
  | i :: items, its, h => by
    rw [List.foldl_cons]
    cases i with
    | fn f n =>
      have hf : f ∉ its.locations.map Prod.fst := by
        intro hm
        have := (List.nodup_append.1 h).2.2 f hm f (by simp [declared])
        exact this rfl
      have hi : insertDecl its.locations (intDecl f n) = its.locations ++ [(f, intDecl f n)] := by
        unfold insertDecl
        rw [if_neg]
        · rfl
        · rw [List.any_eq_true]
          rintro ⟨p, hp, e⟩
          exact hf (List.mem_map.2 ⟨p, hp, of_decide_eq_true e⟩)
      rw [fold_locations items]
      · simp only [applyItem, hi, declOf, List.filterMap_cons, List.append_assoc, List.cons_append, List.nil_append]
      · simp only [applyItem, hi, List.map_append, List.map_cons, List.map_nil, List.append_assoc, List.cons_append, List.nil_append]
        exact h
    | format s => rw [fold_locations items (applyItem its (.format s)) h]; rfl
    | theory s => rw [fold_locations items (applyItem its (.theory s)) h]; rfl
    | entry s => rw [fold_locations items (applyItem its (.entry s)) h]; rfl
    | rule s => rw [fold_locations items (applyItem its (.rule s)) h]; rfl

/-- The declared locations. -/
def table (items : List Item) : List (Spec.Str × Decl) := items.filterMap declOf

theorem table_keys (items : List Item) : (table items).map Prod.fst = declared items := by
  unfold table declared
  rw [List.map_filterMap]
  congr 1
  funext i; cases i <;> rfl

theorem mem_table {items : List Item} {f : Spec.Str} {d : Decl} (h : (f, d) ∈ table items) : ∃ n, .fn f n ∈ items ∧ d = intDecl f n := by
  obtain ⟨i, hi, e⟩ := List.mem_filterMap.1 h
  cases i with
  | fn g n => cases e; exact ⟨n, hi, rfl⟩
  | _ => cases e

theorem table_unique {items : List Item} (hn : (declared items).Nodup) {f : Spec.Str} {d d' : Decl} (h : (f, d) ∈ table items)
    (h' : (f, d') ∈ table items) : d = d' := by
  rw [← table_keys] at hn
  obtain ⟨i, hi, e⟩ := List.getElem_of_mem h
  obtain ⟨j, hj, e'⟩ := List.getElem_of_mem h'
  have hij : i = j := by
    have h1 : ((table items).map Prod.fst)[i]'(by simpa using hi) = ((table items).map Prod.fst)[j]'(by simpa using hj) := by
      simp [e, e']
    exact (List.getElem_inj hn).1 h1
  subst hij
  rw [e] at e'
  exact (Prod.mk.inj e').2

/-- The name of a symbol. -/
def nameOf (m : List (Spec.Str × Decl)) : Pred → Spec.Str
  | .p k => (m[k]?.map Prod.fst).getD []
  | _ => []

def arOf (m : List (Spec.Str × Decl)) : Pred → Nat
  | .p k => (m[k]?.map fun q => q.2.argTypes.length).getD 0
  | _ => 0

theorem predOf_some {m : List (Spec.Str × Decl)} {f : Spec.Str} {p : Pred} {n : Nat} (h : predOf m f = some (p, n)) :
    ∃ k d, p = .p k ∧ m[k]? = some (f, d) ∧ n = d.argTypes.length := by
  unfold predOf at h
  obtain ⟨q, hq, e⟩ := Option.map_eq_some_iff.1 h
  have h1 := List.mem_of_find?_eq_some hq
  have h2 : q.1.1 = f := by simpa using List.find?_some hq
  cases e
  obtain ⟨⟨g, d⟩, k⟩ := q
  simp only at h2
  subst h2
  exact ⟨k, d, rfl, List.mem_zipIdx_iff_getElem?.1 h1, rfl⟩

theorem predOf_declared {items : List Item} (hn : (declared items).Nodup) {f : Spec.Str} {n : Nat} (h : .fn f n ∈ items) :
    ∃ k, predOf (table items) f = some (.p k, n) ∧ nameOf (table items) (.p k) = f ∧ arOf (table items) (.p k) = n := by
  have hm : (f, intDecl f n) ∈ table items := List.mem_filterMap.2 ⟨_, h, rfl⟩
  have hlen : (intDecl f n).argTypes.length = n := by simp [intDecl]
  cases hp : predOf (table items) f with
  | none =>
    unfold predOf at hp
    rw [Option.map_eq_none_iff, List.find?_eq_none] at hp
    obtain ⟨k, hk⟩ := List.getElem?_of_mem hm
    exact absurd (hp ((f, intDecl f n), k) (List.mem_zipIdx_iff_getElem?.2 hk)) (by simp)
  | some q =>
    obtain ⟨p, n'⟩ := q
    obtain ⟨k, d, rfl, hk, rfl⟩ := predOf_some hp
    have hd : d = intDecl f n := table_unique hn (List.mem_of_getElem? hk) hm
    subst hd
    exact ⟨k, by rw [hlen], by simp [nameOf, hk], by simp only [arOf, hk, Option.map_some, Option.getD_some, hlen]⟩

end Its
end Golem
