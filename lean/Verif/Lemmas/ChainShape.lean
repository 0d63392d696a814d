import Verif.Lemmas.NodeElim
import Verif.Model.Transformers.ChainSummarizer

/-! The shape of the chains that are summarized. -/

namespace Golem
variable {T : Theory}

/-- `v` has one incoming edge `i` and one outgoing edge `o`, both simple. -/
structure Triv (G : Graph T) (v : Pred) (i o : Edge T) : Prop where
  mi : i ∈ G
  mo : o ∈ G
  ti : i.tgt = v
  inc : ∀ e ∈ G, e.tgt = v → e = i
  out : ∀ e ∈ G, v ∈ e.src → e = o
  so : o.src = [v]
  si : ∃ u, i.src = [u] ∧ u ≠ o.tgt
  ne : i ≠ o

theorem ids_inj {G : Graph T} (h : G.IdsNodup) {e e' : Edge T} (he : e ∈ G) (he' : e' ∈ G) (hid : e.id = e'.id) : e = e' :=
  unique_of_count (g := Edge.id) (b := e'.id) (List.nodup_iff_count.1 h _) he he' hid rfl

theorem ids_nodup {G : Graph T} (h : G.IdsNodup) : G.Nodup := by
  unfold Graph.IdsNodup at h
  exact List.Pairwise.imp (fun hne e => hne (by rw [e])) (List.pairwise_map.1 h)

theorem single_of_forall {α : Type} {l : List α} {a : α} (hn : l.Nodup) (ha : a ∈ l) (h : ∀ b ∈ l, b = a) : l = [a] := by
  match l, hn with
  | [], _ => simp at ha
  | [b], _ => rw [h b (by simp)]
  | b :: c :: l, hn =>
    have h1 := h b (by simp)
    have h2 := h c (by simp)
    rw [List.nodup_cons] at hn
    exact absurd (by rw [h1, h2]; simp) hn.1

theorem trivialEdges_iff {G : Graph T} (hG : G.IdsNodup) {v : Pred} {i o : Edge T} :
    trivialEdges G v = some (i, o) ↔ Triv G v i o := by
  have hn := ids_nodup hG
  constructor
  · intro h
    unfold trivialEdges at h
    split at h
    · rename_i i' o' hi ho
      split at h
      · rename_i u w hu hw
        split at h
        · rename_i hc
          cases h
          have hmi := mem_inEdges.1 (show i ∈ G.inEdges v by rw [hi]; simp)
          have hmo := mem_outEdges.1 (show o ∈ G.outEdges v by rw [ho]; simp)
          refine ⟨hmi.1, hmo.1, hmi.2, ?_, ?_, ?_, ⟨u, hu, hc.2⟩, fun e => hc.1 (by rw [e])⟩
          · intro e he het
            have := mem_inEdges.2 ⟨he, het⟩
            rw [hi] at this
            simpa using this
          · intro e he hes
            have := mem_outEdges.2 ⟨he, hes⟩
            rw [ho] at this
            simpa using this
          · have := hmo.2
            rw [hw] at this ⊢
            simp at this
            rw [this]
        · cases h
      · cases h
    · cases h
  · intro h
    have hi : G.inEdges v = [i] := single_of_forall (hn.filter _) (mem_inEdges.2 ⟨h.mi, h.ti⟩)
      fun b hb => h.inc b (mem_inEdges.1 hb).1 (mem_inEdges.1 hb).2
    have ho : G.outEdges v = [o] := single_of_forall (hn.filter _) (mem_outEdges.2 ⟨h.mo, by rw [h.so]; simp⟩)
      fun b hb => h.out b (mem_outEdges.1 hb).1 (mem_outEdges.1 hb).2
    obtain ⟨u, hu, huo⟩ := h.si
    unfold trivialEdges
    simp only [hi, ho, hu, h.so]
    rw [if_pos]
    exact ⟨fun e => h.ne (ids_inj hG h.mi h.mo e), huo⟩

theorem Triv.src_ne {G : Graph T} {v : Pred} {i o : Edge T} (h : Triv G v i o) {u : Pred} (hu : i.src = [u]) : u ≠ v := by
  rintro rfl
  exact h.ne (h.out i h.mi (by rw [hu]; simp))

theorem Triv.tgt_ne {G : Graph T} {v : Pred} {i o : Edge T} (h : Triv G v i o) : o.tgt ≠ v :=
  fun e => h.ne (h.inc o h.mo e).symm

/-- A path of simple edges. -/
inductive HPath : Pred → List (Edge T) → Pred → Prop where
  | nil (u : Pred) : HPath u [] u
  | cons {u w : Pred} {e : Edge T} {es : List (Edge T)} (hs : e.src = [u]) (h : HPath e.tgt es w) : HPath u (e :: es) w

theorem HPath.append {u v w : Pred} {es fs : List (Edge T)} (h : HPath u es v) (h' : HPath v fs w) : HPath u (es ++ fs) w := by
  induction h with
  | nil => exact h'
  | cons hs _ ih => exact .cons hs (ih h')

theorem HPath.snoc {u v : Pred} {es : List (Edge T)} {e : Edge T} (h : HPath u es v) (he : e.src = [v]) :
    HPath u (es ++ [e]) e.tgt := h.append (.cons he (.nil _))

theorem HPath.first {u w : Pred} {es : List (Edge T)} (h : HPath u es w) {e : Edge T} (he : es[0]? = some e) : e.src = [u] := by
  cases h with
  | nil => simp at he
  | cons hs h => simp at he; rw [← he]; exact hs

theorem HPath.next {u w : Pred} {es : List (Edge T)} (h : HPath u es w) {i : Nat} {e e' : Edge T} (he : es[i]? = some e)
    (he' : es[i + 1]? = some e') : e'.src = [e.tgt] := by
  induction h generalizing i with
  | nil => simp at he
  | cons hs h ih =>
    cases i with
    | zero =>
      simp at he he'
      rw [← he]
      exact h.first he'
    | succ i =>
      simp only [List.getElem?_cons_succ] at he he'
      exact ih he he'

theorem HPath.last {u w : Pred} {es : List (Edge T)} (h : HPath u es w) {e : Edge T} (he : es.getLast? = some e) : e.tgt = w := by
  induction h with
  | nil => simp at he
  | @cons u w e0 es hs h ih =>
    cases es with
    | nil => simp at he; rw [← he]; cases h; rfl
    | cons e2 es => rw [List.getLast?_cons_cons] at he; exact ih he

theorem HPath.simple {u w : Pred} {es : List (Edge T)} (h : HPath u es w) : ∀ e ∈ es, ∃ s, e.src = [s] := by
  induction h with
  | nil => simp
  | cons hs _ ih =>
    intro e he
    rcases List.mem_cons.1 he with rfl | he
    · exact ⟨_, hs⟩
    · exact ih e he

/-- Sources of the edges of a path. -/
theorem HPath.sources {u w : Pred} {es : List (Edge T)} (h : HPath u es w) {i : Nat} {e : Edge T} (he : es[i]? = some e) :
    (i = 0 ∧ e.src = [u]) ∨ ∃ j e', i = j + 1 ∧ es[j]? = some e' ∧ e.src = [e'.tgt] := by
  cases i with
  | zero => exact .inl ⟨rfl, h.first he⟩
  | succ j =>
    have hl := List.getElem?_lt he
    have hj : es[j]? = some es[j] := List.getElem?_eq_getElem (by omega)
    exact .inr ⟨j, _, rfl, hj, h.next hj he⟩

/-- The targets on a path through vertices with one incoming edge are distinct. -/
theorem targets_distinct {G : Graph T} {u w : Pred} {es : List (Edge T)} (h : HPath u es w) (hG : ∀ e ∈ es, e ∈ G)
    (ht : ∀ e ∈ es, e.tgt ≠ u ∧ ∀ e' ∈ G, e'.tgt = e.tgt → e' = e) :
    ∀ (j i : Nat) (e e' : Edge T), i < j → es[i]? = some e → es[j]? = some e' → e.tgt ≠ e'.tgt := by
  intro j
  induction j with
  | zero => intro i e e' hij; omega
  | succ j ih =>
    intro i e e' hij he he' heq
    have hm := List.mem_of_getElem? he
    have hm' := List.mem_of_getElem? he'
    have hee : e = e' := (ht e' hm').2 e (hG e hm) heq
    have hl := List.getElem?_lt he'
    have hj : es[j]? = some es[j] := List.getElem?_eq_getElem (by omega)
    have hsj := h.next hj he'
    rcases h.sources he with ⟨rfl, hs⟩ | ⟨i', e2, rfl, he2, hs⟩
    · rw [hee, hsj] at hs
      simp at hs
      exact (ht _ (List.mem_of_getElem? hj)).1 hs
    · rw [hee, hsj] at hs
      simp at hs
      exact ih i' e2 _ (by omega) he2 hj hs.symm

theorem nodup_of_distinct {α : Type} {l : List α} (h : ∀ (j i : Nat) (a b : α), i < j → l[i]? = some a → l[j]? = some b → a ≠ b) :
    l.Nodup := by
  rw [List.Nodup, List.pairwise_iff_getElem]
  intro i j hi hj hij
  exact h j i _ _ hij (List.getElem?_eq_getElem hi) (List.getElem?_eq_getElem hj)

theorem targets_nodup {G : Graph T} {u w : Pred} {es : List (Edge T)} (h : HPath u es w) (hG : ∀ e ∈ es, e ∈ G)
    (ht : ∀ e ∈ es, e.tgt ≠ u ∧ ∀ e' ∈ G, e'.tgt = e.tgt → e' = e) : (es.map Edge.tgt).Nodup := by
  apply nodup_of_distinct
  intro j i a b hij ha hb
  rw [List.getElem?_map, Option.map_eq_some_iff] at ha hb
  obtain ⟨e, he, rfl⟩ := ha
  obtain ⟨e', he', rfl⟩ := hb
  exact targets_distinct h hG ht j i e e' hij he he'

theorem nodup_of_map {α β : Type} {f : α → β} {l : List α} (h : (l.map f).Nodup) : l.Nodup :=
  List.Pairwise.imp (fun hne e => hne (by rw [e])) (List.pairwise_map.1 h)

theorem length_le_of_nodup {l G : List (Edge T)} (hn : l.Nodup) (hs : ∀ e ∈ l, e ∈ G) : l.length ≤ G.length := by
  induction l generalizing G with
  | nil => simp
  | cons a l ih =>
    rw [List.nodup_cons] at hn
    have ha := hs a (by simp)
    have := ih (G := G.erase a) hn.2 fun e he => by
      rw [List.mem_erase_of_ne]
      · exact hs e (by simp [he])
      · rintro rfl; exact hn.1 he
    rw [List.length_erase_of_mem ha] at this
    have : 0 < G.length := List.length_pos_of_mem ha
    simp only [List.length_cons]
    omega

/-! ### The two loops -/

section
variable {G : Graph T} (hG : G.IdsNodup)

/-- A vertex is trivial. -/
def IsTriv (G : Graph T) (v : Pred) : Prop := ∃ i o, Triv G v i o

theorem isTriv_iff (hG : G.IdsNodup) {v : Pred} : (trivialEdges G v).isSome = true ↔ IsTriv G v := by
  constructor
  · intro h
    obtain ⟨⟨i, o⟩, h⟩ := Option.isSome_iff_exists.1 h
    exact ⟨i, o, (trivialEdges_iff hG).1 h⟩
  · rintro ⟨i, o, h⟩
    rw [(trivialEdges_iff hG).2 h]; rfl

theorem IsTriv.uniq {v : Pred} (h : IsTriv G v) {e e' : Edge T} (he : e ∈ G) (he' : e' ∈ G) (ht : e.tgt = v) (ht' : e'.tgt = v) :
    e = e' := by
  obtain ⟨i, o, h⟩ := h
  rw [h.inc e he ht, h.inc e' he' ht']

theorem chainForward_spec (hG : G.IdsNodup) {start : Pred} :
    ∀ (fuel : Nat) (cur : Pred) (pre : List (Edge T)), HPath start pre cur → (∀ e ∈ pre, e ∈ G) →
      (∀ e ∈ pre, IsTriv G e.tgt ∧ e.tgt ≠ start) → IsTriv G cur → G.length - pre.length ≤ fuel →
      ∃ es last, chainForward G start fuel cur = .done (es, last) ∧ HPath cur es last ∧ es ≠ [] ∧ (∀ e ∈ es, e ∈ G) ∧
        (∀ e ∈ es.dropLast, IsTriv G e.tgt ∧ e.tgt ≠ start) ∧ (last = start ∨ ¬ IsTriv G last) := by
  intro fuel
  induction fuel with
  | zero =>
    intro cur pre hp hm ht ⟨i, o, hc⟩ hf
    exfalso
    have hnd : pre.Nodup := nodup_of_map (targets_nodup hp hm fun e he => ⟨(ht e he).2, fun e' he' h =>
      (ht e he).1.uniq he' (hm e he) h rfl⟩)
    have hno : o ∉ pre := by
      intro ho
      -- the source of `o` is `cur`, the end of the path; it would be a source inside as well
      obtain ⟨k, hk, hke⟩ := List.getElem_of_mem ho
      have hk' : pre[k]? = some o := by rw [List.getElem?_eq_getElem hk, hke]
      have hne : pre ≠ [] := by rintro rfl; simp at ho
      have hlast : pre[pre.length - 1]? = some (pre[pre.length - 1]'(by have := List.length_pos_iff.2 hne; omega)) :=
        List.getElem?_eq_getElem _
      have hlt : (pre[pre.length - 1]'(by have := List.length_pos_iff.2 hne; omega)).tgt = cur :=
        hp.last (by rw [List.getLast?_eq_getElem?, hlast])
      rcases hp.sources hk' with ⟨_, hs⟩ | ⟨j, e', rfl, he', hs⟩
      · rw [hc.so] at hs
        simp at hs
        exact (ht _ (List.mem_of_getElem? hlast)).2 (by rw [hlt, hs])
      · rw [hc.so] at hs
        simp at hs
        have hd := targets_distinct hp hm (fun e he => ⟨(ht e he).2, fun e' he' h =>
          (ht e he).1.uniq he' (hm e he) h rfl⟩) (pre.length - 1) j e' _ (by omega) he' hlast
        exact hd (by rw [hlt, hs])
    have := length_le_of_nodup (l := o :: pre) (G := G) (List.nodup_cons.2 ⟨hno, hnd⟩) (by
      intro e he
      rcases List.mem_cons.1 he with rfl | he
      · exact hc.mo
      · exact hm e he)
    simp at this
    omega
  | succ fuel ih =>
    intro cur pre hp hm ht hcur hf
    obtain ⟨i, o, hc⟩ := hcur
    have ho : G.outEdges cur = [o] := single_of_forall ((ids_nodup hG).filter _)
      (mem_outEdges.2 ⟨hc.mo, by rw [hc.so]; simp⟩) fun b hb => hc.out b (mem_outEdges.1 hb).1 (mem_outEdges.1 hb).2
    unfold chainForward
    simp only [ho]
    split
    · rename_i hcond
      rw [isTriv_iff hG] at hcond
      obtain ⟨es, last, h1, h2, h3, h4, h5, h6⟩ := ih o.tgt (pre ++ [o]) (hp.snoc hc.so) (by
          intro e he
          rcases List.mem_append.1 he with he | he
          · exact hm e he
          · simp at he; subst he; exact hc.mo) (by
          intro e he
          rcases List.mem_append.1 he with he | he
          · exact ht e he
          · simp at he; subst he; exact hcond) hcond.1 (by rw [List.length_append, List.length_singleton]; omega)
      rw [h1]
      refine ⟨o :: es, last, rfl, .cons hc.so h2, by simp, ?_, ?_, h6⟩
      · intro e he
        rcases List.mem_cons.1 he with rfl | he
        · exact hc.mo
        · exact h4 e he
      · intro e he
        rw [List.dropLast_cons_of_ne_nil h3] at he
        rcases List.mem_cons.1 he with rfl | he
        · exact hcond
        · exact h5 e he
    · rename_i hcond
      rw [isTriv_iff hG] at hcond
      refine ⟨[o], o.tgt, rfl, .cons hc.so (.nil _), by simp, by simpa using hc.mo, by simp, ?_⟩
      by_cases h : o.tgt = start
      · exact .inl h
      · exact .inr fun h' => hcond ⟨h', h⟩

/-- Paths through trivial vertices are deterministic. -/
theorem path_agree {u x y : Pred} {a b : List (Edge T)} (ha : HPath u a x) (hb : HPath u b y) (hma : ∀ e ∈ a, e ∈ G)
    (hmb : ∀ e ∈ b, e ∈ G) (hu : IsTriv G u) (ht : ∀ e ∈ a, IsTriv G e.tgt) :
    ∀ (k : Nat) (e e' : Edge T), a[k]? = some e → b[k]? = some e' → e = e' := by
  have huniq : ∀ {v : Pred} {e e' : Edge T}, IsTriv G v → e ∈ G → e' ∈ G → e.src = [v] → e'.src = [v] → e = e' := by
    rintro v e e' ⟨i, o, h⟩ he he' h1 h2
    rw [h.out e he (by rw [h1]; simp), h.out e' he' (by rw [h2]; simp)]
  intro k
  induction k with
  | zero =>
    intro e e' he he'
    exact huniq hu (hma e (List.mem_of_getElem? he)) (hmb e' (List.mem_of_getElem? he')) (ha.first he) (hb.first he')
  | succ k ih =>
    intro e e' he he'
    have hl := List.getElem?_lt he
    have hl' := List.getElem?_lt he'
    have h1 : a[k]? = some a[k] := List.getElem?_eq_getElem (by omega)
    have h2 : b[k]? = some b[k] := List.getElem?_eq_getElem (by omega)
    have h3 := ih _ _ h1 h2
    refine huniq (ht _ (List.mem_of_getElem? h1)) (hma e (List.mem_of_getElem? he)) (hmb e' (List.mem_of_getElem? he'))
      (ha.next h1 he) ?_
    rw [h3]; exact hb.next h2 he'

/-- A path into `goal` through trivial vertices, not through `goal` itself, visits no edge twice. -/
theorem back_nodup {cur goal : Pred} {back : List (Edge T)} (hp : HPath cur back goal) (hm : ∀ e ∈ back, e ∈ G ∧ IsTriv G e.tgt)
    (hg : ∀ (k : Nat) (e : Edge T), 0 < k → back[k]? = some e → e.src ≠ [goal]) : back.Nodup := by
  apply nodup_of_distinct
  intro j i a b hij ha hb hab
  have key : ∀ m (x y : Edge T), back[i + m]? = some x → back[j + m]? = some y → x = y := by
    intro m
    induction m with
    | zero => intro x y hx hy; rw [Nat.add_zero] at hx hy; rw [ha] at hx; rw [hb] at hy; cases hx; cases hy; exact hab
    | succ m ih =>
      intro x y hx hy
      have hl := List.getElem?_lt hx
      have hl' := List.getElem?_lt hy
      have h1 : back[i + m]? = some back[i + m] := List.getElem?_eq_getElem (by omega)
      have h2 : back[j + m]? = some back[j + m] := List.getElem?_eq_getElem (by omega)
      have h3 := ih _ _ h1 h2
      have s1 := hp.next h1 (by rw [Nat.add_assoc]; exact hx)
      have s2 := hp.next h2 (by rw [Nat.add_assoc]; exact hy)
      rw [← h3] at s2
      obtain ⟨i', o, hT⟩ := (hm _ (List.mem_of_getElem? h1)).2
      rw [hT.out x (hm x (List.mem_of_getElem? hx)).1 (by rw [s1]; simp),
        hT.out y (hm y (List.mem_of_getElem? hy)).1 (by rw [s2]; simp)]
  have hjl := List.getElem?_lt hb
  have h1 : back[i + (back.length - 1 - j)]? = some (back[i + (back.length - 1 - j)]'(by omega)) := List.getElem?_eq_getElem _
  have h2 : back[j + (back.length - 1 - j)]? = some (back[back.length - 1]'(by omega)) := by
    rw [show j + (back.length - 1 - j) = back.length - 1 by omega]; exact List.getElem?_eq_getElem _
  have h3 := key _ _ _ h1 h2
  have h4 : (back[back.length - 1]'(by omega)).tgt = goal :=
    hp.last (by rw [List.getLast?_eq_getElem?]; exact List.getElem?_eq_getElem _)
  have h5 : back[i + (back.length - 1 - j) + 1]? = some (back[i + (back.length - 1 - j) + 1]'(by omega)) :=
    List.getElem?_eq_getElem _
  refine hg _ _ (by omega) h5 ?_
  rw [hp.next h1 h5, h3, h4]

/-- What the backward loop adds: a path of edges with trivial targets, up to a vertex that is not trivial or whose incoming
edge comes from `last`. -/
theorem chainBackward_spec (hG : G.IdsNodup) {last goal : Pred} {rest : List (Edge T)}
    (hcyc : goal ≠ last → ∀ c : List (Edge T), c ≠ [] → HPath goal c goal → (∀ e ∈ c, e ∈ G ∧ IsTriv G e.tgt) → False) :
    ∀ (fuel : Nat) (cur : Pred) (back : List (Edge T)), HPath cur back goal → (∀ e ∈ back, e ∈ G ∧ IsTriv G e.tgt) →
      (∀ e ∈ back, e.src ≠ [last]) → (∀ e ∈ back, e.src ≠ [goal]) → G.length - back.length ≤ fuel →
      ∃ u back', chainBackward G last fuel cur (back ++ rest) = .done (back' ++ rest) ∧ HPath u back' goal ∧
        (∀ e ∈ back', e ∈ G ∧ IsTriv G e.tgt) ∧ (∀ e ∈ back', e.src ≠ [last]) ∧
        (¬ IsTriv G u ∨ ∃ i o, Triv G u i o ∧ i.src = [last]) := by
  intro fuel
  induction fuel with
  | zero =>
    intro cur back hp hm hl hg hf
    unfold chainBackward
    split
    · rename_i hnone
      refine ⟨cur, back, rfl, hp, hm, hl, .inl fun h => ?_⟩
      have := (isTriv_iff hG).2 h
      rw [hnone] at this; simp at this
    · rename_i i o hsome
      have hT := (trivialEdges_iff hG).1 hsome
      exfalso
      obtain ⟨s, hs, _⟩ := hT.si
      have hnb : back.Nodup := back_nodup hp hm fun k e _ he => hg e (List.mem_of_getElem? he)
      have hib : i ∈ back := by
        apply Classical.byContradiction
        intro hni
        have := length_le_of_nodup (l := i :: back) (G := G) (List.nodup_cons.2 ⟨hni, hnb⟩) (by
          intro e he
          rcases List.mem_cons.1 he with rfl | he
          · exact hT.mi
          · exact (hm e he).1)
        simp at this
        omega
      have hp' : HPath s (i :: back) goal := .cons hs (by rw [hT.ti]; exact hp)
      have hm' : ∀ e ∈ i :: back, e ∈ G ∧ IsTriv G e.tgt := by
        intro e he
        rcases List.mem_cons.1 he with rfl | he
        · exact ⟨hT.mi, by rw [hT.ti]; exact ⟨_, o, hT⟩⟩
        · exact hm e he
      have := back_nodup hp' hm' (by
        intro k e hk he
        cases k with
        | zero => omega
        | succ k =>
          simp only [List.getElem?_cons_succ] at he
          exact hg e (List.mem_of_getElem? he))
      exact (List.nodup_cons.1 this).1 hib
  | succ fuel ih =>
    intro cur back hp hm hl hg hf
    unfold chainBackward
    split
    · rename_i hnone
      refine ⟨cur, back, rfl, hp, hm, hl, .inl fun h => ?_⟩
      have := (isTriv_iff hG).2 h
      rw [hnone] at this; simp at this
    · rename_i i o hsome
      have hT := (trivialEdges_iff hG).1 hsome
      obtain ⟨s, hs, _⟩ := hT.si
      simp only [hs, List.headD_cons]
      split
      · rename_i hsl
        exact ⟨cur, back, rfl, hp, hm, hl, .inr ⟨i, o, hT, by rw [hs, hsl]⟩⟩
      · rename_i hsl
        have hp' : HPath s (i :: back) goal := .cons hs (by rw [hT.ti]; exact hp)
        have hm' : ∀ e ∈ i :: back, e ∈ G ∧ IsTriv G e.tgt := by
          intro e he
          rcases List.mem_cons.1 he with rfl | he
          · exact ⟨hT.mi, by rw [hT.ti]; exact ⟨_, o, hT⟩⟩
          · exact hm e he
        have hsg : s ≠ goal := by
          intro e
          rw [e] at hp'
          by_cases hgl : goal = last
          · exact hsl (e.trans hgl)
          · exact hcyc hgl _ (by simp) hp' hm'
        have := ih s (i :: back) hp' hm' (by
            intro e he
            rcases List.mem_cons.1 he with rfl | he
            · rw [hs]; simpa using hsl
            · exact hl e he) (by
            intro e he
            rcases List.mem_cons.1 he with rfl | he
            · rw [hs]; simpa using hsg
            · exact hg e he) (by rw [List.length_cons]; omega)
        exact this

/-- If the forward path ends in a vertex that is not trivial, the start is on no cycle of trivial vertices. -/
theorem no_cycle {start last : Pred} {es : List (Edge T)} (hp : HPath start es last) (hne : es ≠ []) (hm : ∀ e ∈ es, e ∈ G)
    (ht : ∀ e ∈ es.dropLast, IsTriv G e.tgt ∧ e.tgt ≠ start) (hs : IsTriv G start) (hlast : ¬ IsTriv G last)
    (c : List (Edge T)) (hc : c ≠ []) (hcp : HPath start c start) (hcm : ∀ e ∈ c, e ∈ G ∧ IsTriv G e.tgt) : False := by
  have hag := path_agree hcp hp (fun e he => (hcm e he).1) hm hs fun e he => (hcm e he).2
  have h1 : 0 < es.length := List.length_pos_iff.2 hne
  have h2 : 0 < c.length := List.length_pos_iff.2 hc
  have he : es[es.length - 1]? = some (es[es.length - 1]'(by omega)) := List.getElem?_eq_getElem _
  have hcl : c[c.length - 1]? = some (c[c.length - 1]'(by omega)) := List.getElem?_eq_getElem _
  have het := hp.last (by rw [List.getLast?_eq_getElem?]; exact he)
  have hct := hcp.last (by rw [List.getLast?_eq_getElem?]; exact hcl)
  by_cases hlen : es.length ≤ c.length
  · have hc' : c[es.length - 1]? = some (c[es.length - 1]'(by omega)) := List.getElem?_eq_getElem _
    have := hag _ _ _ hc' he
    apply hlast
    rw [← het, ← this]
    exact (hcm _ (List.mem_of_getElem? hc')).2
  · have he' : es[c.length - 1]? = some (es[c.length - 1]'(by omega)) := List.getElem?_eq_getElem _
    have hag' := hag _ _ _ hcl he'
    have hmem : es[c.length - 1]'(by omega) ∈ es.dropLast := by
      rw [List.dropLast_eq_take]
      apply List.mem_of_getElem? (i := c.length - 1)
      rw [List.getElem?_take, if_pos (by omega)]
      exact he'
    exact (ht _ hmem).2 (by rw [← hag']; exact hct)

end

/-- The vertices a chain passes through. -/
def innerOf (chain : List (Edge T)) : List Pred := chain.dropLast.map Edge.tgt

/-- A chain between two different vertices. -/
structure LinChain (G : Graph T) (chain : List (Edge T)) (u w : Pred) : Prop where
  path : HPath u chain w
  mem : ∀ e ∈ chain, e ∈ G
  len : 2 ≤ chain.length
  inner : ∀ v ∈ innerOf chain, IsTriv G v
  nodup : (u :: chain.map Edge.tgt).Nodup
  last : ¬ IsTriv G w
  first : ¬ IsTriv G u ∨ ∃ i o, Triv G u i o ∧ i.src = [w]

/-- A chain that covers an isolated cycle. -/
structure CycleChain (G : Graph T) (chain : List (Edge T)) (u w : Pred) : Prop where
  path : HPath u chain w
  mem : ∀ e ∈ chain, e ∈ G
  ne : chain ≠ []
  start : u ∈ innerOf chain
  closed : ∀ v ∈ innerOf chain, ∃ i o s, Triv G v i o ∧ i.src = [s] ∧ s ∈ innerOf chain ∧ o.tgt ∈ innerOf chain

theorem mem_dropLast_index {α : Type} {l : List α} {a : α} : a ∈ l.dropLast ↔ ∃ i, i + 1 < l.length ∧ l[i]? = some a := by
  rw [List.dropLast_eq_take]
  constructor
  · intro h
    obtain ⟨i, hi, he⟩ := List.getElem_of_mem h
    rw [List.length_take] at hi
    refine ⟨i, by omega, ?_⟩
    rw [← he, List.getElem_take]
    exact List.getElem?_eq_getElem (by omega)
  · rintro ⟨i, hi, he⟩
    apply List.mem_of_getElem? (i := i)
    rw [List.getElem?_take, if_pos (by omega)]
    exact he

theorem path_closed {G : Graph T} {C : List Pred} (hC : ∀ e ∈ G, e.tgt ∈ C → ∀ s, e.src = [s] → s ∈ C) {u v : Pred}
    {es : List (Edge T)} (h : HPath u es v) (hm : ∀ e ∈ es, e ∈ G) (hv : v ∈ C) : u ∈ C ∧ ∀ e ∈ es, e.tgt ∈ C := by
  induction h with
  | nil => exact ⟨hv, by simp⟩
  | @cons u w e es hs h ih =>
    obtain ⟨h1, h2⟩ := ih (fun e he => hm e (by simp [he])) hv
    refine ⟨hC e (hm e (by simp)) h1 u hs, ?_⟩
    intro e' he'
    rcases List.mem_cons.1 he' with rfl | he'
    · exact h1
    · exact h2 e' he'

theorem trivialChain_spec {G : Graph T} (hG : G.IdsNodup) {v : Pred} (hv : IsTriv G v) :
    ∃ chain u w, trivialChain G v = .done chain ∧ (LinChain G chain u w ∨ CycleChain G chain u w) := by
  obtain ⟨es, last, hfw, hp, hne, hm, ht, hlast⟩ := chainForward_spec hG (start := v) G.length v [] (.nil _) (by simp) (by simp) hv
    (by simp)
  have hpos : 0 < es.length := List.length_pos_iff.2 hne
  unfold trivialChain
  simp only [hfw]
  by_cases hl : IsTriv G last
  · -- an isolated cycle
    have hlv : last = v := hlast.resolve_right fun h => h hl
    subst hlv
    obtain ⟨u, back, h1, h2, h3, h4, h5⟩ := chainBackward_spec hG (last := last) (goal := last) (rest := es)
      (fun h => absurd rfl h) G.length last [] (.nil _) (by simp) (by simp) (by simp) (by omega)
    rw [List.nil_append] at h1
    refine ⟨back ++ es, u, last, h1, .inr ?_⟩
    have htriv : ∀ e ∈ es, IsTriv G e.tgt := by
      intro e he
      obtain ⟨k, hk, hke⟩ := List.getElem_of_mem he
      by_cases hk' : k + 1 < es.length
      · exact (ht e (mem_dropLast_index.2 ⟨k, hk', by rw [List.getElem?_eq_getElem hk, hke]⟩)).1
      · have : e.tgt = last := hp.last (by
          rw [List.getLast?_eq_getElem?, ← hke, show es.length - 1 = k by omega]
          exact List.getElem?_eq_getElem _)
        rw [this]; exact hl
    have hlastmem : last ∈ es.map Edge.tgt := by
      refine List.mem_map.2 ⟨es.getLast hne, List.getLast_mem _, ?_⟩
      exact hp.last (List.getLast?_eq_some_getLast hne)
    have hin : ∀ e ∈ G, e.tgt ∈ es.map Edge.tgt → e ∈ es := by
      intro e he het
      obtain ⟨e', he', h⟩ := List.mem_map.1 het
      rw [(htriv e' he').uniq he (hm e' he') h.symm rfl]
      exact he'
    have hsrc : ∀ e ∈ es, ∀ s, e.src = [s] → s ∈ es.map Edge.tgt := by
      intro e he s hs
      obtain ⟨k, hk, hke⟩ := List.getElem_of_mem he
      rcases hp.sources (i := k) (e := e) (by rw [List.getElem?_eq_getElem hk, hke]) with ⟨_, h⟩ | ⟨j, e', _, he', h⟩
      · rw [hs] at h; simp at h; rw [h]; exact hlastmem
      · rw [hs] at h; simp at h; rw [h]; exact List.mem_map_of_mem (List.mem_of_getElem? he')
    have hclosed := path_closed (C := es.map Edge.tgt) (fun e he het s hs => hsrc e (hin e he het) s hs) h2
      (fun e he => (h3 e he).1) hlastmem
    have htrivC : ∀ p ∈ es.map Edge.tgt, IsTriv G p := by
      intro p hp'
      obtain ⟨e, he, rfl⟩ := List.mem_map.1 hp'
      exact htriv e he
    obtain ⟨i, o, hT, hi⟩ := h5.resolve_left fun h => h (htrivC u hclosed.1)
    have hbne : back ≠ [] := by
      rintro rfl
      cases h2
      exact hT.src_ne hi rfl
    have hinner : ∀ p, p ∈ innerOf (back ++ es) ↔ p ∈ es.map Edge.tgt := by
      intro p
      unfold innerOf
      rw [List.dropLast_append_of_ne_nil hne, List.map_append, List.mem_append]
      constructor
      · rintro (h | h)
        · obtain ⟨e, he, rfl⟩ := List.mem_map.1 h
          exact hclosed.2 e he
        · obtain ⟨e, he, rfl⟩ := List.mem_map.1 h
          exact List.mem_map_of_mem (List.dropLast_subset _ he)
      · intro h
        obtain ⟨e, he, rfl⟩ := List.mem_map.1 h
        obtain ⟨k, hk, hke⟩ := List.getElem_of_mem he
        by_cases hk' : k + 1 < es.length
        · exact .inr (List.mem_map_of_mem (mem_dropLast_index.2 ⟨k, hk', by rw [List.getElem?_eq_getElem hk, hke]⟩))
        · left
          have e1 : e.tgt = last := hp.last (by
            rw [List.getLast?_eq_getElem?, ← hke, show es.length - 1 = k by omega]
            exact List.getElem?_eq_getElem _)
          have e2 := h2.last (List.getLast?_eq_some_getLast hbne)
          rw [e1, ← e2]
          exact List.mem_map_of_mem (List.getLast_mem _)
    refine ⟨h2.append hp, ?_, by simp [hne], (hinner _).2 hclosed.1, ?_⟩
    · intro e he
      rcases List.mem_append.1 he with he | he
      · exact (h3 e he).1
      · exact hm e he
    · intro p hp'
      rw [hinner] at hp'
      obtain ⟨i', o', hT'⟩ := htrivC p hp'
      obtain ⟨s, hs, _⟩ := hT'.si
      refine ⟨i', o', s, hT', hs, (hinner _).2 ?_, (hinner _).2 ?_⟩
      · exact hsrc i' (hin i' hT'.mi (by rw [hT'.ti]; exact hp')) s hs
      · obtain ⟨e, he, rfl⟩ := List.mem_map.1 hp'
        obtain ⟨k, hk, hke⟩ := List.getElem_of_mem he
        have hke' : es[k]? = some e := by rw [List.getElem?_eq_getElem hk, hke]
        by_cases hk' : k + 1 < es.length
        · have h6 : es[k + 1]? = some es[k + 1] := List.getElem?_eq_getElem hk'
          have h7 := hp.next hke' h6
          rw [← hT'.out es[k + 1] (hm _ (List.getElem_mem _)) (by rw [h7]; simp)]
          exact List.mem_map_of_mem (List.getElem_mem _)
        · have e1 : e.tgt = last := hp.last (by
            rw [List.getLast?_eq_getElem?, ← hke, show es.length - 1 = k by omega]
            exact List.getElem?_eq_getElem _)
          have h6 : es[0]? = some es[0] := List.getElem?_eq_getElem hpos
          rw [← hT'.out es[0] (hm _ (List.getElem_mem _)) (by rw [hp.first h6, e1]; simp)]
          exact List.mem_map_of_mem (List.getElem_mem _)
  · -- a proper chain
    have hvl : v ≠ last := by rintro rfl; exact hl hv
    obtain ⟨u, back, h1, h2, h3, h4, h5⟩ := chainBackward_spec hG (last := last) (goal := v) (rest := es)
      (fun _ => no_cycle hp hne hm ht hv hl) G.length v [] (.nil _) (by simp) (by simp) (by simp) (by omega)
    rw [List.nil_append] at h1
    refine ⟨back ++ es, u, last, h1, .inl ?_⟩
    have hpath := h2.append hp
    have hmem : ∀ e ∈ back ++ es, e ∈ G := by
      intro e he
      rcases List.mem_append.1 he with he | he
      · exact (h3 e he).1
      · exact hm e he
    have hinner : ∀ e ∈ (back ++ es).dropLast, IsTriv G e.tgt := by
      intro e he
      rw [List.dropLast_append_of_ne_nil hne] at he
      rcases List.mem_append.1 he with he | he
      · exact (h3 e he).2
      · exact (ht e he).1
    have hsrcl : ∀ e ∈ back ++ es, e.src ≠ [last] := by
      intro e he
      rcases List.mem_append.1 he with he | he
      · exact h4 e he
      · intro hs
        obtain ⟨k, hk, hke⟩ := List.getElem_of_mem he
        rcases hp.sources (i := k) (e := e) (by rw [List.getElem?_eq_getElem hk, hke]) with ⟨_, h⟩ | ⟨j, e', hkj, he', h⟩
        · rw [hs] at h; simp at h; exact hvl h.symm
        · rw [hs] at h; simp at h
          exact hl (h ▸ (ht e' (mem_dropLast_index.2 ⟨j, by omega, he'⟩)).1)
    have hul : u ≠ last := by
      rcases h5 with h | ⟨i, o, h, _⟩
      · cases hb : back with
        | nil => rw [hb] at h2; cases h2; exact absurd hv h
        | cons b bs =>
          rintro rfl
          rw [hb] at h2
          cases h2 with
          | cons hs _ => exact h4 b (by rw [hb]; simp) hs
      · rintro rfl; exact hl ⟨i, o, h⟩
    have hut : ∀ e ∈ (back ++ es).dropLast, e.tgt ≠ u := by
      rintro e he rfl
      rcases h5 with h | ⟨i, o, h, hi⟩
      · exact h (hinner e he)
      · have := h.inc e (hmem e (List.dropLast_subset _ he)) rfl
        rw [← this] at hi
        exact hsrcl e (List.dropLast_subset _ he) hi
    refine ⟨hpath, hmem, ?_, ?_, ?_, hl, h5⟩
    · rw [List.length_append]
      cases hb : back with
      | cons b bs => simp; omega
      | nil =>
        rw [hb] at h2
        cases h2
        rcases h5 with h | ⟨i, o, h, hi⟩
        · exact absurd hv h
        · obtain ⟨s, hs, hso⟩ := h.si
          rw [hs] at hi
          simp at hi
          apply Classical.byContradiction
          intro hlen
          have hl1 : es.length = 1 := by simp at hlen; omega
          obtain ⟨e, rfl⟩ := List.length_eq_one_iff.1 hl1
          have he := hp.first (e := e) (by simp)
          have : e = o := h.out e (hm e (by simp)) (by rw [he]; simp)
          subst this
          have := hp.last (e := e) (by simp)
          exact hso (by rw [hi, this])
    · intro p hp'
      obtain ⟨e, he, rfl⟩ := List.mem_map.1 hp'
      exact hinner e he
    · rw [List.nodup_cons]
      have hne' : back ++ es ≠ [] := by simp [hne]
      have hsplit : (back ++ es).map Edge.tgt = (back ++ es).dropLast.map Edge.tgt ++ [last] := by
        conv => lhs; rw [← List.dropLast_concat_getLast hne']
        rw [List.map_append]
        simp only [List.map_cons, List.map_nil]
        rw [hpath.last (List.getLast?_eq_some_getLast hne')]
      rw [hsplit]
      constructor
      · simp only [List.mem_append, List.mem_singleton, not_or]
        refine ⟨?_, hul⟩
        intro h
        obtain ⟨e, he, h⟩ := List.mem_map.1 h
        exact hut e he h
      · rw [List.nodup_append]
        refine ⟨?_, by simp, ?_⟩
        · have hdp : ∃ x, HPath u (back ++ es).dropLast x := by
            have : ∀ {a b : Pred} {l : List (Edge T)}, HPath a l b → ∃ x, HPath a l.dropLast x := by
              intro a b l h
              induction h with
              | nil => exact ⟨_, .nil _⟩
              | @cons a b e l hs h ih =>
                cases l with
                | nil => exact ⟨_, .nil _⟩
                | cons e2 l =>
                  obtain ⟨x, hx⟩ := ih
                  exact ⟨x, by rw [List.dropLast_cons_cons]; exact .cons hs hx⟩
            exact this hpath
          obtain ⟨x, hx⟩ := hdp
          exact targets_nodup hx (fun e he => hmem e (List.dropLast_subset _ he)) fun e he =>
            ⟨hut e he, fun e' he' h => (hinner e he).uniq he' (hmem e (List.dropLast_subset _ he)) h rfl⟩
        · intro a ha b hb
          simp only [List.mem_singleton] at hb
          subst hb
          obtain ⟨e, he, rfl⟩ := List.mem_map.1 ha
          rintro h
          exact hl (h ▸ hinner e he)

end Golem
