import Verif.Model.Engines.SymbolicExecution
import Verif.Props.Hyper
import Verif.Props.SingleLoopEngines
import Verif.Lemmas.MBPTotal
import Verif.Lemmas.MBPReal

/-! # C51: forward symbolic execution -/

namespace Golem
variable {T : Theory}

/-- The facts a formula describes at a vertex. -/
def SxCovers (R : PRepr) (n : Pred × Fla T) (f : Fact T) : Prop :=
  ∃ ρ : Valuation T, n.2.holds ρ ∧ f = (n.1, (R.stateVars n.1).map ρ)

/-- Variables of a state's formula: the vertex's arguments now, and anything earlier. -/
def SxVars (R : PRepr) (n : Pred × Fla T) : Prop := ∀ x ∈ n.2.vars, x ∈ R.stateVars n.1 ∨
  ∃ m, ∃ k : Int, k < 0 ∧ (x = .ver m k ∨ x = .src m k)

/-- A state and an edge from it have a common model. -/
theorem sx_merge {R : PRepr} {e : LEdge T} (hl : e.LabelOk R) {φ : Fla T} (hv : SxVars R (e.src, φ)) {f g : Fact T}
    (hc : SxCovers R (e.src, φ) f) (hf : e.Fires R f g) :
    ∃ μ : Valuation T, φ.holds μ ∧ e.fla.holds μ ∧ g = e.tgtFact R μ := by
  obtain ⟨ρ, hρ, rfl⟩ := hc
  obtain ⟨τ, hτ, hs, rfl⟩ := hf
  simp only [LEdge.srcFact, Prod.mk.injEq, true_and] at hs
  let μ : Valuation T := fun x => match x with
    | .ver m k => if k < 0 then ρ (.ver m k) else τ (.ver m k)
    | .src m k => if k < 0 then ρ (.src m k) else τ (.src m k)
    | x => τ x
  have h0 : ∀ x ∈ R.stateVars e.src, μ x = τ x := by
    intro x hx
    obtain ⟨n, _, rfl⟩ := List.mem_map.1 hx
    simp [μ]
  have h1 : ∀ x ∈ R.nextVars e.tgt, μ x = τ x := by
    intro x hx
    obtain ⟨n, _, rfl⟩ := List.mem_map.1 hx
    simp [μ]
  refine ⟨μ, ?_, ?_, ?_⟩
  · refine (Fla.holds_congr fun x hx => ?_).1 hρ
    rcases hv x hx with h | ⟨m, k, hk, rfl | rfl⟩
    · rw [h0 x h]; exact List.map_inj_left.1 hs x h
    · simp [μ, hk]
    · simp [μ, hk]
  · refine (Fla.holds_congr fun x hx => ?_).1 hτ
    rcases hl x hx with h | h | ⟨m, rfl, _⟩ | ⟨m, rfl, _⟩
    · exact (h0 x h).symm
    · exact (h1 x h).symm
    · simp [μ]
    · simp [μ]
  · simp only [LEdge.tgtFact, Prod.mk.injEq, true_and]
    exact List.map_congr_left fun x hx => (h1 x hx).symm

theorem nextVars_shift (R : PRepr) (p : Pred) (ρ : Valuation T) :
    (R.nextVars p).map (fun x => ρ (shift (-1) x)) = (R.stateVars p).map ρ := by
  simp only [PRepr.nextVars, PRepr.stateVars, List.map_map]
  exact List.map_congr_left fun n _ => by simp [shift]

/-- The successor formula describes exactly the facts reached along the edge. -/
theorem sxPost_covers {R : PRepr} {E : ElimExcept T} (hE : E.Exact) {simp : Fla T → Fla T} (hsi : SimplifierOk simp)
    {cur : SxState T} {e : LEdge T} (he : e.src = cur.node) (hl : e.LabelOk R) (hv : SxVars R (cur.node, cur.fla)) (g : Fact T) :
    SxCovers R (e.tgt, sxPost R E simp cur e) g ↔ ∃ f, SxCovers R (cur.node, cur.fla) f ∧ e.Fires R f g := by
  constructor
  · rintro ⟨ρ, h, rfl⟩
    simp only [sxPost, sendFla_holds] at h
    obtain ⟨ρ', hag, h'⟩ := hE.lift _ _ _ h
    rw [hsi.equiv] at h'
    refine ⟨e.srcFact R ρ', ⟨ρ', h'.1, by simp [LEdge.srcFact, he]⟩, ρ', h'.2, rfl, ?_⟩
    simp only [LEdge.tgtFact, Prod.mk.injEq, true_and]
    rw [← nextVars_shift]
    exact List.map_congr_left fun x hx => (hag x hx).symm
  · rintro ⟨f, hc, hf⟩
    rw [← he] at hc hv
    obtain ⟨μ, h1, h2, rfl⟩ := sx_merge hl hv hc hf
    refine ⟨fun x => μ (shift 1 x), ?_, ?_⟩
    · simp only [sxPost, sendFla_holds]
      refine hE.weaker _ _ _ ((hsi.equiv _ _).2 ?_)
      have : (fun x => μ (shift 1 (shift (-1) x))) = μ := by
        funext x
        cases x <;> simp [shift]
      rw [this]
      exact ⟨h1, h2⟩
    · simp only [LEdge.tgtFact, Prod.mk.injEq, true_and, PRepr.nextVars, PRepr.stateVars, List.map_map]
      exact List.map_congr_left fun n _ => by simp [shift]

theorem sxPost_vars {R : PRepr} {E : ElimExcept T} (hE : E.Exact) {simp : Fla T → Fla T} (hsi : SimplifierOk simp)
    {cur : SxState T} {e : LEdge T} (hl : e.LabelOk R) (hv : SxVars R (cur.node, cur.fla)) :
    SxVars R (e.tgt, sxPost R E simp cur e) := by
  intro x hx
  simp only [sxPost] at hx
  obtain ⟨y, hy, rfl⟩ := mem_vars_sendFla.1 hx
  have hy := hsi.vars _ y (hE.vars _ _ y hy)
  simp only [Fla.vars, List.mem_append] at hy
  rcases hy with hy | hy
  · rcases hv y hy with h | ⟨m, k, hk, rfl | rfl⟩
    · obtain ⟨m, _, rfl⟩ := List.mem_map.1 h
      exact .inr ⟨m, -1, by omega, .inl rfl⟩
    · exact .inr ⟨m, k - 1, by omega, .inl rfl⟩
    · exact .inr ⟨m, k - 1, by omega, .inr rfl⟩
  · rcases hl y hy with h | h | ⟨m, rfl, _⟩ | ⟨m, rfl, _⟩
    · obtain ⟨m, _, rfl⟩ := List.mem_map.1 h
      exact .inr ⟨m, -1, by omega, .inl rfl⟩
    · obtain ⟨m, hm, rfl⟩ := List.mem_map.1 h
      exact .inl (List.mem_map.2 ⟨m, hm, rfl⟩)
    · exact .inr ⟨m, -1, by omega, .inl rfl⟩
    · exact .inr ⟨m, -1, by omega, .inr rfl⟩

/-! ### The way back -/

theorem sxWalk_mono {states states' : List (SxState T)} {preds preds' : List (Nat × (Nat × Nat))}
    (hs : ∀ (i : Nat) s, states[i]? = some s → states'[i]? = some s)
    (hp : ∀ (i : Nat) s v, states[i]? = some s → preds.lookup i = some v → preds'.lookup i = some v) :
    ∀ {fuel fuel' id : Nat} {l : List Nat}, fuel ≤ fuel' → sxWalk states preds fuel id = some l →
      sxWalk states' preds' fuel' id = some l := by
  intro fuel
  induction fuel with
  | zero => intro fuel' id l _ h; cases h
  | succ fuel ih =>
    intro fuel' id l hle h
    cases fuel' with
    | zero => omega
    | succ fuel' =>
      unfold sxWalk at h ⊢
      cases he : states[id]? with
      | none => rw [he] at h; cases h
      | some s =>
        rw [he] at h
        rw [hs _ _ he]
        simp only at h ⊢
        split
        · rename_i ht; rw [if_pos ht] at h; exact h
        · rename_i ht
          rw [if_neg ht] at h
          cases hk : preds.lookup id with
          | none => rw [hk] at h; cases h
          | some v =>
            rw [hk] at h
            rw [hp _ _ _ he hk]
            simp only [Option.map_eq_some_iff] at h ⊢
            obtain ⟨l', h1, h2⟩ := h
            exact ⟨l', ih (by omega) h1, h2⟩

/-! ### The invariant -/

/-- A state: its facts are reached along one path, which can be walked back if witnesses are computed. -/
structure SxOk (R : PRepr) (G : LGraph T) (w : Bool) (st : SxSt T) (s : SxState T) : Prop where
  path : ∃ es : List (LEdge T), (∀ e ∈ es, e ∈ G) ∧ (∀ f, SxCovers R (s.node, s.fla) f → LFeasible R es trueFact f) ∧
    (w = true → sxWalk st.states st.preds (s.id + 1) s.id = some (es.map LEdge.id).reverse)
  stored : w = true → st.states[s.id]? = some s

/-- `D` are the states whose edges have been looked at (or are being looked at). -/
structure SxInv (R : PRepr) (G : LGraph T) (w : Bool) (D : List (Pred × Fla T)) (st : SxSt T) : Prop where
  queue : ∀ s ∈ st.queue, SxOk R G w st s ∧ (s.node, s.fla) ∈ st.nodes
  vars : ∀ n ∈ st.nodes, SxVars R n
  nodes : ∀ n ∈ st.nodes, n ∈ D ∨ ∃ s ∈ st.queue, (s.node, s.fla) = n
  noExit : ∀ n ∈ st.nodes, n.1 ≠ .fls
  start : (.tru, .tt) ∈ st.nodes
  known : ∀ n ∈ st.nodes, n.1 = .tru ∨ G.Vertex n.1
  states : w = true → st.states.map (fun s => (s.node, s.fla)) = st.nodes
  next : w = true → st.nextId = st.states.length

/-- The edge has been dealt with for a state. -/
structure SxDone (S : Smt T) (R : PRepr) (E : ElimExcept T) (simp : Fla T → Fla T) (nodes : List (Pred × Fla T)) (n : Pred × Fla T)
    (e : LEdge T) : Prop where
  exit : e.tgt = .fls → S.check [n.2, e.fla] = .unsat
  succ : e.tgt ≠ .fls → (e.tgt, sxPost R E simp ⟨n.1, n.2, 0⟩ e) ∈ nodes

theorem sxPost_id (R : PRepr) (E : ElimExcept T) (simp : Fla T → Fla T) (s : SxState T) (i : Nat) (e : LEdge T) :
    sxPost R E simp s e = sxPost R E simp ⟨s.node, s.fla, i⟩ e := rfl

theorem lookup_skip {k i : Nat} {v : Nat × Nat} {l : List (Nat × (Nat × Nat))} (h : i ≠ k) : ((k, v) :: l).lookup i = l.lookup i := by
  simp only [List.lookup]
  have : (i == k) = false := by simpa using h
  rw [this]

theorem sxAdd_spec {R : PRepr} {E : ElimExcept T} (hE : E.Exact) {simp : Fla T → Fla T} (hsi : SimplifierOk simp)
    {w : Bool} {G : LGraph T} {cur : SxState T} {e : LEdge T} (heG : e ∈ G) (he : e.src = cur.node) (hl : e.LabelOk R)
    (hne : e.tgt ≠ .fls) (hnt : e.tgt ≠ .tru)
    {D : List (Pred × Fla T)} {st : SxSt T} (hI : SxInv R G w D st) (hcur : SxOk R G w st cur) (hcn : (cur.node, cur.fla) ∈ st.nodes) :
    SxInv R G w D (sxAdd w cur e (sxPost R E simp cur e) st) ∧
    SxOk R G w (sxAdd w cur e (sxPost R E simp cur e) st) cur ∧
    (e.tgt, sxPost R E simp cur e) ∈ (sxAdd w cur e (sxPost R E simp cur e) st).nodes ∧
    (∀ n ∈ st.nodes, n ∈ (sxAdd w cur e (sxPost R E simp cur e) st).nodes) ∧
    ∃ l, (sxAdd w cur e (sxPost R E simp cur e) st).queue = st.queue ++ l := by
  have hv := hI.vars _ hcn
  unfold sxAdd
  split
  · rename_i hin
    exact ⟨hI, hcur, hin, fun n hn => hn, [], by simp⟩
  · rename_i hout
    generalize hf : sxPost R E simp cur e = f at *
    have hs : ∀ (i : Nat) s, st.states[i]? = some s →
        (if w = true then st.states ++ [⟨e.tgt, f, st.nextId⟩] else st.states)[i]? = some s := by
      intro i s h
      split
      · rw [List.getElem?_append_left (List.getElem?_lt h)]; exact h
      · exact h
    have hp : ∀ (i : Nat) s v, st.states[i]? = some s → st.preds.lookup i = some v →
        (if w = true then (st.nextId, (cur.id, e.id)) :: st.preds else st.preds).lookup i = some v := by
      intro i s v h1 h2
      split
      · rename_i hw
        rw [lookup_skip]
        · exact h2
        · have := List.getElem?_lt h1
          have := hI.next hw
          omega
      · exact h2
    have mono : ∀ s, SxOk R G w st s → SxOk R G w
        { queue := st.queue ++ [⟨e.tgt, f, st.nextId⟩], nodes := st.nodes ++ [(e.tgt, f)],
          states := if w = true then st.states ++ [⟨e.tgt, f, st.nextId⟩] else st.states,
          preds := if w = true then (st.nextId, (cur.id, e.id)) :: st.preds else st.preds,
          nextId := st.nextId + 1 } s := by
      rintro s ⟨⟨es, h1, h2, h3⟩, h4⟩
      exact ⟨⟨es, h1, h2, fun hw => sxWalk_mono hs hp (Nat.le_refl _) (h3 hw)⟩, fun hw => hs _ _ (h4 hw)⟩
    have hnew : SxOk R G w
        { queue := st.queue ++ [⟨e.tgt, f, st.nextId⟩], nodes := st.nodes ++ [(e.tgt, f)],
          states := if w = true then st.states ++ [⟨e.tgt, f, st.nextId⟩] else st.states,
          preds := if w = true then (st.nextId, (cur.id, e.id)) :: st.preds else st.preds,
          nextId := st.nextId + 1 } ⟨e.tgt, f, st.nextId⟩ := by
      have hst : w = true → (if w = true then st.states ++ [⟨e.tgt, f, st.nextId⟩] else st.states)[st.nextId]? =
          some ⟨e.tgt, f, st.nextId⟩ := by
        intro hw
        rw [if_pos hw, hI.next hw]
        simp
      obtain ⟨es, h1, h2, h3⟩ := hcur.path
      refine ⟨⟨es ++ [e], ?_, ?_, ?_⟩, hst⟩
      · intro e' he'
        rcases List.mem_append.1 he' with h | h
        · exact h1 _ h
        · rw [List.mem_singleton.1 h]; exact heG
      · intro g hg
        simp only at hg
        rw [← hf] at hg
        obtain ⟨f', hc, hfi⟩ := (sxPost_covers hE hsi he hl hv g).1 hg
        exact (h2 f' hc).append (.cons hfi (.nil _))
      · intro hw
        have hlt : cur.id + 1 ≤ st.nextId := by
          have := List.getElem?_lt (hcur.stored hw)
          have := hI.next hw
          omega
        have hwalk := sxWalk_mono hs hp hlt (h3 hw)
        simp only
        unfold sxWalk
        rw [hst hw]
        simp only [if_neg hnt]
        have : (if w = true then (st.nextId, (cur.id, e.id)) :: st.preds else st.preds).lookup st.nextId = some (cur.id, e.id) := by
          rw [if_pos hw]; simp [List.lookup]
        rw [this]
        simp only
        rw [hwalk]
        simp
    refine ⟨⟨?_, ?_, ?_, ?_, ?_, ?_, ?_, ?_⟩, mono _ hcur, by simp, fun n hn => by simp [hn], _, rfl⟩
    · intro s hs'
      rcases List.mem_append.1 hs' with h | h
      · exact ⟨mono s (hI.queue s h).1, by simp [(hI.queue s h).2]⟩
      · rw [List.mem_singleton.1 h]; exact ⟨hnew, by simp⟩
    · intro n hn
      rcases List.mem_append.1 hn with h | h
      · exact hI.vars n h
      · rw [List.mem_singleton.1 h, ← hf]; exact sxPost_vars hE hsi hl hv
    · intro n hn
      rcases List.mem_append.1 hn with h | h
      · rcases hI.nodes n h with h | ⟨s, h1, h2⟩
        · exact .inl h
        · exact .inr ⟨s, by simp [h1], h2⟩
      · rw [List.mem_singleton.1 h]; exact .inr ⟨⟨e.tgt, f, st.nextId⟩, by simp, rfl⟩
    · intro n hn
      rcases List.mem_append.1 hn with h | h
      · exact hI.noExit n h
      · rw [List.mem_singleton.1 h]; exact hne
    · simp [hI.start]
    · intro n hn
      rcases List.mem_append.1 hn with h | h
      · exact hI.known n h
      · rw [List.mem_singleton.1 h]; exact .inr ⟨e, heG, .inl rfl⟩
    · intro hw
      simp [hw, hI.states hw]
    · intro hw
      simp [hw, hI.next hw]

/-- What an answer given inside the loop over the edges means. -/
structure SxAnswer (S : Smt T) (R : PRepr) (G : LGraph T) (w : Bool) (r : Outcome (VerificationResult T)) : Prop where
  ans : ∀ res, r = .done res → (res.answer = .unknown ∧ res.witness = .none) ∨
    res.answer = .unsafeAns ∧ G.Unsafe R ∧ (w = true → ∃ ds, res.witness = .invalidity ds ∧ LUnsafeWitness R G ds ∧
      (isTrivial G = true → ds.length = 2)) ∧ (w = false → res.witness = .none)
  noFuel : r ≠ .outOfFuel
  decided : S.Complete → ∃ res, r = .done res ∧ res.answer = .unsafeAns

theorem fromErrorPath_fuel {S : Smt T} {R : PRepr} {G : LGraph T} {ids : List Nat} : fromErrorPath S R G ids ≠ .outOfFuel := by
  unfold fromErrorPath
  split
  · simp
  · split
    · simp
    · split <;> simp

theorem sxInvalidity_spec {S : Smt T} (hS : S.Sound) {R : PRepr} (hR : R.WF) {G : LGraph T} (hl : ∀ e ∈ G, e.LabelOk R)
    (hid : (G.map LEdge.id).Nodup) {st : SxSt T} {cur : SxState T} (hcur : SxOk R G true st cur) {e : LEdge T} (heG : e ∈ G)
    (hun : ∀ es : List (LEdge T), (∀ f, SxCovers R (cur.node, cur.fla) f → LFeasible R es trueFact f) →
      LFeasible R (es ++ [e]) trueFact falseFact) : SxAnswer S R G true (sxInvalidity S R G st e.id cur.id) := by
  obtain ⟨es, h1, h2, h3⟩ := hcur.path
  have hfe := hun es h2
  have hG' : ∀ e' ∈ es ++ [e], e' ∈ G := by
    intro e' he'
    rcases List.mem_append.1 he' with h | h
    · exact h1 _ h
    · rw [List.mem_singleton.1 h]; exact heG
  have hids : (e.id :: (es.map LEdge.id).reverse).reverse = (es ++ [e]).map LEdge.id := by simp
  have hm := mapM_ids hid hG'
  have hne : (es ++ [e]).map LEdge.id ≠ [] := by simp
  have hch : Chained .tru (es ++ [e]) .fls := hfe.chained
  unfold sxInvalidity
  rw [h3 rfl]
  simp only
  rw [hids]
  refine ⟨?_, ?_, ?_⟩
  · intro res hr
    right
    split at hr
    · rename_i ds hds
      cases hr
      refine ⟨rfl, ⟨_, hG', hfe⟩, fun _ => ⟨ds, rfl, (C27_fromErrorPath_sound hS hR hm hne hch hds).1, ?_⟩, fun h => by cases h⟩
      intro htr
      have h0 := (C27_fromErrorPath_sound hS hR hm hne hch hds)
      have h4 := congrArg List.length h0.2.1
      obtain ⟨d, hd, _⟩ := h0.1.first
      have h5 : (es ++ [e]).length = 1 := by
        generalize hes : es ++ [e] = l at hch hG'
        match l, hch, hG', hes with
        | [], _, _, hes => simp at hes
        | [_], _, _, _ => rfl
        | e1 :: e2 :: l, hch, hG', _ =>
          rw [chained_cons, chained_cons] at hch
          have h6 := trivial_edge htr (hG' e1 (by simp))
          have h7 := trivial_edge htr (hG' e2 (by simp))
          have h8 := hch.2.1
          rw [h6.2, h7.1] at h8
          cases h8
      cases ds with
      | nil => cases hd
      | cons d' ds => simp only [List.length_map, h5, List.tail_cons] at h4; simp [h4]
    · cases hr
    · cases hr
  · split
    · simp
    · simp
    · rename_i h; exact absurd h fromErrorPath_fuel
  · intro hc
    rcases C27_fromErrorPath_exact hS hc hR hl hm hne hch with ⟨_, ds, hds⟩ | ⟨hn, _⟩
    · rw [hds]; exact ⟨_, rfl, rfl⟩
    · exact absurd hfe hn

theorem sxExpand_spec {S : Smt T} (hS : S.Sound) {R : PRepr} (hR : R.WF) {E : ElimExcept T} (hE : E.Exact) {simp : Fla T → Fla T}
    (hsi : SimplifierOk simp) {w : Bool} {G : LGraph T} (hl : ∀ e ∈ G, e.LabelOk R) (hid : (G.map LEdge.id).Nodup)
    (hnt : ∀ e ∈ G, e.tgt ≠ .tru) {cur : SxState T} {D : List (Pred × Fla T)} :
    ∀ (es : List (LEdge T)), (∀ e ∈ es, e ∈ G ∧ e.src = cur.node) → ∀ st : SxSt T, SxInv R G w D st → SxOk R G w st cur →
      (cur.node, cur.fla) ∈ st.nodes →
      (∀ r, sxExpand S R E simp w G cur es st = .ret r → SxAnswer S R G w r) ∧
      ∀ st', sxExpand S R E simp w G cur es st = .cont st' → SxInv R G w D st' ∧ (∀ n ∈ st.nodes, n ∈ st'.nodes) ∧
        (∃ l, st'.queue = st.queue ++ l) ∧ ∀ e ∈ es, SxDone S R E simp st'.nodes (cur.node, cur.fla) e := by
  intro es
  induction es with
  | nil =>
    intro _ st hI _ _
    refine ⟨fun r h => (by cases h), fun st' h => ?_⟩
    cases h
    exact ⟨hI, fun n hn => hn, ⟨[], by simp⟩, by simp⟩
  | cons e es ih =>
    intro hes st hI hcur hcn
    obtain ⟨heG, hesrc⟩ := hes e (by simp)
    have ih := ih fun e' h => hes e' (by simp [h])
    unfold sxExpand
    split
    · rename_i ht
      split
      · rename_i hsat
        refine ⟨fun r h => ?_, fun st' h => (by cases h)⟩
        have hm := hS.sat _ hsat
        have hf : e.Fires R (cur.node, (R.stateVars cur.node).map (S.model [cur.fla, e.fla])) falseFact :=
          ⟨_, hm _ (by simp), by simp [LEdge.srcFact, hesrc], by simp [LEdge.tgtFact, ht, PRepr.nextVars, hR.fls, falseFact]⟩
        have hc : SxCovers R (cur.node, cur.fla) (cur.node, (R.stateVars cur.node).map (S.model [cur.fla, e.fla])) :=
          ⟨_, hm _ (by simp), rfl⟩
        have hun : ∀ es : List (LEdge T), (∀ f, SxCovers R (cur.node, cur.fla) f → LFeasible R es trueFact f) →
            LFeasible R (es ++ [e]) trueFact falseFact := fun es h => (h _ hc).append (.cons hf (.nil _))
        cases w with
        | true =>
          simp only [if_true] at h
          cases h
          exact sxInvalidity_spec hS hR hl hid hcur heG hun
        | false =>
          simp only [Bool.false_eq_true, if_false] at h
          cases h
          obtain ⟨es', h1, h2, _⟩ := hcur.path
          refine ⟨fun res hr => .inr ?_, by simp, fun _ => ⟨_, rfl, rfl⟩⟩
          cases hr
          refine ⟨rfl, ⟨_, ?_, hun es' h2⟩, fun h => (by cases h), fun _ => rfl⟩
          intro e' he'
          rcases List.mem_append.1 he' with h | h
          · exact h1 _ h
          · rw [List.mem_singleton.1 h]; exact heG
      · rename_i hu
        obtain ⟨i1, i2⟩ := ih st hI hcur hcn
        refine ⟨i1, fun st' h => ?_⟩
        obtain ⟨j1, j2, j3, j4⟩ := i2 st' h
        refine ⟨j1, j2, j3, fun e' he' => ?_⟩
        rcases List.mem_cons.1 he' with rfl | he'
        · exact ⟨fun _ => hu, fun h => absurd ht h⟩
        · exact j4 e' he'
      · rename_i h1 h2
        refine ⟨fun r h => ?_, fun st' h => (by cases h)⟩
        cases h
        refine ⟨fun res hr => .inl ?_, by simp, fun hc => ?_⟩
        · cases hr; exact ⟨rfl, rfl⟩
        · rcases hc [cur.fla, e.fla] with h | h
          · exact absurd h h1
          · exact absurd h h2
    · rename_i hne
      obtain ⟨a1, a2, a3, a4, l0, a5⟩ := sxAdd_spec hE hsi heG hesrc (hl e heG) hne (hnt e heG) hI hcur hcn
      obtain ⟨i1, i2⟩ := ih _ a1 a2 (a4 _ hcn)
      refine ⟨i1, fun st' h => ?_⟩
      obtain ⟨j1, j2, ⟨l, j3⟩, j4⟩ := i2 st' h
      refine ⟨j1, fun n hn => j2 n (a4 n hn), ⟨l0 ++ l, by rw [j3, a5, List.append_assoc]⟩, fun e' he' => ?_⟩
      rcases List.mem_cons.1 he' with rfl | he'
      · exact ⟨fun h => absurd h hne, fun _ => j2 _ a3⟩
      · exact j4 e' he'

/-! ### The loop over the queue -/

theorem sxStart_inv {R : PRepr} (hR : R.WF) (G : LGraph T) (w : Bool) : SxInv R G w [] sxStart where
  queue s hs := by
    simp only [sxStart, List.mem_singleton] at hs
    subst hs
    refine ⟨⟨⟨[], by simp, ?_, fun _ => by simp [sxWalk, sxStart]⟩, fun _ => by simp [sxStart]⟩, by simp [sxStart]⟩
    rintro f ⟨ρ, _, rfl⟩
    simp only [PRepr.stateVars, hR.tru, List.map_nil]
    exact .nil _
  vars n hn := by
    simp only [sxStart, List.mem_singleton] at hn
    subst hn
    intro x hx
    simp [Fla.vars] at hx
  nodes n hn := by
    simp only [sxStart, List.mem_singleton] at hn
    subst hn
    exact .inr ⟨_, List.mem_singleton.2 rfl, rfl⟩
  noExit n hn := by
    simp only [sxStart, List.mem_singleton] at hn
    subst hn
    simp
  start := by simp [sxStart]
  known n hn := by
    simp only [sxStart, List.mem_singleton] at hn
    subst hn
    exact .inl rfl
  states _ := by simp [sxStart]
  next _ := by simp [sxStart]

/-- The hypotheses on the components and the graph. -/
structure SxEnv (S : Smt T) (R : PRepr) (E : ElimExcept T) (Q : KeepOnly T) (simp : Fla T → Fla T) (G : LGraph T) : Prop where
  sound : S.Sound
  wf : R.WF
  elim : E.Exact
  keep : Q.Exact
  simpl : SimplifierOk simp
  label : ∀ e ∈ G, e.LabelOk R
  ids : (G.map LEdge.id).Nodup
  noTru : ∀ e ∈ G, e.tgt ≠ .tru

section
variable {S : Smt T} {R : PRepr} {E : ElimExcept T} {Q : KeepOnly T} {simp : Fla T → Fla T} {G : LGraph T} {w : Bool}

/-- All edges of the states in `D` have been dealt with. -/
def SxClosed (S : Smt T) (R : PRepr) (E : ElimExcept T) (simp : Fla T → Fla T) (G : LGraph T) (D nodes : List (Pred × Fla T)) : Prop :=
  ∀ n ∈ D, ∀ e ∈ G, e.src = n.1 → SxDone S R E simp nodes n e

/-- One iteration. -/
theorem sx_step (h : SxEnv S R E Q simp G) {D : List (Pred × Fla T)} {st : SxSt T} (hI : SxInv R G w D st)
    (hD : SxClosed S R E simp G D st.nodes) {cur : SxState T} {queue : List (SxState T)} (hq : st.queue = cur :: queue) :
    (∀ r, sxExpand S R E simp w G cur (G.out cur.node) { st with queue := queue } = .ret r → SxAnswer S R G w r) ∧
    ∀ st', sxExpand S R E simp w G cur (G.out cur.node) { st with queue := queue } = .cont st' →
      SxInv R G w ((cur.node, cur.fla) :: D) st' ∧ SxClosed S R E simp G ((cur.node, cur.fla) :: D) st'.nodes ∧
      (∀ n ∈ st.nodes, n ∈ st'.nodes) ∧ ∃ l, st'.queue = queue ++ l := by
  have hc := hI.queue cur (by rw [hq]; simp)
  have hI' : SxInv R G w ((cur.node, cur.fla) :: D) { st with queue := queue } :=
    { hI with
      queue := fun s hs => ⟨⟨(hI.queue s (by rw [hq]; simp [show s ∈ queue from hs])).1.path,
        (hI.queue s (by rw [hq]; simp [show s ∈ queue from hs])).1.stored⟩, (hI.queue s (by rw [hq]; simp [show s ∈ queue from hs])).2⟩
      nodes := fun n hn => by
        rcases hI.nodes n hn with h | ⟨s, h1, h2⟩
        · exact .inl (by simp [h])
        · rw [hq] at h1
          rcases List.mem_cons.1 h1 with rfl | h1
          · exact .inl (by simp [h2])
          · exact .inr ⟨s, h1, h2⟩ }
  obtain ⟨i1, i2⟩ := sxExpand_spec h.sound h.wf h.elim h.simpl (w := w) h.label h.ids h.noTru (cur := cur) (G.out cur.node) (fun e he => by
    simpa [LGraph.out] using he) { st with queue := queue } hI' ⟨hc.1.path, hc.1.stored⟩ hc.2
  refine ⟨i1, fun st' hst' => ?_⟩
  obtain ⟨j1, j2, j3, j4⟩ := i2 st' hst'
  refine ⟨j1, ?_, j2, j3⟩
  intro n hn e he hs
  rcases List.mem_cons.1 hn with rfl | hn
  · exact j4 e (by simp [LGraph.out, he, hs])
  · obtain ⟨a, b⟩ := hD n hn e he hs
    exact ⟨a, fun h => j2 _ (b h)⟩

/-- The states are closed under the edges. -/
theorem sx_covers (h : SxEnv S R E Q simp G) {D : List (Pred × Fla T)} {st : SxSt T} (hI : SxInv R G w D st)
    {n : Pred × Fla T} (hn : n ∈ st.nodes) {e : LEdge T} (he : e ∈ G)
    (hd : SxDone S R E simp st.nodes n e) {f g : Fact T} (hc : SxCovers R n f) (hf : e.Fires R f g) :
    e.tgt ≠ .fls ∧ SxCovers R (e.tgt, sxPost R E simp ⟨n.1, n.2, 0⟩ e) g ∧ (e.tgt, sxPost R E simp ⟨n.1, n.2, 0⟩ e) ∈ st.nodes := by
  have hs : e.src = n.1 := by
    obtain ⟨ρ, _, rfl⟩ := hc
    exact hf.src.symm
  have hv := hI.vars n hn
  have hl := h.label e he
  have hne : e.tgt ≠ .fls := by
    intro ht
    have hu := hd.exit ht
    obtain ⟨p, φ⟩ := n
    simp only at hs
    subst hs
    obtain ⟨μ, h1, h2, _⟩ := sx_merge hl hv hc hf
    refine h.sound.unsat _ hu ⟨μ, fun x hx => ?_⟩
    simp only [List.mem_cons, List.not_mem_nil, or_false] at hx
    rcases hx with rfl | rfl
    · exact h1
    · exact h2
  exact ⟨hne, (sxPost_covers h.elim h.simpl (cur := ⟨n.1, n.2, 0⟩) hs hl hv g).2 ⟨f, hc, hf⟩, hd.succ hne⟩

/-- The queue is empty: the states cover all derivable facts, and never `false`. -/
theorem sx_model (h : SxEnv S R E Q simp G) {D : List (Pred × Fla T)} {st : SxSt T} (hI : SxInv R G w D st)
    (hD : SxClosed S R E simp G D st.nodes) (hq : st.queue = []) {e : LEdge T} (he : e ∈ G) {f g : Fact T} (hf : e.Fires R f g)
    (hc : ∃ n ∈ st.nodes, SxCovers R n f) : e.tgt ≠ .fls ∧ ∃ n ∈ st.nodes, SxCovers R n g := by
  obtain ⟨n, hn, hc⟩ := hc
  have hnD : n ∈ D := by
    rcases hI.nodes n hn with h | ⟨s, h1, _⟩
    · exact h
    · rw [hq] at h1; cases h1
  have hs : e.src = n.1 := by
    obtain ⟨ρ, _, rfl⟩ := hc
    exact hf.src.symm
  obtain ⟨a, b, c⟩ := sx_covers h hI hn he (hD n hnD e he hs) hc hf
  exact ⟨a, _, c, b⟩

theorem sx_start_covers (h : SxEnv S R E Q simp G) {D : List (Pred × Fla T)} {st : SxSt T} (hI : SxInv R G w D st) :
    ∃ n ∈ st.nodes, SxCovers R n (trueFact (T := T)) :=
  ⟨_, hI.start, fun _ => T.vT, trivial, by simp [PRepr.stateVars, h.wf.tru, trueFact]⟩

theorem sx_safe (h : SxEnv S R E Q simp G) {D : List (Pred × Fla T)} {st : SxSt T} (hI : SxInv R G w D st)
    (hD : SxClosed S R E simp G D st.nodes) (hq : st.queue = []) : ¬ G.Unsafe R := by
  rintro ⟨es, hes, hf⟩
  have key : ∀ {es : List (LEdge T)} {f g : Fact T}, LFeasible R es f g → (∀ e ∈ es, e ∈ G) → (∃ n ∈ st.nodes, SxCovers R n f) →
      ∃ n ∈ st.nodes, SxCovers R n g := by
    intro es f g hp
    induction hp with
    | nil => intro _ h; exact h
    | cons hf _ ih =>
      intro he hc
      exact ih (fun e h => he e (by simp [h])) (sx_model h hI hD hq (he _ (by simp)) hf hc).2
  obtain ⟨n, hn, ρ, _, hf⟩ := key hf hes (sx_start_covers h hI)
  exact hI.noExit n hn (congrArg Prod.fst hf).symm

/-! ### The SAFE witness -/

theorem lookup_self_map {α : Type} {f : Pred → α} {p : Pred} : ∀ {l : List Pred}, p ∈ l →
    List.lookup p (l.map fun q => (q, f q)) = some (f p) := by
  intro l
  induction l with
  | nil => intro h; cases h
  | cons q l ih =>
    intro h
    simp only [List.map_cons, List.lookup]
    by_cases hpq : p = q
    · subst hpq; simp
    · have : (p == q) = false := by simpa using hpq
      rw [this]
      rcases List.mem_cons.1 h with h | h
      · exact absurd h hpq
      · exact ih h

theorem lookup_map_none {α : Type} {f : Pred → α} {p : Pred} : ∀ {l : List Pred}, p ∉ l →
    List.lookup p (l.map fun q => (q, f q)) = none := by
  intro l
  induction l with
  | nil => intro _; rfl
  | cons q l ih =>
    intro h
    simp only [List.mem_cons, not_or] at h
    simp only [List.map_cons, List.lookup]
    have : (p == q) = false := by simpa using h.1
    rw [this]
    exact ih h.2

/-- A SAFE witness but for completeness: vertices that the search did not reach have no definition. -/
structure LSafeReached (R : PRepr) (G : LGraph T) (D : Defs T) : Prop where
  closed : ∀ p d, D.get p = some d → ∀ x ∈ d.vars, x ∈ R.baseVars p
  tru : D.get .tru = some .tt
  fls : D.get .fls = some .ff
  model : ∀ e ∈ G, ∀ f g, e.Fires R f g → D.interp R f → D.interp R g
  only : ∀ p, (D.get p).isSome → G.Vertex p ∨ p = .tru ∨ p = .fls

theorem sxValidity_get {states : List (SxState T)} {Df : Defs T}
    (hv : sxValidity Q R states = some Df) : ∃ reached : List (Pred × Fla T),
      (states.mapM fun s => (Q s.fla (R.stateVars s.node)).map fun f => (s.node, f)) = some reached ∧
      Df.get .tru = some .tt ∧ Df.get .fls = some .ff ∧
      ∀ p, p ≠ .tru → p ≠ .fls → Df.get p = if p ∈ states.map SxState.node then
        some ((Fla.disj ((reached.filter fun r => decide (r.1 = p)).map Prod.snd)).rename verToBase) else none := by
  simp only [sxValidity, Option.map_eq_some_iff] at hv
  obtain ⟨reached, hr, rfl⟩ := hv
  refine ⟨reached, hr, rfl, rfl, fun p h1 h2 => ?_⟩
  have e1 : (p == Pred.tru) = false := by simpa using h1
  have e2 : (p == Pred.fls) = false := by simpa using h2
  simp only [Defs.get, trivialDefinitions, List.cons_append, List.nil_append, List.lookup, e1, e2]
  split
  · rename_i h; exact lookup_self_map h
  · rename_i h; exact lookup_map_none h

theorem sxValidity_spec (h : SxEnv S R E Q simp G) {D : List (Pred × Fla T)} {st : SxSt T} (hI : SxInv R G true D st)
    (hD : SxClosed S R E simp G D st.nodes) (hq : st.queue = []) {Df : Defs T} (hv : sxValidity Q R st.states = some Df) :
    LSafeReached R G Df ∧ ∀ p, p ≠ .fls → (∃ φ, (p, φ) ∈ st.nodes) → (Df.get p).isSome := by
  obtain ⟨reached, hr, ht, hfl, hg⟩ := sxValidity_get hv
  obtain ⟨m1, m2⟩ := mapM_some hr
  have hmem : ∀ p, p ∈ st.states.map SxState.node ↔ ∃ φ, (p, φ) ∈ st.nodes := by
    intro p
    rw [← hI.states rfl]
    simp only [List.mem_map, Prod.mk.injEq]
    constructor
    · rintro ⟨s, hs, rfl⟩; exact ⟨s.fla, s, hs, rfl, rfl⟩
    · rintro ⟨φ, s, hs, rfl, _⟩; exact ⟨s, hs, rfl⟩
  have hdef : ∀ r ∈ reached, ∃ s ∈ st.states, Q s.fla (R.stateVars s.node) = some r.2 ∧ r.1 = s.node := by
    intro r hr
    obtain ⟨s, hs, he⟩ := m2 r hr
    simp only [Option.map_eq_some_iff] at he
    obtain ⟨g, h1, rfl⟩ := he
    exact ⟨s, hs, h1, rfl⟩
  have hcl : ∀ p d, Df.get p = some d → ∀ x ∈ d.vars, x ∈ R.baseVars p := by
    intro p d hd x hx
    by_cases h1 : p = .tru
    · subst h1; rw [ht] at hd; cases hd; simp [Fla.vars] at hx
    · by_cases h2 : p = .fls
      · subst h2; rw [hfl] at hd; cases hd; simp [Fla.vars] at hx
      · rw [hg p h1 h2] at hd
        split at hd
        · cases hd
          obtain ⟨y, hy, rfl⟩ := Fla.mem_vars_rename.1 hx
          obtain ⟨g, hg', hy⟩ := Fla.mem_vars_disj.1 hy
          obtain ⟨r, hr', rfl⟩ := List.mem_map.1 hg'
          simp only [List.mem_filter, decide_eq_true_eq] at hr'
          obtain ⟨s, hs, hQ, hn⟩ := hdef r hr'.1
          have := (h.keep _ _ _ hQ).1 y hy
          rw [← hn, hr'.2] at this
          obtain ⟨n, hn', rfl⟩ := List.mem_map.1 this
          exact List.mem_map.2 ⟨n, hn', rfl⟩
        · cases hd
  -- a definition holds of the facts covered by the states at the vertex
  have hint : ∀ f : Fact T, f.1 ≠ .fls → (Df.interp R f ↔ (f = trueFact ∨ f.1 ≠ .tru) ∧ ∃ n ∈ st.nodes, SxCovers R n f) := by
    intro f hf2
    obtain ⟨p, v⟩ := f
    simp only at hf2
    unfold Defs.interp
    by_cases h1 : p = .tru
    · subst h1
      simp only [ht, PRepr.baseVars, h.wf.tru, List.map_nil]
      constructor
      · rintro ⟨d, hd, ρ, hρ, _⟩
        rw [← hρ]
        exact ⟨.inl rfl, sx_start_covers h hI⟩
      · rintro ⟨he | he, _⟩
        · exact ⟨_, rfl, fun _ => T.vT, by simpa [trueFact] using (congrArg Prod.snd he).symm, trivial⟩
        · exact absurd rfl he
    · simp only [hg p h1 hf2]
      constructor
      · rintro ⟨d, hd, ρ, hρ, hh⟩
        refine ⟨.inr h1, ?_⟩
        split at hd
        · cases hd
          rw [Fla.holds_rename, Fla.holds_disj] at hh
          obtain ⟨g, hg', hh⟩ := hh
          obtain ⟨r, hr', rfl⟩ := List.mem_map.1 hg'
          simp only [List.mem_filter, decide_eq_true_eq] at hr'
          obtain ⟨s, hs, hQ, hn⟩ := hdef r hr'.1
          obtain ⟨ρ', hag, hh⟩ := ((h.keep _ _ _ hQ).2 _).1 hh
          have hsp : s.node = p := by rw [← hn]; exact hr'.2
          refine ⟨(s.node, s.fla), by rw [← hI.states rfl]; exact List.mem_map.2 ⟨s, hs, rfl⟩, ρ', hh, ?_⟩
          rw [hsp] at hag
          simp only [hsp, ← hρ, Prod.mk.injEq, true_and, PRepr.baseVars, PRepr.stateVars, List.map_map]
          refine List.map_congr_left fun m hm => ?_
          have := hag (.ver m 0) (List.mem_map.2 ⟨m, hm, rfl⟩)
          simp only [verToBase] at this
          exact this.symm
        · cases hd
      · rintro ⟨_, ⟨q, φ⟩, hn, ρ, hh, he⟩
        simp only [Prod.mk.injEq] at he
        obtain ⟨rfl, rfl⟩ := he
        rw [if_pos ((hmem p).2 ⟨φ, hn⟩)]
        rw [← hI.states rfl] at hn
        obtain ⟨s, hs, he⟩ := List.mem_map.1 hn
        simp only [Prod.mk.injEq] at he
        obtain ⟨h3, h4⟩ := he
        obtain ⟨r, hr', hQ⟩ := m1 s hs
        simp only [Option.map_eq_some_iff] at hQ
        obtain ⟨g, hQ, rfl⟩ := hQ
        refine ⟨_, rfl, fun x => match x with | .base m => ρ (.ver m 0) | x => ρ x, ?_, ?_⟩
        · simp [PRepr.baseVars, PRepr.stateVars, List.map_map, Function.comp_def]
        · rw [Fla.holds_rename, Fla.holds_disj]
          refine ⟨g, List.mem_map.2 ⟨(s.node, g), by simp only [List.mem_filter, decide_eq_true_eq]; exact ⟨hr', h3⟩, rfl⟩, ((h.keep _ _ _ hQ).2 _).2 ⟨ρ, ?_, by rw [h4]; exact hh⟩⟩
          intro x hx
          obtain ⟨m, _, rfl⟩ := List.mem_map.1 hx
          rfl
  refine ⟨⟨hcl, ht, hfl, ?_, ?_⟩, ?_⟩
  · intro e he f g hf hif
    have hff : f.1 ≠ .fls := by
      intro hff
      obtain ⟨d, hd, ρ, _, hh⟩ := hif
      rw [hff, hfl] at hd
      cases hd
      exact hh
    obtain ⟨a, b⟩ := sx_model h hI hD hq he hf ((hint f hff).1 hif).2
    rw [← hf.tgt] at a
    exact (hint g a).2 ⟨.inr (by rw [hf.tgt]; exact h.noTru e he), b⟩
  · intro p hp
    by_cases h1 : p = .tru
    · exact .inr (.inl h1)
    · by_cases h2 : p = .fls
      · exact .inr (.inr h2)
      · rw [hg p h1 h2] at hp
        split at hp
        · rename_i hm
          obtain ⟨φ, hφ⟩ := (hmem p).1 hm
          rcases hI.known _ hφ with h | h
          · exact absurd h h1
          · exact .inl h
        · cases hp
  · intro p hp hn
    by_cases h1 : p = .tru
    · subst h1; rw [ht]; rfl
    · rw [hg p h1 hp, if_pos ((hmem p).2 hn)]; rfl

/-- Every vertex on a walk from the entry has been visited. -/
theorem sx_reached {D : List (Pred × Fla T)} {st : SxSt T} (hI : SxInv R G w D st)
    (hD : SxClosed S R E simp G D st.nodes) (hq : st.queue = []) (hx : ∀ e ∈ G, e.src ≠ .fls) {p : Pred} (hw : Walk G.succ .tru p) :
    p ≠ .fls → ∃ φ, (p, φ) ∈ st.nodes := by
  induction hw with
  | refl => intro _; exact ⟨_, hI.start⟩
  | @snoc v p _ e ih =>
    intro hp
    simp only [LGraph.succ, LGraph.out, List.mem_map, List.mem_filter, decide_eq_true_eq] at e
    obtain ⟨e, ⟨he, rfl⟩, rfl⟩ := e
    obtain ⟨φ, hφ⟩ := ih (hx e he)
    rcases hI.nodes _ hφ with h | ⟨s, h1, _⟩
    · exact ⟨_, (hD _ h e he rfl).succ hp⟩
    · rw [hq] at h1; cases h1

/-- What an answer means. -/
structure SxResult (S : Smt T) (R : PRepr) (G : LGraph T) (w : Bool) (res : VerificationResult T) : Prop where
  unsafeAns : res.answer = .unsafeAns → G.Unsafe R ∧ (w = true → ∃ ds, res.witness = .invalidity ds ∧ LUnsafeWitness R G ds ∧
    (isTrivial G = true → ds.length = 2))
  safe : res.answer = .safe → ¬ G.Unsafe R ∧ (w = true → ∃ D, res.witness = .validity D ∧ LSafeReached R G D ∧
    ((∀ e ∈ G, e.src ≠ .fls) → ∀ p, Walk G.succ .tru p → (D.get p).isSome))
  unknown : res.answer = .unknown → res.witness = .none ∧ ¬ S.Complete
  none : w = false → res.witness = .none

theorem sxLoop_result (h : SxEnv S R E Q simp G) : ∀ (fuel : Nat) {D : List (Pred × Fla T)} {st : SxSt T},
    SxInv R G w D st → SxClosed S R E simp G D st.nodes → ∀ res, sxLoop S R E Q simp w G fuel st = .done res →
      SxResult S R G w res := by
  intro fuel
  induction fuel with
  | zero => intro D st _ _ res hr; cases hr
  | succ fuel ih =>
    intro D st hI hD res hr
    unfold sxLoop at hr
    split at hr
    · rename_i hq
      cases w with
      | true =>
        simp only [if_true] at hr
        split at hr
        · rename_i Df hDf
          cases hr
          refine ⟨fun e => (by cases e), fun _ => ⟨sx_safe h hI hD hq, fun _ => ⟨Df, rfl, ?_, ?_⟩⟩, fun e => (by cases e), fun e => (by cases e)⟩
          · exact (sxValidity_spec h hI hD hq hDf).1
          · intro hx p hp
            by_cases hpf : p = .fls
            · subst hpf; rw [(sxValidity_spec h hI hD hq hDf).1.fls]; rfl
            · exact (sxValidity_spec h hI hD hq hDf).2 p hpf (sx_reached hI hD hq hx hp hpf)
        · cases hr
      | false =>
        simp only [Bool.false_eq_true, if_false] at hr
        cases hr
        exact ⟨fun e => (by cases e), fun _ => ⟨sx_safe h hI hD hq, fun e => (by cases e)⟩, fun e => (by cases e), fun _ => rfl⟩
    · rename_i cur queue hq
      obtain ⟨s1, s2⟩ := sx_step h hI hD hq
      split at hr
      · rename_i r hr'
        subst hr
        have ha := s1 _ hr'
        rcases ha.ans res rfl with ⟨h1, h2⟩ | ⟨h1, h2, h3, h4⟩
        · refine ⟨fun e => (by rw [h1] at e; cases e), fun e => (by rw [h1] at e; cases e), fun _ => ⟨h2, fun hc => ?_⟩, fun _ => h2⟩
          obtain ⟨res', hr', ha'⟩ := ha.decided hc
          cases hr'
          rw [h1] at ha'
          cases ha'
        · exact ⟨fun _ => ⟨h2, h3⟩, fun e => (by rw [h1] at e; cases e), fun e => (by rw [h1] at e; cases e), h4⟩
      · rename_i st' hst'
        obtain ⟨j1, j2, _, _⟩ := s2 st' hst'
        exact ih j1 j2 res hr

theorem sxLoop_total (h : SxEnv S R E Q simp G) (hc : S.Complete) (hQ : ∀ f vs, ∃ g, Q f vs = some g) :
    ∀ (fuel : Nat) {D : List (Pred × Fla T)} {st : SxSt T},
    SxInv R G w D st → SxClosed S R E simp G D st.nodes → sxLoop S R E Q simp w G fuel st ≠ .thrown := by
  intro fuel
  induction fuel with
  | zero => intro D st _ _ hr; cases hr
  | succ fuel ih =>
    intro D st hI hD hr
    unfold sxLoop at hr
    split at hr
    · split at hr
      · split at hr
        · cases hr
        · rename_i hn
          obtain ⟨l, hl⟩ := mapM_total (f := fun s : SxState T => (Q s.fla (R.stateVars s.node)).map fun f => (s.node, f))
            (l := st.states) fun s _ => by
              obtain ⟨g, hg⟩ := hQ s.fla (R.stateVars s.node)
              exact ⟨_, by rw [hg]; rfl⟩
          unfold sxValidity at hn
          rw [hl] at hn
          cases hn
      · cases hr
    · rename_i cur queue hq
      obtain ⟨s1, s2⟩ := sx_step h hI hD hq
      split at hr
      · rename_i r hr'
        obtain ⟨res, h1, _⟩ := (s1 _ hr').decided hc
        rw [hr] at h1
        cases h1
      · rename_i st' hst'
        obtain ⟨j1, j2, _, _⟩ := s2 st' hst'
        exact ih j1 j2 hr

theorem sxLoop_fuel (h : SxEnv S R E Q simp G) : ∀ (fuel fuel' : Nat) {D : List (Pred × Fla T)} {st : SxSt T},
    SxInv R G w D st → SxClosed S R E simp G D st.nodes → fuel ≤ fuel' → sxLoop S R E Q simp w G fuel st ≠ .outOfFuel →
    sxLoop S R E Q simp w G fuel' st = sxLoop S R E Q simp w G fuel st := by
  intro fuel
  induction fuel with
  | zero => intro fuel' D st _ _ _ hr; exact absurd rfl hr
  | succ fuel ih =>
    intro fuel' D st hI hD hle hr
    cases fuel' with
    | zero => omega
    | succ fuel' =>
      unfold sxLoop at hr ⊢
      split
      · rfl
      · rename_i cur queue hq
        obtain ⟨s1, s2⟩ := sx_step h hI hD hq
        rw [hq] at hr
        simp only at hr
        split
        · rfl
        · rename_i st' hst'
          rw [hst'] at hr
          obtain ⟨j1, j2, _, _⟩ := s2 st' hst'
          exact ih fuel' j1 j2 (by omega) hr

/-- The search never ends from this state. -/
def SxDiverges (S : Smt T) (R : PRepr) (E : ElimExcept T) (Q : KeepOnly T) (simp : Fla T → Fla T) (w : Bool) (G : LGraph T)
    (st : SxSt T) : Prop := ∀ fuel, sxLoop S R E Q simp w G fuel st = .outOfFuel

theorem SxDiverges.step (h : SxEnv S R E Q simp G) {D : List (Pred × Fla T)} {st : SxSt T} (hI : SxInv R G w D st)
    (hD : SxClosed S R E simp G D st.nodes) (hd : SxDiverges S R E Q simp w G st) :
    ∃ cur queue st', st.queue = cur :: queue ∧ SxDiverges S R E Q simp w G st' ∧ SxInv R G w ((cur.node, cur.fla) :: D) st' ∧
      SxClosed S R E simp G ((cur.node, cur.fla) :: D) st'.nodes ∧ (∀ n ∈ st.nodes, n ∈ st'.nodes) ∧ ∃ l, st'.queue = queue ++ l := by
  cases hq : st.queue with
  | nil =>
    have := hd 1
    unfold sxLoop at this
    rw [hq] at this
    simp only at this
    split at this
    · split at this <;> cases this
    · cases this
  | cons cur queue =>
    obtain ⟨s1, s2⟩ := sx_step h hI hD hq
    cases hx : sxExpand S R E simp w G cur (G.out cur.node) { st with queue := queue } with
    | ret r =>
      have := hd 1
      unfold sxLoop at this
      rw [hq] at this
      simp only at this
      rw [hx] at this
      exact absurd this (s1 r hx).noFuel
    | cont st' =>
      obtain ⟨j1, j2, j3, j4⟩ := s2 st' hx
      refine ⟨cur, queue, st', rfl, fun fuel => ?_, j1, j2, j3, j4⟩
      have := hd (fuel + 1)
      unfold sxLoop at this
      rw [hq] at this
      simp only at this
      rw [hx] at this
      exact this

/-- Everything in the queue is dealt with in the end. -/
theorem SxDiverges.fair (h : SxEnv S R E Q simp G) {s : SxState T} : ∀ (i : Nat) {D : List (Pred × Fla T)} {st : SxSt T},
    SxInv R G w D st → SxClosed S R E simp G D st.nodes → SxDiverges S R E Q simp w G st → st.queue[i]? = some s →
    ∃ D' st', SxDiverges S R E Q simp w G st' ∧ SxInv R G w D' st' ∧ SxClosed S R E simp G D' st'.nodes ∧
      (∀ n ∈ st.nodes, n ∈ st'.nodes) ∧ (s.node, s.fla) ∈ D' := by
  intro i
  induction i with
  | zero =>
    intro D st hI hD hd hs
    obtain ⟨cur, queue, st', hq, h1, h2, h3, h4, _⟩ := hd.step h hI hD
    rw [hq] at hs
    simp at hs
    subst hs
    exact ⟨_, st', h1, h2, h3, h4, by simp⟩
  | succ i ih =>
    intro D st hI hD hd hs
    obtain ⟨cur, queue, st', hq, h1, h2, h3, h4, l, h5⟩ := hd.step h hI hD
    rw [hq] at hs
    simp only [List.getElem?_cons_succ] at hs
    obtain ⟨D', st'', k1, k2, k3, k4, k5⟩ := ih h2 h3 h1 (by
      rw [h5, List.getElem?_append_left (List.getElem?_lt hs)]; exact hs)
    exact ⟨D', st'', k1, k2, k3, fun n hn => k4 n (h4 n hn), k5⟩

theorem SxDiverges.covers (h : SxEnv S R E Q simp G) {es : List (LEdge T)} {f g : Fact T} (hp : LFeasible R es f g) :
    (∀ e ∈ es, e ∈ G) → ∀ {D : List (Pred × Fla T)} {st : SxSt T}, SxDiverges S R E Q simp w G st → SxInv R G w D st →
      SxClosed S R E simp G D st.nodes → (∃ n ∈ st.nodes, SxCovers R n f) →
      ∃ D' st', SxInv (w := w) R G D' st' ∧ ∃ n ∈ st'.nodes, SxCovers R n g := by
  induction hp with
  | nil => intro _ D st hd hI hD hc; exact ⟨D, st, hI, hc⟩
  | @cons e es f g k hf _ ih =>
    rintro hes D st hd hI hD ⟨n, hn, hc⟩
    have he := hes e (by simp)
    have hs : e.src = n.1 := by
      obtain ⟨ρ, _, rfl⟩ := hc
      exact hf.src.symm
    obtain ⟨D', st', k1, k2, k3, k4, k5⟩ : ∃ D' st', SxDiverges S R E Q simp w G st' ∧ SxInv R G w D' st' ∧
        SxClosed S R E simp G D' st'.nodes ∧ n ∈ st'.nodes ∧ n ∈ D' := by
      rcases hI.nodes n hn with h' | ⟨s, h1, rfl⟩
      · exact ⟨D, st, hd, hI, hD, hn, h'⟩
      · obtain ⟨i, hi⟩ := List.mem_iff_getElem?.1 h1
        obtain ⟨D', st', k1, k2, k3, k4, k5⟩ := SxDiverges.fair h i hI hD hd hi
        exact ⟨D', st', k1, k2, k3, k4 _ hn, k5⟩
    obtain ⟨_, b, c⟩ := sx_covers h k2 k4 he (k3 n k5 e he hs) hc hf
    exact ih (fun e h => hes e (by simp [h])) k1 k2 k3 ⟨_, c, b⟩

end

/-! ### The engine -/

section
variable {S : Smt T} {R : PRepr} {E : ElimExcept T} {Q : KeepOnly T} {simp : Fla T → Fla T} {G : LGraph T} {w : Bool}

/-- **C51** Forward symbolic execution, with any sound backend: UNSAFE means that false is derivable, with a derivation if a
witness is asked for; SAFE means that it is not, and the definitions returned are closed under all clauses (vertices that cannot
be reached from the entry along edges have none). -/
theorem C51_result (h : SxEnv S R E Q simp G) (w : Bool) (fuel : Nat) {res : VerificationResult T}
    (hr : symbolicExecution S R E Q simp w G fuel = .done res) : SxResult S R G w res :=
  sxLoop_result h fuel (sxStart_inv h.wf G w) (fun n hn => by cases hn) res hr

/-- **C51** On graphs without stray vertices the SAFE witness is complete. -/
theorem C51_graph (h : SxEnv S R E Q simp G) (hn : G.NoStray) (hx : ∀ e ∈ G, e.src ≠ .fls) (w : Bool) (fuel : Nat)
    {res : VerificationResult T} (hr : symbolicExecution S R E Q simp w G fuel = .done res) :
    GraphResultOk R G res ∧ (w = true → res.witness = .none → res.answer = .unknown) := by
  have hR := C51_result h w fuel hr
  refine ⟨⟨fun ha => (hR.unsafeAns ha).1, fun ha => (hR.safe ha).1, ?_, ?_⟩, ?_⟩
  · intro D hD
    cases w with
    | false => rw [hR.none rfl] at hD; cases hD
    | true =>
      cases ha : res.answer with
      | unsafeAns =>
        obtain ⟨ds, h1, _⟩ := (hR.unsafeAns ha).2 rfl
        rw [h1] at hD; cases hD
      | unknown => rw [(hR.unknown ha).1] at hD; cases hD
      | safe =>
        obtain ⟨D', h1, h2, h3⟩ := (hR.safe ha).2 rfl
        rw [h1] at hD; cases hD
        refine ⟨rfl, h2.closed, h2.tru, h2.fls, h2.model, ?_, h2.only⟩
        rintro p ⟨e, he, hp⟩
        refine h3 hx p ?_
        rcases hp with rfl | rfl
        · exact .snoc (hn e he) (by
            simp only [LGraph.succ, LGraph.out, List.mem_map, List.mem_filter, decide_eq_true_eq]
            exact ⟨e, ⟨he, rfl⟩, rfl⟩)
        · exact hn e he
  · intro ds hds
    cases w with
    | false => rw [hR.none rfl] at hds; cases hds
    | true =>
      cases ha : res.answer with
      | unsafeAns =>
        obtain ⟨ds', h1, h2, _⟩ := (hR.unsafeAns ha).2 rfl
        rw [h1] at hds; cases hds
        exact ⟨rfl, h2⟩
      | unknown => rw [(hR.unknown ha).1] at hds; cases hds
      | safe =>
        obtain ⟨D', h1, _⟩ := (hR.safe ha).2 rfl
        rw [h1] at hds; cases hds
  · intro hw hno
    cases ha : res.answer with
    | unsafeAns =>
      obtain ⟨ds', h1, _⟩ := (hR.unsafeAns ha).2 hw
      rw [h1] at hno; cases hno
    | unknown => rfl
    | safe =>
      obtain ⟨D', h1, _⟩ := (hR.safe ha).2 hw
      rw [h1] at hno; cases hno

/-- **C51** With a deciding backend and quantifier elimination that succeeds, no exception is raised and the answer is never
UNKNOWN. -/
theorem C51_no_error (h : SxEnv S R E Q simp G) (hc : S.Complete) (hQ : ∀ f vs, ∃ g, Q f vs = some g) (w : Bool) (fuel : Nat) :
    symbolicExecution S R E Q simp w G fuel ≠ .thrown ∧
    ∀ res, symbolicExecution S R E Q simp w G fuel = .done res → res.answer ≠ .unknown :=
  ⟨sxLoop_total h hc hQ fuel (sxStart_inv h.wf G w) (fun n hn => by cases hn),
    fun _ hr ha => ((C51_result h w fuel hr).unknown ha).2 hc⟩

/-- **C51** If false is derivable, the search finds it: from some number of iterations on the answer is UNSAFE. -/
theorem C51_finds (h : SxEnv S R E Q simp G) (hc : S.Complete) (hQ : ∀ f vs, ∃ g, Q f vs = some g) (hu : G.Unsafe R) (w : Bool) :
    ∃ N, ∀ fuel, N ≤ fuel → ∃ res, symbolicExecution S R E Q simp w G fuel = .done res ∧ res.answer = .unsafeAns := by
  have hI := sxStart_inv (T := T) h.wf G w
  have hD : SxClosed S R E simp G [] (sxStart (T := T)).nodes := fun n hn => by cases hn
  have hnd : ¬ SxDiverges S R E Q simp w G sxStart := by
    intro hd
    obtain ⟨es, hes, hf⟩ := hu
    obtain ⟨D', st', k1, n, hn, ρ, _, he⟩ := SxDiverges.covers h hf hes hd hI hD (sx_start_covers h hI)
    exact k1.noExit n hn (congrArg Prod.fst he).symm
  obtain ⟨N, hN⟩ := Classical.not_forall.1 hnd
  refine ⟨N, fun fuel hfu => ?_⟩
  have he : symbolicExecution S R E Q simp w G fuel = symbolicExecution S R E Q simp w G N := sxLoop_fuel h N fuel hI hD hfu hN
  obtain ⟨n1, n2⟩ := C51_no_error h hc hQ w N
  cases hr : symbolicExecution S R E Q simp w G N with
  | done res =>
    refine ⟨res, by rw [he, hr], ?_⟩
    cases ha : res.answer with
    | unsafeAns => rfl
    | unknown => exact absurd ha (n2 res hr)
    | safe => exact absurd hu ((C51_result h w N hr).safe ha).1
  | thrown => exact absurd hr n1
  | outOfFuel => exact absurd hr hN

end

/-- **C51** On hypergraphs: `SymbolicExecution::solve` answers UNKNOWN unless the graph is linear. -/
theorem C51_hyper {S : Smt T} (hS : S.Sound) {R : PRepr} (hR : R.WF) {E : ElimExcept T} (hE : E.Exact) {Q : KeepOnly T} (hQ : Q.Exact)
    {simp : Fla T → Fla T} (hsi : SimplifierOk simp) (w : Bool) (fuel : Nat) {st : GS T} (hst : st.Inv R) (hns : st.edges.NoStray)
    {res : VerificationResult T}
    (h : normalSolve R (fun G => symbolicExecution S R E Q simp w G fuel) st.edges = .done res) : HyperResultOk R st.edges res := by
  unfold normalSolve at h
  split at h
  · rename_i hn
    have hend : ∀ l ∈ toNormalGraph R st.edges, l.tgt ≠ .tru ∧ l.src ≠ .fls := by
      intro l hl
      obtain ⟨e, he, s, hs, rfl⟩ := mem_toNormalGraph.1 hl
      have := hst.ends e he
      refine ⟨this.1, ?_⟩
      rintro h
      exact this.2 (by rw [hs, ← show s = .fls from h]; simp)
    have env : SxEnv S R E Q simp (toNormalGraph R st.edges) :=
      ⟨hS, hR, hE, hQ, hsi, normal_labelOk hR hst.ok, normal_ids hst.ok, fun e he => (hend e he).1⟩
    refine (hyperResult_at hR hst hn (C51_graph env (normal_noStray hn hns) (fun e he => (hend e he).2) w fuel h).1 ?_).1
    intro ht ds hds
    have hr := C51_result env w fuel h
    cases ha : res.answer with
    | unsafeAns =>
      cases w with
      | false => rw [hr.none rfl] at hds; cases hds
      | true =>
        obtain ⟨ds', h1, _, h3⟩ := (hr.unsafeAns ha).2 rfl
        rw [h1] at hds; cases hds
        exact h3 ht
    | unknown => rw [(hr.unknown ha).1] at hds; cases hds
    | safe =>
      cases w with
      | false => rw [hr.none rfl] at hds; cases hds
      | true =>
        obtain ⟨D', h1, _⟩ := (hr.safe ha).2 rfl
        rw [h1] at hds; cases hds
  · cases h
    exact ⟨by simp, by simp, by simp, by simp⟩

namespace LinearEx
open ValidatorEx (P R R_wf a)

theorem propKeep_total (f : Fla propTheory) (vs : List Var) : ∃ g, propKeep f vs = some g := ⟨_, rfl⟩

theorem sxEnv_H : SxEnv propSmt R keep propKeep id H :=
  ⟨propSmt_sound, R_wf, keep_exact, propKeep_exact, simplifierOk_id, H_label, by decide +kernel, by decide +kernel⟩

theorem sxEnv_H2 : SxEnv propSmt R keep propKeep id H2 :=
  ⟨propSmt_sound, R_wf, keep_exact, propKeep_exact, simplifierOk_id, fun e he => H_label e (List.mem_filter.1 he).1, by decide +kernel,
    by decide +kernel⟩

/-- The search goes twice through the loop of `p0` and `p1` to find the error of `H`, and proves `H2` safe with a witness. -/
theorem C51_example : SxEnv propSmt R keep propKeep id H ∧ SxEnv propSmt R keep propKeep id H2 ∧ propSmt.Complete ∧
    (∀ f vs, ∃ g, propKeep f vs = some g) ∧ (∀ e ∈ H2, e.src ≠ .fls) ∧
    (∃ ds, symbolicExecution propSmt R keep propKeep id true H 9 = .done ⟨.unsafeAns, .invalidity ds⟩ ∧
      ds.map DStep.clauseId = [none, some 0, some 1, some 2, some 1, some 3]) ∧
    ∃ D, symbolicExecution propSmt R keep propKeep id true H2 9 = .done ⟨.safe, .validity D⟩ ∧ (D.get (.p 1)).isSome := by
  refine ⟨sxEnv_H, sxEnv_H2, propSmt_complete, propKeep_total, by decide +kernel, ?_, ?_⟩
  · have : (match symbolicExecution propSmt R keep propKeep id true H 9 with
      | .done ⟨.unsafeAns, .invalidity ds⟩ => ds.map DStep.clauseId == [none, some 0, some 1, some 2, some 1, some 3]
      | _ => false) = true := by decide +kernel
    split at this
    · rename_i ds h; exact ⟨ds, h, by simpa using this⟩
    · cases this
  · have : (match symbolicExecution propSmt R keep propKeep id true H2 9 with
      | .done ⟨.safe, .validity D⟩ => (D.get (.p 1)).isSome
      | _ => false) = true := by decide +kernel
    split at this
    · rename_i D h; exact ⟨D, h, this⟩
    · cases this

end LinearEx

end Golem
