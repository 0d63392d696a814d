import Verif.Lemmas.SpacerLoop
import Verif.Lemmas.SingleLoop
import Verif.Spec.Pipeline

/-! Spacer: the database of derivations and the reconstruction of an UNSAFE witness. -/

namespace Golem
variable {T : Theory} {E : SpEnv T}

theorem mapM_get {α β : Type} {f : α → Option β} {l : List α} {r : List β} (h : l.mapM f = some r) :
    r.length = l.length ∧ ∀ (k : Nat) (a : α), l[k]? = some a → ∃ b, r[k]? = some b ∧ f a = some b := by
  induction l generalizing r with
  | nil => simp at h; subst h; simp
  | cons a l ih =>
    simp only [List.mapM_cons, Option.bind_eq_bind, Option.bind_eq_some_iff, Option.pure_def, Option.some.injEq] at h
    obtain ⟨b, hb, r', hr, rfl⟩ := h
    obtain ⟨h1, h2⟩ := ih hr
    refine ⟨by simp [h1], fun k a' hk => ?_⟩
    cases k with
    | zero => simp only [List.getElem?_cons_zero, Option.some.injEq] at hk; subst hk; exact ⟨b, by simp, hb⟩
    | succ k => simpa using h2 k a' (by simpa using hk)

/-- The database: entry zero is `true`, every other entry is derived along an edge from earlier entries for its sources. -/
structure DbInv (E : SpEnv T) (db : List (DbEntry T)) : Prop where
  head : db[0]? = some ⟨.tt, .tru, none, []⟩
  entry : ∀ (i : Nat) (d : DbEntry T), 0 < i → db[i]? = some d → ∃ e ∈ E.G, d.edge = some e.id ∧ d.node = e.tgt ∧
    d.premises.length = e.src.length ∧
    ∀ (k p : Nat) (s : Pred), d.premises[k]? = some p → e.src[k]? = some s → p < i ∧ ∃ d', db[p]? = some d' ∧ d'.node = s

theorem dbFind_some {db : List (DbEntry T)} {c : Fla T} {v : Pred} {i : Nat} (h : dbFind db c v = some i) :
    ∃ d, db[i]? = some d ∧ d.node = v ∧ d.fact = c := by
  unfold dbFind at h
  rw [List.findIdx?_eq_some_iff_getElem] at h
  obtain ⟨hi, hp, _⟩ := h
  simp only [decide_eq_true_eq] at hp
  exact ⟨db[i], by simp [hi], hp.1, hp.2⟩

theorem DbInv.pos {db : List (DbEntry T)} (h : DbInv E db) : 0 < db.length := by
  have := h.head
  cases db with
  | nil => simp at this
  | cons a l => simp

theorem DbInv.append {db : List (DbEntry T)} (h : DbInv E db) {d : DbEntry T} {e : Edge T} (he : e ∈ E.G)
    (h1 : d.edge = some e.id) (h2 : d.node = e.tgt) (h3 : d.premises.length = e.src.length)
    (h4 : ∀ (k p : Nat) (s : Pred), d.premises[k]? = some p → e.src[k]? = some s → ∃ d', db[p]? = some d' ∧ d'.node = s) :
    DbInv E (db ++ [d]) := by
  have hpos := h.pos
  have old : ∀ (i : Nat) (x : DbEntry T), db[i]? = some x → (db ++ [d])[i]? = some x := by
    intro i x hx
    rw [List.getElem?_append_left (List.getElem?_lt hx)]; exact hx
  refine ⟨old _ _ h.head, fun i x hi hx => ?_⟩
  by_cases hil : i < db.length
  · rw [List.getElem?_append_left hil] at hx
    obtain ⟨e', a1, a2, a3, a4, a5⟩ := h.entry i x hi hx
    refine ⟨e', a1, a2, a3, a4, fun k p s hp hs => ?_⟩
    obtain ⟨b1, d', b2, b3⟩ := a5 k p s hp hs
    exact ⟨b1, d', old _ _ b2, b3⟩
  · rw [List.getElem?_append_right (by omega)] at hx
    have : i = db.length := by
      have := List.getElem?_lt hx
      simp at this; omega
    subst this
    simp at hx
    subst hx
    refine ⟨e, he, h1, h2, h3, fun k p s hp hs => ?_⟩
    obtain ⟨d', b2, b3⟩ := h4 k p s hp hs
    exact ⟨List.getElem?_lt b2, d', old _ _ b2, b3⟩

theorem logFact_db {st st' : SpState T} (h : DbInv E st.db) {c : Fla T} {v : Pred} {b : Nat} {e : Edge T} {ρ : Valuation T}
    (he : e ∈ E.G) (ht : e.tgt = v) (hl : E.logFact st c v b e ρ = some st') :
    DbInv E st'.db ∧ ∃ ps, st'.db = st.db ++ [⟨c, v, some e.id, ps⟩] := by
  unfold SpEnv.logFact at hl
  simp only [Option.bind_eq_bind, Option.bind_eq_some_iff, Option.pure_def, Option.some.injEq] at hl
  obtain ⟨ps, hps, rfl⟩ := hl
  obtain ⟨m1, m2⟩ := mapM_get hps
  refine ⟨h.append he rfl ht.symm (by simp [m1, instances_length]) ?_, ps, rfl⟩
  intro k p s hp hs
  have : ∃ q, (instances e.src)[k]? = some q ∧ q.1 = s := by
    rw [← instances_fst e.src, List.getElem?_map, Option.map_eq_some_iff] at hs
    exact hs
  obtain ⟨q, hq, rfl⟩ := this
  obtain ⟨b', hb, hpr⟩ := m2 k q hq
  simp only at hp
  rw [hp] at hb
  cases hb
  unfold SpEnv.premise at hpr
  simp only [Option.bind_eq_bind, Option.bind_eq_some_iff] at hpr
  obtain ⟨c', _, hf⟩ := hpr
  obtain ⟨d, hd, hn, _⟩ := dbFind_some hf
  exact ⟨d, hd, hn⟩

theorem checkMust_db {st st' : SpState T} (h : DbInv E st.db) {pob : Pob T} (hc : E.checkMust st pob = .done (some st')) :
    DbInv E st'.db := by
  unfold SpEnv.checkMust at hc
  simp only at hc
  split at hc
  · split at hc
    · simp only [Outcome.done.injEq, Option.some.injEq] at hc
      subst hc
      exact h
    · rename_i e hfind
      have he' : e ∈ E.G ∧ e.tgt = pob.vertex := by
        simpa [Graph.inEdges] using List.mem_of_find?_eq_some hfind
      split at hc
      · rename_i st1 hu
        simp only [Outcome.done.injEq, Option.some.injEq] at hc
        subst hc
        unfold SpEnv.useEdge at hu
        simp only [Option.bind_eq_bind, Option.bind_eq_some_iff] at hu
        obtain ⟨p, _, hu⟩ := hu
        split at hu
        · exact (logFact_db (st := st.addMust pob.vertex pob.bound (p.rename tgtToBase)) h he'.1 he'.2 hu).1
        · simp only [Option.some.injEq] at hu
          subst hu
          exact h
      · simp at hc
  · simp at hc

theorem block_db {st st' : SpState T} {pob : Pob T} (hr : E.block st pob = some st') : st'.db = st.db ∧ st'.under = st.under := by
  unfold SpEnv.block at hr
  simp only at hr
  split at hr
  · simp only [Option.some.injEq] at hr
    subst hr
    split <;> exact ⟨rfl, rfl⟩
  · simp at hr

theorem boundLoop_db {cur fuel : Nat} {q : List (Pob T)} {st st' : SpState T} {ans : Bool} (h : DbInv E st.db)
    (hr : E.boundLoop cur fuel q st = .done (ans, st')) : DbInv E st'.db := by
  induction fuel generalizing q st with
  | zero => simp [SpEnv.boundLoop] at hr
  | succ n ih =>
    simp only [SpEnv.boundLoop] at hr
    split at hr
    · simp only [Outcome.done.injEq, Prod.mk.injEq] at hr
      obtain ⟨rfl, rfl⟩ := hr
      exact h
    · split at hr
      · simp only [Outcome.done.injEq, Prod.mk.injEq] at hr
        obtain ⟨rfl, rfl⟩ := hr
        exact h
      · split at hr
        · simp at hr
        · split at hr
          · simp at hr
          · simp at hr
          · rename_i st1 hm
            split at hr
            · simp only [Outcome.done.injEq, Prod.mk.injEq] at hr
              obtain ⟨rfl, rfl⟩ := hr
              exact checkMust_db h hm
            · exact ih (checkMust_db h hm) hr
          · split at hr
            · simp at hr
            · simp at hr
            · split at hr
              · rename_i hb
                exact ih (by rw [(block_db hb).1]; exact h) hr
              · simp at hr
            · exact ih h hr

/-! ### Reconstruction -/

theorem premiseInstances_spec (hE : E.WF) {db : List (DbEntry T)} (h : DbInv E db) {i : Nat} {d : DbEntry T} (hi : 0 < i)
    (hd : db[i]? = some d) {inst : Fact T}
    (hinst : d.node ≠ .fls → inst.1 = d.node ∧ inst.2.length = (E.R.args d.node).length) {prems : List (Fact T)}
    (hp : E.premiseInstances db d inst = some prems) :
    ∃ e ∈ E.G, d.edge = some e.id ∧ e.tgt = d.node ∧ e.Fires E.R prems (recFact d inst) ∧
      prems.length = d.premises.length ∧ d.premises ≠ [] ∧
      ∀ (k p : Nat) (f : Fact T), d.premises[k]? = some p → prems[k]? = some f → p < i ∧
        ∃ d', db[p]? = some d' ∧ f.1 = d'.node ∧ f.2.length = (E.R.args d'.node).length ∧ d'.node ∈ e.src := by
  obtain ⟨e, he, a1, a2, a3, a4⟩ := h.entry i d hi hd
  unfold SpEnv.premiseInstances at hp
  simp only [Option.bind_eq_bind, a1, Option.bind_some, Graph.find_of_mem hE.ids he, Option.bind_eq_some_iff] at hp
  obtain ⟨ps, hps, hp⟩ := hp
  obtain ⟨m1, m2⟩ := mapM_get hps
  split at hp
  swap
  · simp at hp
  rename_i hs
  simp only [Option.some.injEq] at hp
  have hmod := hE.smt.sat _ hs
  generalize E.S.model (List.map (fun q => q.1.fact.rename (toSrc q.2.2)) (ps.zip (instances e.src)) ++
    [recLabel E.R e inst]) = ρ at hp hmod
  have hlabel := hmod (recLabel E.R e inst) (by simp)
  unfold recLabel at hlabel
  have hlen : ps.length = (instances e.src).length := by rw [m1, a3, instances_length]
  -- the nodes of the premises are the sources of the edge
  have hnode : ∀ (k : Nat) (x : DbEntry T) (q : Pred × Nat), ps[k]? = some x → (instances e.src)[k]? = some q → x.node = q.1 := by
    intro k x q hx hq
    have hk : k < d.premises.length := by rw [← m1]; exact List.getElem?_lt hx
    obtain ⟨b, hb, hdb⟩ := m2 k _ (List.getElem?_eq_getElem hk)
    rw [hx] at hb; cases hb
    have hsrc : e.src[k]? = some q.1 := by rw [← instances_fst e.src, List.getElem?_map, hq]; rfl
    obtain ⟨_, d', hd', hn⟩ := a4 k _ q.1 (List.getElem?_eq_getElem hk) hsrc
    rw [hd'] at hdb; cases hdb
    exact hn
  -- the instances are the source facts under the model
  have hsrcs : prems = (instances e.src).map fun q => (q.1, (E.R.srcVars q.1 q.2).map ρ) := by
    rw [← hp]
    apply List.ext_getElem?
    intro k
    rw [List.getElem?_map, List.getElem?_map, List.zip, List.getElem?_zipWith]
    rcases hk : (instances e.src)[k]? with _ | q
    · have : ps[k]? = none := by rw [List.getElem?_eq_none_iff] at hk ⊢; omega
      simp [this]
    · have : ∃ x, ps[k]? = some x := ⟨ps[k]'(by have := List.getElem?_lt hk; omega), by simp⟩
      obtain ⟨x, hx⟩ := this
      simp [hx, hnode k x q hx hk]
  refine ⟨e, he, a1, a2.symm, ?_, ?_, ?_, ?_⟩
  · by_cases hf : e.tgt = .fls
    · rw [if_neg (by simpa using hf)] at hlabel
      refine ⟨ρ, hlabel, hsrcs, ?_⟩
      have hnil : E.R.tgtVars .fls = [] := by simp [PRepr.tgtVars, hE.repr.fls]
      simp [recFact, a2, hf, Edge.tgtFact, hnil, falseFact]
    · rw [if_pos hf] at hlabel
      rw [varSubstitute_holds] at hlabel
      have hdn : d.node ≠ .fls := by rw [a2]; exact hf
      obtain ⟨i1, i2⟩ := hinst hdn
      refine ⟨_, hlabel, ?_, ?_⟩
      · rw [hsrcs]
        simp only [Edge.srcFacts]
        refine List.map_congr_left fun q hq => ?_
        simp only [Prod.mk.injEq, true_and]
        refine List.map_congr_left fun x hx => ?_
        obtain ⟨n, _, rfl⟩ := E.R.mem_srcVars.1 hx
        have hsk := fn_zip_skip' (xs := E.R.tgtVars e.tgt) (ts := inst.2.map Tm.const) (x := .src n q.2) (T := T)
          (fun hm => by obtain ⟨_, _, e'⟩ := E.R.mem_tgtVars.1 hm; cases e') []
        rw [List.append_nil] at hsk
        rw [hsk]
        rfl
      · have hz := map_fn_zip' (xs := E.R.tgtVars e.tgt) (ts := inst.2.map Tm.const) (E.R.tgtVars_nodup hE.repr e.tgt)
          (by simp [PRepr.tgtVars, i2, a2]) ρ []
        rw [List.append_nil] at hz
        simp only [recFact, hdn, if_false, Edge.tgtFact]
        refine Prod.ext (by simpa using i1.trans a2) ?_
        simp only
        rw [hz]
        simp [List.map_map, Function.comp_def, Tm.eval]
  · rw [hsrcs]; simp [a3, instances_length]
  · intro h0
    rw [h0] at a3
    exact hE.srcNe e he (List.length_eq_zero_iff.1 a3.symm)
  · intro k p f hk hf
    rw [hsrcs, List.getElem?_map, Option.map_eq_some_iff] at hf
    obtain ⟨q, hq, rfl⟩ := hf
    have hsrc : e.src[k]? = some q.1 := by rw [← instances_fst e.src, List.getElem?_map, hq]; rfl
    obtain ⟨b1, d', hd', hn⟩ := a4 k p q.1 hk hsrc
    exact ⟨b1, d', hd', hn.symm, by simp [PRepr.srcVars, hn], by rw [hn]; exact List.mem_of_getElem? hsrc⟩

theorem stepOf_some {ds : List (DStep T)} {f : Fact T} {j : Nat} (h : stepOf ds f = some j) :
    ∃ d, ds[j]? = some d ∧ d.fact = f := by
  unfold stepOf at h
  rw [List.findIdx?_eq_some_iff_getElem] at h
  obtain ⟨hi, hp, _⟩ := h
  simp only [decide_eq_true_eq] at hp
  exact ⟨ds[j], by simp [hi], hp⟩

theorem stepOf_none {ds : List (DStep T)} {f : Fact T} (h : stepOf ds f = none) : ∀ d ∈ ds, d.fact ≠ f := by
  unfold stepOf at h
  rw [List.findIdx?_eq_none_iff] at h
  intro d hd
  simpa using h d hd

theorem premFacts_stepOf {ds ds' : List (DStep T)} (hpre : ∀ (j : Nat) d, ds[j]? = some d → ds'[j]? = some d)
    {fs : List (Fact T)} (h : ∀ f ∈ fs, (stepOf ds f).isSome) : premFacts ds' (fs.filterMap (stepOf ds)) = fs := by
  induction fs with
  | nil => rfl
  | cons f fs ih =>
    obtain ⟨j, hj⟩ := Option.isSome_iff_exists.1 (h f (by simp))
    obtain ⟨d, hd, hf⟩ := stepOf_some hj
    have hd' := hpre j d hd
    rw [List.filterMap_cons_some hj]
    unfold premFacts at ih ⊢
    rw [List.filterMap_cons_some (b := f) (by rw [hd']; simp [hf])]
    rw [ih fun g hg => h g (by simp [hg])]

/-- The steps so far. -/
structure DsInv (E : SpEnv T) (ds : List (DStep T)) : Prop where
  first : ds ≠ [] → ∃ d, ds.head? = some d ∧ d.fact = trueFact ∧ d.clauseId = none
  steps : ∀ (i : Nat) (d : DStep T), 0 < i → ds[i]? = some d → StepOK E.R E.G ds i d

theorem StepOK.append {R : PRepr} {G : Graph T} {ds : List (DStep T)} {i : Nat} {d x : DStep T} (hi : i < ds.length)
    (h : StepOK R G ds i d) : StepOK R G (ds ++ [x]) i d := by
  obtain ⟨h1, e, he, h2, h3⟩ := h
  refine ⟨h1, e, he, h2, ?_⟩
  have : premFacts (ds ++ [x]) d.premises = premFacts ds d.premises := by
    unfold premFacts
    refine List.filterMap_congr fun j hj => ?_
    rw [List.getElem?_append_left (by have := h1 j hj; omega)]
  rw [this]; exact h3

/-- An entry on the stack. `root` is the entry of the exit. -/
structure EntryOk (E : SpEnv T) (db : List (DbEntry T)) (en : RecEntry T) (d : DbEntry T) : Prop where
  get : db[en.id]? = some d
  inst : d.node ≠ .fls → en.inst.1 = d.node ∧ en.inst.2.length = (E.R.args d.node).length
  prems : en.prems ≠ [] → 0 < en.id ∧ E.premiseInstances db d en.inst = some en.prems

/-- Processing an entry whose premises have all been derived. -/
theorem rec_step (hE : E.WF) {db : List (DbEntry T)} (h : DbInv E db) {ds : List (DStep T)} (hds : DsInv E ds)
    {en : RecEntry T} {d : DbEntry T} (hen : EntryOk E db en d) {prems : List (Fact T)} (hp : E.getPrems db d en = some prems)
    (hm : ((d.premises.zip prems).filter fun p => (stepOf ds p.2).isNone).isEmpty = true)
    (hnew : en.id = 0 → stepOf ds en.inst = none) :
    DsInv E (ds ++ [⟨prems.filterMap (stepOf ds), recFact d en.inst, d.edge⟩]) := by
  have hall : d.premises.length = prems.length → ∀ f ∈ prems, (stepOf ds f).isSome := by
    intro hlen f hf
    obtain ⟨k, hk⟩ := List.getElem?_of_mem hf
    have hkl := List.getElem?_lt hk
    have hmem : (d.premises[k]'(by omega), f) ∈ d.premises.zip prems := by
      rw [List.mem_iff_getElem?]
      exact ⟨k, by rw [List.getElem?_zip_eq_some]; exact ⟨by simp, hk⟩⟩
    rw [List.isEmpty_iff, List.filter_eq_nil_iff] at hm
    have := hm _ hmem
    simp only [Option.isNone_iff_eq_none] at this
    exact Option.isSome_iff_ne_none.2 this
  -- entry zero is the initial step
  by_cases h0 : en.id = 0
  · have hd0 : d = ⟨.tt, .tru, none, []⟩ := by
      have := hen.get
      rw [h0, h.head] at this
      simpa using this.symm
    have hit : en.inst = trueFact := by
      obtain ⟨a, b⟩ := hen.inst (by rw [hd0]; simp)
      rw [hd0] at a b
      simp only [hE.repr.tru, List.length_nil, List.length_eq_zero_iff] at a b
      exact Prod.ext a b
    have hnil : ds = [] := by
      refine Classical.byContradiction fun hne => ?_
      obtain ⟨x, hx, hxf, _⟩ := hds.first hne
      refine stepOf_none (hnew h0) x (List.mem_of_mem_head? hx) ?_
      rw [hxf, hit]
    subst hnil
    refine ⟨fun _ => ⟨_, rfl, ?_, ?_⟩, fun i x hi hx => ?_⟩
    · simp [recFact, hd0, hit]
    · simp [hd0]
    · have := List.getElem?_lt hx
      simp at this; omega
  · have hpos : 0 < en.id := by omega
    have hpi : E.premiseInstances db d en.inst = some prems := by
      unfold SpEnv.getPrems at hp
      split at hp
      · exact hp
      · rename_i hcond
        simp only [Option.some.injEq] at hp
        subst hp
        obtain ⟨e, he, _, _, a3, _⟩ := h.entry en.id d hpos hen.get
        have : d.premises ≠ [] := by
          intro hz
          rw [hz] at a3
          exact hE.srcNe e he (List.length_eq_zero_iff.1 a3.symm)
        exact (hen.prems (fun hz => hcond ⟨this, hz⟩)).2
    obtain ⟨e, he, b1, b2, b3, b4, b5, b6⟩ := premiseInstances_spec hE h hpos hen.get hen.inst hpi
    have hsome := hall b4.symm
    have hdsne : ds ≠ [] := by
      intro hz
      subst hz
      cases prems with
      | nil => simp at b4; exact b5 (List.length_eq_zero_iff.1 b4.symm)
      | cons f fs => have := hsome f (by simp); simp [stepOf] at this
    refine ⟨fun _ => ?_, fun i x hi hx => ?_⟩
    · obtain ⟨x, hx, hx'⟩ := hds.first hdsne
      exact ⟨x, by rw [List.head?_append, hx]; rfl, hx'⟩
    · by_cases hil : i < ds.length
      · rw [List.getElem?_append_left hil] at hx
        exact (hds.steps i x hi hx).append hil
      · rw [List.getElem?_append_right (by omega)] at hx
        have hi' : i = ds.length := by
          have := List.getElem?_lt hx
          simp at this; omega
        subst hi'
        simp at hx
        subst hx
        refine ⟨?_, e, he, b1, ?_⟩
        · intro j hj
          simp only [List.mem_filterMap] at hj
          obtain ⟨f, _, hf⟩ := hj
          obtain ⟨x, hx, _⟩ := stepOf_some hf
          exact List.getElem?_lt hx
        · rw [premFacts_stepOf (ds := ds) (fun j x hx => by rw [List.getElem?_append_left (List.getElem?_lt hx)]; exact hx) hsome]
          exact b3

/-- What is known of the entries above the root: they are premises of some edge. -/
structure InnerOk (E : SpEnv T) (db : List (DbEntry T)) (en : RecEntry T) : Prop where
  ok : ∃ d, EntryOk E db en d ∧ ∃ e ∈ E.G, d.node ∈ e.src

/-- The facts of the steps: pairwise different, of source vertices. -/
structure FactsInv (E : SpEnv T) (ds : List (DStep T)) : Prop where
  nodup : (ds.map DStep.fact).Nodup
  src : ∀ d ∈ ds, ∃ e ∈ E.G, d.fact.1 ∈ e.src

theorem recLoop_ok (hE : E.WF) (hG : E.G.Ends) {db : List (DbEntry T)} (h : DbInv E db) {root : Nat} {rd : DbEntry T}
    (hroot : db[root]? = some rd) (hrd : rd.node = .fls) {fuel : Nat} {pre : List (RecEntry T)} {r : RecEntry T}
    {ds ds' : List (DStep T)} (hds : DsInv E ds) (hfs : FactsInv E ds) (hpre : ∀ en ∈ pre, InnerOk E db en) (hr : EntryOk E db r rd)
    (hrid : r.id = root) (hrun : E.recLoop db root fuel (pre ++ [r]) ds = .done ds') :
    UnsafeWitness E.R E.G ds' ∧ ∃ ds0 d, ds' = ds0 ++ [d] ∧ FactsInv E ds0 := by
  have hr0 : root ≠ 0 := by
    intro h0
    rw [h0, h.head] at hroot
    cases hroot
    simp at hrd
  induction fuel generalizing pre r ds with
  | zero => simp [SpEnv.recLoop] at hrun
  | succ n ih =>
    -- the entry on top of the stack
    cases pre with
    | nil =>
      simp only [List.nil_append, SpEnv.recLoop] at hrun
      rw [if_neg (by simp [hrid])] at hrun
      rw [hrid, hroot] at hrun
      simp only at hrun
      split at hrun
      · simp at hrun
      rename_i prems hp
      split at hrun
      · rename_i hm
        have hstep := rec_step hE h hds hr hp hm (fun h0 => absurd (hrid ▸ h0) hr0)
        cases n with
        | zero => simp [SpEnv.recLoop] at hrun
        | succ n =>
          simp only [SpEnv.recLoop, Outcome.done.injEq] at hrun
          subst hrun
          refine ⟨⟨hstep.first (by simp), ⟨_, List.getLast?_concat, ?_⟩, hstep.steps⟩, ds, _, rfl, hfs⟩
          simp [recFact, hrd]
      · rename_i hm
        obtain ⟨e, he, c1, c2, c3, c4, c5, c6⟩ : ∃ e ∈ E.G, rd.edge = some e.id ∧ e.tgt = rd.node ∧
            e.Fires E.R prems (recFact rd r.inst) ∧ prems.length = rd.premises.length ∧ rd.premises ≠ [] ∧
            ∀ (k p : Nat) (f : Fact T), rd.premises[k]? = some p → prems[k]? = some f → p < root ∧
              ∃ d', db[p]? = some d' ∧ f.1 = d'.node ∧ f.2.length = (E.R.args d'.node).length ∧ d'.node ∈ e.src := by
          refine premiseInstances_spec hE h (by omega) hroot (inst := r.inst) (fun hn => absurd hrd hn) ?_
          unfold SpEnv.getPrems at hp
          split at hp
          · exact hp
          · rename_i hcond
            simp only [Option.some.injEq] at hp
            subst hp
            refine (hr.prems fun hz => hm ?_).2
            simp [hz]
        have hpi : E.premiseInstances db rd r.inst = some prems := by
          unfold SpEnv.getPrems at hp
          split at hp
          · exact hp
          · rename_i hcond
            simp only [Option.some.injEq] at hp
            subst hp
            refine (hr.prems fun hz => hm ?_).2
            simp [hz]
        refine ih (r := ⟨root, r.inst, prems⟩) hds hfs ?_ ⟨hroot, fun hn => absurd hrd hn, fun _ => ⟨by simp only; omega, hpi⟩⟩ rfl hrun
        intro en hen
        rw [List.mem_reverse, List.mem_map] at hen
        obtain ⟨⟨p, f⟩, hpf, rfl⟩ := hen
        obtain ⟨hz, _⟩ := List.mem_filter.1 hpf
        obtain ⟨k, hk⟩ := List.getElem?_of_mem hz
        rw [List.getElem?_zip_eq_some] at hk
        obtain ⟨_, d', e1, e2, e3, e4⟩ := c6 k p f hk.1 hk.2
        exact ⟨d', ⟨e1, fun _ => ⟨e2, e3⟩, by simp⟩, e, he, e4⟩
    | cons en pre =>
      obtain ⟨d, hen, e0, he0, hsrc0⟩ := (hpre en (by simp)).ok
      have hpre' : ∀ x ∈ pre, InnerOk E db x := fun x hx => hpre x (by simp [hx])
      have hnf : d.node ≠ .fls := fun hf => (hG e0 he0).2 (hf ▸ hsrc0)
      have hidr : en.id ≠ root := by
        intro heq
        have := hen.get
        rw [heq, hroot] at this
        cases this
        exact hnf hrd
      simp only [List.cons_append, SpEnv.recLoop] at hrun
      split at hrun
      · exact ih hds hfs hpre' hr hrid hrun
      · rename_i hcond
        have hnone : stepOf ds en.inst = none := by
          cases hc : stepOf ds en.inst with
          | none => rfl
          | some j => exact absurd ⟨hidr, by simp [hc]⟩ hcond
        rw [hen.get] at hrun
        simp only at hrun
        split at hrun
        · simp at hrun
        rename_i prems hp
        split at hrun
        · rename_i hm
          have hstep := rec_step hE h hds hen hp hm (fun _ => hnone)
          refine ih hstep ?_ hpre' hr hrid hrun
          have hfact : recFact d en.inst = en.inst := by simp [recFact, hnf]
          rw [hfact]
          refine ⟨?_, ?_⟩
          · rw [List.map_append, List.nodup_append]
            refine ⟨hfs.nodup, by simp, ?_⟩
            intro a ha b hb hab
            subst hab
            simp only [List.map_cons, List.map_nil, List.mem_singleton] at hb
            subst hb
            obtain ⟨x, hx, hxf⟩ := List.mem_map.1 ha
            exact stepOf_none hnone x hx hxf
          · intro x hx
            rcases List.mem_append.1 hx with hx | hx
            · exact hfs.src x hx
            · rw [List.mem_singleton] at hx
              subst hx
              exact ⟨e0, he0, by simp only; rw [(hen.inst hnf).1]; exact hsrc0⟩
        · rename_i hm
          have hpne : prems ≠ [] := by
            intro hz; subst hz; simp at hm
          have hpos : 0 < en.id := by
            rcases Nat.eq_zero_or_pos en.id with h0 | h0
            · exfalso
              have hd0 : d = ⟨.tt, .tru, none, []⟩ := by
                have := hen.get
                rw [h0, h.head] at this
                simpa using this.symm
              rw [hd0] at hm
              simp at hm
            · exact h0
          have hpi : E.premiseInstances db d en.inst = some prems := by
            unfold SpEnv.getPrems at hp
            split at hp
            · exact hp
            · simp only [Option.some.injEq] at hp
              subst hp
              exact (hen.prems hpne).2
          obtain ⟨e, he, c1, c2, c3, c4, c5, c6⟩ := premiseInstances_spec hE h hpos hen.get hen.inst hpi
          have := ih (pre := (((d.premises.zip prems).filter fun p => (stepOf ds p.2).isNone).map
              fun p => (⟨p.1, p.2, []⟩ : RecEntry T)).reverse ++ ⟨en.id, en.inst, prems⟩ :: pre) (r := r) hds hfs ?_ hr hrid
            (by simpa using hrun)
          · exact this
          · intro x hx
            rcases List.mem_append.1 hx with hx | hx
            · rw [List.mem_reverse, List.mem_map] at hx
              obtain ⟨⟨p, f⟩, hpf, rfl⟩ := hx
              obtain ⟨hz, _⟩ := List.mem_filter.1 hpf
              obtain ⟨k, hk⟩ := List.getElem?_of_mem hz
              rw [List.getElem?_zip_eq_some] at hk
              obtain ⟨_, d', e1, e2, e3, e4⟩ := c6 k p f hk.1 hk.2
              exact ⟨d', ⟨e1, fun _ => ⟨e2, e3⟩, by simp⟩, e, he, e4⟩
            · rcases List.mem_cons.1 hx with rfl | hx
              · exact ⟨d, ⟨hen.get, hen.inst, fun _ => ⟨hpos, hpi⟩⟩, e0, he0, hsrc0⟩
              · exact hpre' x hx

/-- The reconstructed witness. -/
theorem reconstruct_ok (hE : E.WF) (hG : E.G.Ends) {db : List (DbEntry T)} (h : DbInv E db) {fuel : Nat}
    {ds : List (DStep T)} (hr : E.reconstruct db fuel = .done ds) (hne : ds ≠ []) :
    UnsafeWitness E.R E.G ds ∧ ShortFor E.G ds := by
  unfold SpEnv.reconstruct at hr
  split at hr
  · split at hr
    · simp at hr
    · rename_i root hroot
      obtain ⟨rd, h1, h2, _⟩ := dbFind_some hroot
      obtain ⟨hw, ds0, d, rfl, hf⟩ := recLoop_ok hE hG h h1 h2 (pre := []) (r := ⟨root, trueFact, []⟩) (ds := [])
        ⟨by simp, by simp⟩ ⟨by simp, by simp⟩ (by simp) ⟨h1, fun hn => absurd h2 hn, by simp⟩ rfl hr
      refine ⟨hw, fun hshort => ?_⟩
      -- all facts but the last are `true`
      have htrue : ∀ x ∈ ds0, x.fact.1 = .tru := by
        intro x hx
        obtain ⟨e, he, hs⟩ := hf.src x hx
        rw [(hshort e he).1] at hs
        simpa using hs
      have hfirst := hw.first
      have hlast := hw.last
      cases ds0 with
      | nil =>
        exfalso
        obtain ⟨a, ha, hat, _⟩ := hfirst
        obtain ⟨b, hb, hbf⟩ := hlast
        simp at ha hb
        subst ha
        subst hb
        rw [hat] at hbf
        simp [trueFact, falseFact] at hbf
      | cons x ds0 =>
        cases ds0 with
        | nil => rfl
        | cons y ds0 =>
          exfalso
          have hnd := hf.nodup
          simp only [List.map_cons, List.nodup_cons, List.mem_cons, not_or] at hnd
          -- facts derived at the entry have no arguments
          have harg : ∀ (i : Nat) (z : DStep T), (x :: y :: ds0 ++ [d])[i]? = some z → z.fact.1 = .tru → z.fact = trueFact := by
            intro i z hz hzt
            rcases Nat.eq_zero_or_pos i with h0 | h0
            · subst h0
              obtain ⟨a, ha, hat, _⟩ := hfirst
              simp at ha hz
              subst ha
              subst hz
              exact hat
            · obtain ⟨_, e, he, _, hfire⟩ := hw.steps i z h0 hz
              have := hfire.tgt
              rw [hzt, (hshort e he).2] at this
              simp at this
          refine hnd.1.1 ?_
          rw [harg 0 x (by simp) (htrue x (by simp)), harg 1 y (by simp) (htrue y (by simp))]
  · simp only [Outcome.done.injEq] at hr
    exact absurd hr.symm hne

end Golem
