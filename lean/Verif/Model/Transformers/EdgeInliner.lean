import Verif.Model.Transformers.ChainSummarizer
import Verif.Model.NormalForms

/-!
`src/transformers/EdgeInliner.cc` and `inlineEdge` (`src/graph/ChcGraph.cc:500-506`).
-/

namespace Golem
variable {T : Theory}

/-- A known value of a variable: a constant, or a Boolean literal. -/
inductive Known (T : Theory) where
  | val (v : T.Val)
  | bool (b : Bool)

/-- One conjunct (`src/transformers/EdgeInliner.cc:21-37`): `x = c`, `c = x`, `x` or `not x`. -/
def knownOf : Fla T → Option (Var × Known T)
  | .eq (.const v) (.var x) => some (x, .val v)
  | .eq (.var x) (.const v) => some (x, .val v)
  | .atom (.var x) => some (x, .bool true)
  | .not (.atom (.var x)) => some (x, .bool false)
  | _ => none

/-- `computeKnownValues` (`src/transformers/EdgeInliner.cc:17-40`): a later conjunct overrides an earlier one. -/
def knownValues (f : Fla T) (xs : List Var) : List (Option (Known T)) :=
  xs.map fun x => (getTopLevelJuncts .conj f (fun _ => true)).reverse.findSome? fun c =>
    (knownOf c).bind fun p => if p.1 = x then some p.2 else none

/-- Two different values (`src/transformers/EdgeInliner.cc:75-78`, negated). A constant is never compared with a Boolean
literal, because a position has one sort. -/
def Known.clash : Option (Known T) → Option (Known T) → Bool
  | some (.val v), some (.val w) => decide (v ≠ w)
  | some (.bool b), some (.bool c) => decide (b ≠ c)
  | _, _ => false

/-- No position has two different known values (`src/transformers/EdgeInliner.cc:74-79`). -/
def compatible (as bs : List (Option (Known T))) : Bool := (as.zip bs).all fun p => !Known.clash p.1 p.2

/-- `computeFeasibleTransitions` (`src/transformers/EdgeInliner.cc:42-83`): the incoming edges of `v` that can feed the edge
`e`, whose only source is `v`. -/
def feasibleTransitions (R : PRepr) (v : Pred) (incoming : List (Edge T)) (e : Edge T) : List (Edge T) :=
  match incoming with
  | [] => []
  | [i] => if i.fla = .ff then [] else [i]
  | is => is.filter fun i => decide (i.fla ≠ .ff) &&
      compatible (knownValues e.fla (R.srcVars v 0)) (knownValues i.fla (R.tgtVars v))

/-- `EdgeInliner::BackTranslator::Entry` (`src/transformers/EdgeInliner.h:19-31`), with the predecessors at the time of
removal (a map from the id of the removed edge in the code; ids are unique). -/
inductive InlineEntry (T : Theory) where
  | deletion (e : Edge T) (preds : List (Edge T))
  | replacement (added removed pred : Edge T) (preds : List (Edge T))

/-- The body of the `for` loop of `EdgeInliner::transform` for an edge (`src/transformers/EdgeInliner.cc:92-126`). -/
def inlineOne (R : PRepr) (E : Elim T) (e : Edge T) (st : GS T) : GS T × List (InlineEntry T) :=
  match e.src with
  | [v] =>
    if v = .tru then (st, [])
    else match feasibleTransitions R v (st.edges.inEdges v) e with
      | [] => ({ st with edges := deleteEdges st.edges [e.id] }, [.deletion e (st.edges.inEdges v)])
      | [p] => match p.src with
        | [u] =>
          if u = p.tgt then (st, [])
          else
            let r := mergeEdgePair R E st p e
            ({ r.1 with edges := deleteEdges r.1.edges [e.id] }, [.replacement r.2 e p (st.edges.inEdges v)])
        | _ => (st, [])
      | _ => (st, [])
  | _ => (st, [])

/-- The `for` loop (`src/transformers/EdgeInliner.cc:91-128`) over the edges the graph had at its start. -/
def inlineRound (R : PRepr) (E : Elim T) : List (Edge T) → GS T → GS T × List (InlineEntry T)
  | [], st => (st, [])
  | e :: es, st =>
    let r := inlineOne R E e st
    let rest := inlineRound R E es r.1
    (rest.1, r.2 ++ rest.2)

/-- The `while` loop (`src/transformers/EdgeInliner.cc:87-129`); nothing bounds it. -/
def inlineLoop (R : PRepr) (E : Elim T) : Nat → GS T → Outcome (GS T × List (InlineEntry T))
  | 0, _ => .outOfFuel
  | fuel + 1, st =>
    match inlineRound R E st.edges st with
    | (st1, []) => .done (st1, [])
    | (st1, es) =>
      match inlineLoop R E fuel st1 with
      | .done (st', es') => .done (st', es ++ es')
      | r => r

/-! ### Back-translation -/

/-- `BackTranslator::translate(InvalidityWitness)` (`src/transformers/EdgeInliner.cc:133-158`), last entry first. -/
def inlineUns (S : Smt T) (R : PRepr) : List (InlineEntry T) → List (DStep T) → Outcome (List (DStep T))
  | [], ds => .done ds
  | .deletion _ _ :: es, ds => inlineUns S R es ds
  | .replacement added removed pred _ :: es, ds =>
    match inlineUns S R es ds with
    | .done ds' => replaceAllSummaries S R ([pred, removed], added) ds'.length ds'
    | r => r

/-- `getAuxiliaryVarsFor` (`src/transformers/EdgeInliner.cc:244-254`). -/
def eiVars (R : PRepr) (v : Pred) : List Var := (List.range (R.args v).length).map fun i => .base (.ei i)

def toVars (xs ys : List Var) : SubstMap T := xs.zip (ys.map Tm.var)

/-- `computeInterpolantFor` (`src/transformers/EdgeInliner.cc:256-295`). -/
def inlineItp (S : Smt T) (R : PRepr) (v : Pred) (incoming outgoing : Fla T) : Outcome (Fla T) :=
  let a := varSubstitute incoming (toVars (R.tgtVars v) (eiVars R v))
  let b := varSubstitute outgoing (toVars (R.srcVars v 0) (eiVars R v))
  if S.check [a, b] = .unsat then .done (varSubstitute (S.itp [a] [b]) (toVars (eiVars R v) (R.baseVars v))) else .thrown

/-- `definitions.at(p) = d`. -/
def Defs.set (D : Defs T) (p : Pred) (d : Fla T) : Defs T := D.map fun q => if q.1 = p then (p, d) else q

/-- A deletion (`src/transformers/EdgeInliner.cc:171-194`). -/
def inlineSafeDel (S : Smt T) (R : PRepr) (e : Edge T) (preds : List (Edge T)) (D : Defs T) : Outcome (Option (Defs T)) :=
  match e.src with
  | [v] =>
    let D1 := D.insertNew v .tt
    let r : Outcome (Defs T) :=
      if preds.isEmpty then .done (D1.set v .ff)
      else match D1.get v with
        | none => .thrown
        | some d =>
          if d = .ff then .done D1
          else match inlineItp S R v (Fla.disj (preds.map Edge.fla)) e.fla with
            | .done i => .done (D1.set v (.and d i))
            | _ => .thrown
    match r with
    | .done D2 => .done (some (D2.insertNew e.tgt .tt))
    | _ => .thrown
  | _ => .done none

/-- One disjunct of the incoming constraint of a replacement (`src/transformers/EdgeInliner.cc:211-218`). -/
def inlineIncoming (d : Fla T) (pred : Edge T) (p : Edge T) : Fla T :=
  if p.id = pred.id then .and (d.rename (toSrc 0)) pred.fla else p.fla

/-- A replacement (`src/transformers/EdgeInliner.cc:195-226`). -/
def inlineSafeRepl (S : Smt T) (R : PRepr) (removed pred : Edge T) (preds : List (Edge T)) (D : Defs T) :
    Outcome (Option (Defs T)) :=
  match pred.src, removed.src with
  | [u], [_] =>
    match D.get u, D.get pred.tgt, D.get removed.tgt with
    | some du, some dm, some dt =>
      if u = pred.tgt then .done none
      else match inlineItp S R pred.tgt (Fla.disj (preds.map (inlineIncoming du pred)))
          (.and removed.fla (.not (dt.rename toTgt))) with
        | .done i => .done (some (D.set pred.tgt (.and dm i)))
        | _ => .thrown
    | _, _, _ => .done none
  | _, _ => .done none

/-- The loop of `BackTranslator::translate(ValidityWitness)` (`src/transformers/EdgeInliner.cc:165-228`), last entry first.
`done none` is a failed `SANITY_CHECK`. -/
def inlineSafeLoop (S : Smt T) (R : PRepr) : List (InlineEntry T) → Defs T → Outcome (Option (Defs T))
  | [], D => .done (some D)
  | en :: es, D =>
    match inlineSafeLoop S R es D with
    | .done (some D1) =>
      match en with
      | .deletion e preds => inlineSafeDel S R e preds D1
      | .replacement _ removed pred preds => inlineSafeRepl S R removed pred preds D1
    | r => r

/-- `BackTranslator::translate(ValidityWitness)` (`src/transformers/EdgeInliner.cc:165-229`). -/
def inlineSafe (S : Smt T) (R : PRepr) (es : List (InlineEntry T)) (D : Defs T) : Outcome (Defs T) :=
  match inlineSafeLoop S R es D with
  | .done r => .done (r.getD [])
  | .thrown => .thrown
  | .outOfFuel => .outOfFuel

end Golem
