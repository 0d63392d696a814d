import Verif.Model.Engines.TPANetwork

/-!
LoopContraction of nested loops: `NestedLoopTransformation` (`src/transformers/NestedLoopTransformation.cc`) and its use in
`TPAEngine::solve` (`src/engine/TPA.cc:62-70`).
-/

namespace Golem
variable {T : Theory}

/-- `ContractionData` (`src/graph/ChcGraph.h`): the new vertex and the vertices it replaces. The location and argument variables are
determined by the latter (`locName`, `argNames`). -/
structure LoopContraction where
  vertex : Pred
  vs : List Pred
deriving DecidableEq

/-- The result of `NestedLoopTransformation::transform`: the predicate representations, the graph, the contractions in order. -/
structure Nested (T : Theory) where
  R : PRepr
  G : LGraph T
  loops : List LoopContraction

/-- The `while` loop of `NestedLoopTransformation::transform` (`src/transformers/NestedLoopTransformation.cc:34-42`), with
`getVerticesFromLoop` (lines 17-28). `names k` is the symbol declared by the `k`-th contraction; the C++ code concatenates the names of
the contracted vertices (`src/graph/ChcGraph.cc:647-666`). -/
def nestedContract (names : Nat → Pred) : Nat → Nat → PRepr → LGraph T → Option (Nested T)
  | 0, _, _, _ => none
  | fuel + 1, k, R, G =>
    match detectLoop G with
    | none => none
    | some l =>
      if 1 < l.length then
        let vs := l.map LEdge.src
        (nestedContract names fuel (k + 1) (R.contract (names k) vs) (contractVertices R (names k) vs G)).map fun x =>
          { x with loops := ⟨names k, vs⟩ :: x.loops }
      else some ⟨R, G, []⟩

/-- `NestedLoopTransformation::transform` (`src/transformers/NestedLoopTransformation.cc:30-45`). Every contraction lowers the number of
vertices, so the fuel suffices. -/
def nestedTransform (names : Nat → Pred) (R : PRepr) (G : LGraph T) : Option (Nested T) :=
  nestedContract names ((getVertices G).length + 1) 0 R G

/-! ### Back-translation of error paths -/

/-- The labels asserted to compute the model (`src/transformers/NestedLoopTransformation.cc:74-84`); the list starts with the edge of
`errorPath[i]`. -/
def nestedQuery : Nat → List (LEdge T) → List (Fla T)
  | _, [] => []
  | i, e :: es => sendFla e.fla i :: nestedQuery (i + 1) es

/-- The vertex of the initial graph for the target of `errorPath[i]` (`src/transformers/NestedLoopTransformation.cc:86-104`). No vertex
with a true location: the code dereferences the end iterator (an assertion, compiled out); here, as for an unknown edge, `none`. -/
def nestedVertex (loops : List LoopContraction) (G : LGraph T) (m : Valuation T) (i : Nat) (e : LEdge T) : Option Pred :=
  match loops.find? fun c => decide (c.vertex = e.tgt) with
  | some c => (getVertices G).find? fun v => decide (v ∈ c.vs) && T.truth (m (.ver (locName v) (i + 1)))
  | none => (G.find e.id).map LEdge.tgt

/-- `pathVertices` without the entry. -/
def nestedVertices (loops : List LoopContraction) (G : LGraph T) (m : Valuation T) : Nat → List (LEdge T) → Option (List Pred)
  | _, [] => some []
  | i, e :: es => do
    let v ← nestedVertex loops G m i e
    let vs ← nestedVertices loops G m (i + 1) es
    return v :: vs

/-- Edges between consecutive vertices (`src/transformers/NestedLoopTransformation.cc:106-123`): `thrown` for a missing edge (again an
end iterator is dereferenced), `done none` for `NoWitness` when edges are parallel. -/
def nestedEdges (G : LGraph T) : Pred → List Pred → Outcome (Option (List Nat))
  | _, [] => .done (some [])
  | s, t :: ts =>
    match (G.out s).filter fun e => decide (e.tgt = t) with
    | [] => .thrown
    | [e] => (nestedEdges G t ts).andThen fun r => .done (r.map (e.id :: ·))
    | _ => .done none

/-- `translateErrorPath` (`src/transformers/NestedLoopTransformation.cc:64-128`): `x` is the result of the transformation. -/
def nestedErrorPath (S : Smt T) (R : PRepr) (G : LGraph T) (x : Nested T) (ds : List (DStep T)) : Outcome (Option (List (DStep T))) :=
  match ds.tail.mapM fun d => d.clauseId.bind x.G.find with
  | none => .thrown
  | some es =>
    let q := nestedQuery 1 es
    if S.check q = .sat then
      (Outcome.orThrow (nestedVertices x.loops G (S.model q) 1 es)).andThen fun vs =>
      (nestedEdges G .tru vs).andThen fun ids =>
      match ids with
      | none => .done none
      | some ids => (fromErrorPath S R G ids).andThen fun ds => .done (some ds)
    else .thrown

/-! ### Back-translation of invariants -/

/-- The unversioned variables of the positions of `p` (`src/transformers/NestedLoopTransformation.cc:173-177`). -/
def basePositions (R : PRepr) (p : Pred) : List Var := (argNames R p).map Var.base

/-- `substitutions` when the definition of `p` is computed: the locations of all contracted vertices of the initial graph are false,
except that of `p` (`src/transformers/NestedLoopTransformation.cc:137-145, 155-157`). -/
def nestedLocSubst (locs : List Pred) (p : Pred) : SubstMap T :=
  locs.map fun q => (.base (locName q), .const (if q = p then T.vT else T.vF))

/-- The definition of a contracted vertex (`src/transformers/NestedLoopTransformation.cc:154-204`). `simp` stands for the OpenSMT
simplifications of lines 160-170, `Q` for quantifier elimination; `none` is an exception of the latter. -/
def nestedInvariant (Q : KeepOnly T) (simp : Fla T → Fla T) (R : PRepr) (locs : List Pred) (inv : Fla T) (p : Pred) : Option (Fla T) :=
  let f := simp (varSubstitute inv (nestedLocSubst locs p))
  let g := if f.vars.any fun x => decide (x ∉ basePositions R p) then (Q (.not f) (basePositions R p)).map Fla.not else some f
  g.map fun g => varSubstitute g ((basePositions R p).zip ((R.args p).map fun n => Tm.var (.base n)))

/-- The vertices of the initial graph that have a location. -/
def nestedLocs (G : LGraph T) (loops : List LoopContraction) : List Pred :=
  (getVertices G).filter fun v => decide (v ≠ .tru) && loops.any fun c => decide (v ∈ c.vs)

/-- The vertices of the initial graph replaced by one contraction. -/
def nestedOld (G : LGraph T) (c : LoopContraction) : List Pred :=
  (getVertices G).filter fun v => decide (v ≠ .tru) && decide (v ≠ .fls) && decide (v ∈ c.vs)

/-- The loop over the contractions of `translateInvariant` (`src/transformers/NestedLoopTransformation.cc:147-207`): the new definitions.
`none` is an exception: `at` on a vertex without definition, or quantifier elimination. -/
def nestedDefs (Q : KeepOnly T) (simp : Fla T → Fla T) (R : PRepr) (G : LGraph T) (locs : List Pred) (D : Defs T) :
    List LoopContraction → Option (Defs T)
  | [] => some []
  | c :: cs => do
    let inv ← D.get c.vertex
    let new ← (nestedOld G c).mapM fun p => (nestedInvariant Q simp R locs inv p).map fun f => (p, f)
    let rest ← nestedDefs Q simp R G locs D cs
    return new ++ rest

/-- `translateInvariant` (`src/transformers/NestedLoopTransformation.cc:130-209`): the definitions of the contracted vertices are erased. -/
def nestedValidity (Q : KeepOnly T) (simp : Fla T → Fla T) (R : PRepr) (G : LGraph T) (loops : List LoopContraction) (D : Defs T) :
    Option (Defs T) :=
  (nestedDefs Q simp R G (nestedLocs G loops) D loops).map fun new =>
    (D.filter fun d => !loops.any fun c => decide (c.vertex = d.1)) ++ new

/-! ### The engine -/

/-- `WitnessBackTranslator::translate` (`src/transformers/NestedLoopTransformation.cc:47-62`). `std::get` throws when the result carries
no witness of the right kind (`src/Witnesses.h:145-150`). -/
def nestedTranslate (S : Smt T) (Q : KeepOnly T) (simp : Fla T → Fla T) (R : PRepr) (G : LGraph T) (x : Nested T)
    (res : VerificationResult T) : Outcome (VerificationResult T) :=
  match res.answer with
  | .unsafeAns =>
    match res.witness with
    | .invalidity ds =>
      (nestedErrorPath S R G x ds).andThen fun r =>
      match r with
      | some ds => .done ⟨.unsafeAns, .invalidity ds⟩
      | none => .done ⟨.unsafeAns, .none⟩
    | _ => .thrown
  | .safe =>
    match res.witness with
    | .validity D =>
      match nestedValidity Q simp R G x.loops D with
      | some D => .done ⟨.safe, .validity D⟩
      | none => .thrown
    | _ => .thrown
  | .unknown => .done res

/-- The branch of `TPAEngine::solve` taken with the option SIMPLIFY_NESTED (`src/engine/TPA.cc:64-70`). -/
def nestedSolve (X : NetEnv T) (Q : KeepOnly T) (simp : Fla T → Fla T) (names : Nat → Pred) (w : Bool) (R : PRepr) (G : LGraph T) :
    Outcome (VerificationResult T) :=
  match nestedTransform names R G with
  | none => .outOfFuel
  | some x => (netSolve X x.R w x.G).andThen (nestedTranslate X.V.S Q simp R G x)

/-- `TPAEngine::solve` (`src/engine/TPA.cc:39-93`) with the option SIMPLIFY_NESTED. -/
def tpaNested (X : NetEnv T) (R : PRepr) (E : ElimExcept T) (Q : QElim T) (K : KeepOnly T) (simp : Fla T → Fla T)
    (names : Nat → Pred) (hasArrays w : Bool) (G : LGraph T) : Outcome (VerificationResult T) :=
  if isTrivial G then .done (solveTrivial X.V.S G)
  else if hasArrays then .done ⟨.unknown, .none⟩
  else if isTransitionSystem G then
    match (toTransitionSystem R E G).bind (ensureNoAux Q) with
    | none => .thrown
    | some ts => (tpaRun X ts).andThen (tpaAnswerResult X w (translateTSResult X.V.S R G ts))
  else nestedSolve X K simp names w R G

end Golem
