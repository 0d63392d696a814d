import Verif.Model.Transformers.Derivations

/-!
`src/transformers/SimpleChainSummarizer.cc`.
-/

namespace Golem
variable {T : Theory}

/-- `isTrivial` (`src/transformers/SimpleChainSummarizer.cc:18-26`), with the only incoming and the only outgoing edge. -/
def trivialEdges (G : Graph T) (v : Pred) : Option (Edge T × Edge T) :=
  match G.inEdges v, G.outEdges v with
  | [i], [o] =>
    match i.src, o.src with
    | [u], [_] => if i.id ≠ o.id ∧ u ≠ o.tgt then some (i, o) else none
    | _, _ => none
  | _, _ => none

/-- The `do` loop (`src/transformers/SimpleChainSummarizer.cc:32-40`): the edges from `current` on, and `last`. No edge is
visited twice (`chainForward_spec`), so the number of edges bounds the number of iterations. -/
def chainForward (G : Graph T) (start : Pred) : Nat → Pred → Outcome (List (Edge T) × Pred)
  | 0, _ => .outOfFuel
  | fuel + 1, current =>
    match G.outEdges current with
    | [] => .thrown
    | o :: _ =>
      if (trivialEdges G o.tgt).isSome ∧ o.tgt ≠ start then
        match chainForward G start fuel o.tgt with
        | .done (es, last) => .done (o :: es, last)
        | r => r
      else .done ([o], o.tgt)

/-- The `while` loop (`src/transformers/SimpleChainSummarizer.cc:41-51`). -/
def chainBackward (G : Graph T) (last : Pred) : Nat → Pred → List (Edge T) → Outcome (List (Edge T))
  | fuel, current, edges =>
    match trivialEdges G current with
    | none => .done edges
    | some (i, _) =>
      match fuel with
      | 0 => .outOfFuel
      | fuel + 1 =>
        let source := i.src.headD .tru
        if source = last then .done edges else chainBackward G last fuel source (i :: edges)

/-- `trivialChain` (`src/transformers/SimpleChainSummarizer.cc:31-52`). -/
def trivialChain (G : Graph T) (vertex : Pred) : Outcome (List (Edge T)) :=
  match chainForward G vertex G.length vertex with
  | .done (es, last) => chainBackward G last G.length vertex es
  | .thrown => .thrown
  | .outOfFuel => .outOfFuel

/-- A summarized chain with its summary edge (`src/transformers/SimpleChainSummarizer.h:28`). -/
abbrev Summary (T : Theory) := List (Edge T) × Edge T

/-- The loop of `SimpleChainSummarizer::transform` (`src/transformers/SimpleChainSummarizer.cc:16-61`). `getVertices` lists the
vertices in no particular order; `order` is any order. Every iteration removes an edge, so their number bounds the number of
iterations. -/
def summarizeLoop (R : PRepr) (E : Elim T) (order : Graph T → List Pred) : Nat → GS T → Outcome (GS T × List (Summary T))
  | fuel, st =>
    match (order st.edges).find? fun v => (trivialEdges st.edges v).isSome with
    | none => .done (st, [])
    | some v =>
      match fuel with
      | 0 => .outOfFuel
      | fuel + 1 =>
        match trivialChain st.edges v with
        | .done chain =>
          let r := contractTrivialChain R E st chain
          match summarizeLoop R E order fuel r.1 with
          | .done (st', ss) => .done (st', (chain, r.2) :: ss)
          | .thrown => .thrown
          | .outOfFuel => .outOfFuel
        | .thrown => .thrown
        | .outOfFuel => .outOfFuel

/-- `SimpleChainSummarizer::transform` (`src/transformers/SimpleChainSummarizer.cc:14-63`). -/
def chainSummarizer (R : PRepr) (E : Elim T) (order : Graph T → List Pred) (st : GS T) : Outcome (GS T × List (Summary T)) :=
  summarizeLoop R E order st.edges.length st

/-! ### Witnesses -/

/-- Replacing all steps that use one summary edge (`src/transformers/SimpleChainSummarizer.cc:69-78`). Every iteration
removes one such step, so the number of steps bounds the number of iterations. -/
def replaceAllSummaries (S : Smt T) (R : PRepr) (s : Summary T) : Nat → List (DStep T) → Outcome (List (DStep T))
  | fuel, ds =>
    match ds.findIdx? fun d => d.clauseId == some s.2.id with
    | none => .done ds
    | some k =>
      match fuel with
      | 0 => .outOfFuel
      | fuel + 1 =>
        match replaceSummarizingStep S R ds k s.1 s.2 with
        | .done ds' => replaceAllSummaries S R s fuel ds'
        | r => r

/-- `SimpleChainSummarizer::BackTranslator::translate(InvalidityWitness)`
(`src/transformers/SimpleChainSummarizer.cc:65-81`). -/
def chainUns (S : Smt T) (R : PRepr) : List (Summary T) → List (DStep T) → Outcome (List (DStep T))
  | [], ds => .done ds
  | s :: ss, ds =>
    match replaceAllSummaries S R s ds.length ds with
    | .done ds' => chainUns S R ss ds'
    | r => r

/-- The assertions (`src/transformers/SimpleChainSummarizer.cc:92-105`); `none` is `std::out_of_range` from `at`. -/
def chainQuery (R : PRepr) (D : Defs T) (s : Summary T) : Option (List (Fla T)) :=
  (D.get (s.2.src.headD .tru)).bind fun a => (D.get s.2.tgt).map fun b =>
    a.rename (toSrc 0) :: (s.1.map fun e => varSubstitute e.fla (tgtToSrc R e.tgt)) ++ [.not (b.rename (toSrc 0))]

/-- `sourceFormulaToBase` (`src/TermUtils.h:342`). -/
def srcToBase : Var → Var
  | .src n _ => .base n
  | x => x

/-- Inserting the interpolants (`src/transformers/SimpleChainSummarizer.cc:121-128`); `none` is a vertex that has a definition
already. -/
def insertItps : List (Pred × Fla T) → Defs T → Option (Defs T)
  | [], D => some D
  | (v, f) :: ps, D => match D.get v with
    | some _ => none
    | none => insertItps ps (D.insertNew v (f.rename srcToBase))

/-- The interpolants for the inner vertices: the `i`-th separates the first `i + 2` assertions from the rest
(`src/transformers/SimpleChainSummarizer.cc:113-120`). -/
def chainItps (S : Smt T) (chain : List (Edge T)) (q : List (Fla T)) : List (Pred × Fla T) :=
  (chain.dropLast.map Edge.tgt).zip (S.pathItp q).tail

/-- The loop of `translate(ValidityWitness)` (`src/transformers/SimpleChainSummarizer.cc:86-129`), last chain first. `done none`
is `return ValidityWitness()`. -/
def chainSafeLoop (S : Smt T) (R : PRepr) : List (Summary T) → Defs T → Outcome (Option (Defs T))
  | [], D => .done (some D)
  | s :: ss, D =>
    match chainSafeLoop S R ss D with
    | .done (some D) =>
      match chainQuery R D s with
      | none => .thrown
      | some q => if S.check q = .unsat then .done (insertItps (chainItps S s.1 q) D) else .done none
    | r => r

/-- `SimpleChainSummarizer::BackTranslator::translate(ValidityWitness)`
(`src/transformers/SimpleChainSummarizer.cc:83-131`). -/
def chainSafe (S : Smt T) (R : PRepr) (ss : List (Summary T)) (D : Defs T) : Outcome (Defs T) :=
  match chainSafeLoop S R ss D with
  | .done r => .done (r.getD [])
  | .thrown => .thrown
  | .outOfFuel => .outOfFuel

end Golem
