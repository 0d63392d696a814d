import Verif.Model.MBP
import Verif.Model.Engines.TransitionSystem
import Verif.Model.Engines.TPA

/-!
Transitive relation learning: `src/engine/TRL.cc`, for linear integer arithmetic.

Simplifications: the logic is linear integer arithmetic with Booleans (`dynamic_cast<ArithLogic &>` succeeds); a solver object
is the list of the formulas on its assertion stack; the main loop is bounded by fuel; equality of hash-consed terms is equality
of formulas. `none` and `.thrown` stand for exceptions and failing assertions.
-/

namespace Golem

/-- `ArithLogic` with integers. -/
abbrev LIA : Theory := intTheory

/-- What the engine uses: the solver, `ModelBasedProjection`, `QuantifierElimination::keepOnly`, the simplification done by term
construction (`varSubstitute` with constants folds), and the sort test. -/
structure TrlEnv where
  S : Smt LIA
  M : Mbp LIA
  K : KeepOnly LIA
  simp : Fla LIA → Fla LIA
  isInt : Var → Bool

/-- `indexVar` (`src/engine/TRL.cc:47`). -/
def trlIdx : Var := .ver .trlId 0

/-- `getFreshLoopCounter` with `getVarVersionZero` (`src/engine/TRL.cc:448-451, 297-299`). -/
def trlCounter (k : Nat) : Var := .ver (.trlLc k) 0

/-- `diffVar` (`src/engine/TRL.cc:283-284`). -/
def trlDiff (i : Nat) : Var := .base (.trlDiff i)

/-- `ConjunctiveVariableProjection::projectTo` (`src/engine/TRL.cc:261-266`) with `collectSatisfiedLiterals` and `collectImplicant`
(`src/engine/TRL.cc:206-258`). `collectImplicant` here descends into every disjunction; the one of `Verif.Model.MBP` does so for
disjunctions with variables of the given list, and a disjunction of OpenSMT always has a variable. `mkAnd` drops `true`. -/
def projectTo (M : Mbp LIA) (f : Fla LIA) (keep : List Var) (ρ : Valuation LIA) : Option (Fla LIA) := do
  let p ← mbpKeepOnly M f keep ρ
  let n ← toNNF p
  let (_, lits) ← collectImplicant ρ n.vars n ([], [])
  return Fla.conj ((lits.map Lit.fla).filter fun f => decide (f ≠ .tt))

/-- `Loop` (`src/engine/TRL.cc:29-32`). -/
structure TrlLoop where
  start : Nat
  len : Nat
deriving DecidableEq

/-- `Context::getLoop`: the loop over the steps (`src/engine/TRL.cc:411-427`). `known` is `lastKnowIndex`, `i` the position. -/
def getLoopFrom : List (Fla LIA) → Nat → List (Fla LIA × Nat) → Option TrlLoop → Option TrlLoop
  | [], _, _, best => best
  | f :: fs, i, known, best =>
    let best' := match known.lookup f with
      | some prev =>
        if (match best with | some b => decide (i - prev < b.len) | none => true) then some ⟨prev, i - prev⟩ else best
      | none => best
    getLoopFrom fs (i + 1) ((f, i) :: known) best'

/-- `Context::getLoop` (`src/engine/TRL.cc:403-430`): the steps moved back to time zero, then the shortest repetition. -/
def getLoop (trace : List (Fla LIA)) : Option TrlLoop :=
  getLoopFrom (trace.zipIdx.map fun p => sendFla p.1 (-(p.2 : Int))) 0 [] none

/-- `getSystemVars(step)` (`src/engine/TRL.cc:452-459`). -/
def TS.varsAtStep (ts : TS LIA) (k : Nat) : List Var := ts.stateVars.map (shift k)

/-- `Context::project(fla, model, shift)` (`src/engine/TRL.cc:353-361`). -/
def trlProject (M : Mbp LIA) (ts : TS LIA) (f : Fla LIA) (ρ : Valuation LIA) (k : Nat) : Option (Fla LIA) :=
  projectTo M f ((ts.stateVars ++ ts.nextVars).map (shift k)) ρ

/-- `shiftTo(fla, start, end)` (`src/engine/TRL.cc:377-388`). -/
def trlShiftTo (ts : TS LIA) (f : Fla LIA) (a b : Nat) : Fla LIA :=
  varSubstitute f (ts.stateVars.zip (ts.stateVars.map fun x => Tm.var (shift a x)) ++
    ts.nextVars.zip (ts.nextVars.map fun x => Tm.var (shift ((b : Int) - 1) x)))

/-- `unshiftFrom(fla, start, end)` (`src/engine/TRL.cc:390-401`). -/
def trlUnshiftFrom (ts : TS LIA) (f : Fla LIA) (a b : Nat) : Fla LIA :=
  varSubstitute f ((ts.stateVars.map (shift a)).zip (ts.stateVars.map Tm.var) ++
    (ts.nextVars.map (shift ((b : Int) - 1))).zip (ts.nextVars.map Tm.var))

/-- The differences of the integer variables: position, value at the end and value at the beginning
(`src/engine/TRL.cc:280-290`). -/
def trlDiffs (V : TrlEnv) (ts : TS LIA) (l : TrlLoop) : List (Nat × Var × Var) :=
  (ts.stateVars.zipIdx.filter fun p => V.isInt p.1).map fun p => (p.2, shift ((l.start + l.len : Nat) : Int) p.1, shift l.start p.1)

/-- `backSubstitution` (`src/engine/TRL.cc:289`) of a variable. -/
def trlBackVar (ds : List (Nat × Var × Var)) (x : Var) : Poly Int :=
  match ds.find? fun d => decide (trlDiff d.1 = x) with
  | some d => (Poly.ofVar d.2.1).sub (.ofVar d.2.2)
  | none => .ofVar x

/-- `varSubstitute(term, backSubstitution)` on a linear term (`src/engine/TRL.cc:327, 338`); without the constant. -/
def trlBack (ds : List (Nat × Var × Var)) (p : Poly Int) : Poly Int :=
  p.norm.cs.foldr (fun m q => (Poly.smul m.2 (trlBackVar ds m.1)).add q) (.const 0)

/-- One conjunct of the projection on the differences (`src/engine/TRL.cc:303-346`): `c = t` and `c <= t` over differences become
`c * n = t` and `c * n <= t`; everything else is dropped. Linear atoms are `0 <= t - c`, `t - c = 0`. The test `isDiffVar` is
membership in the list of difference variables. -/
def recurrentLit (ds : List (Nat × Var × Var)) (n : Var) (f : Fla LIA) : Option (Fla LIA) :=
  match MAtom.parse f with
  | some (.eq p) =>
    if p.vars.all fun x => ds.any fun d => decide (trlDiff d.1 = x) then
      some (MAtom.eq ((trlBack ds p).add (.smul p.k (.ofVar n)))).fla
    else none
  | some (.leq p) =>
    if p.vars.all fun x => ds.any fun d => decide (trlDiff d.1 = x) then
      some (MAtom.leq ((trlBack ds p).add (.smul p.k (.ofVar n)))).fla
    else none
  | _ => none

/-- `model.extend(diffVarVals)` (`src/engine/TRL.cc:288, 294`). -/
def trlExtend (ds : List (Nat × Var × Var)) (ρ : Valuation LIA) : Valuation LIA := fun x =>
  match ds.find? fun d => decide (trlDiff d.1 = x) with
  | some d => (ρ d.2.1 : Int) - ρ d.2.2
  | none => ρ x

/-- `x > 0` for an integer variable. -/
def trlPos (x : Var) : Fla LIA := .not (.atom (.ap2 .leq (.var x) (.const (0 : Int))))

/-- `transitiveProjection(fla, model, loop)` (`src/engine/TRL.cc:268-351`); `c` is the number of the fresh loop counter. -/
def transitiveProjection (V : TrlEnv) (ts : TS LIA) (c : Nat) (f : Fla LIA) (ρ : Valuation LIA) (l : TrlLoop) : Option (Fla LIA) := do
  let ds := trlDiffs V ts l
  let eqs := ds.map fun d => (MAtom.eq ((Poly.ofVar (trlDiff d.1)).sub ((Poly.ofVar d.2.1).sub (.ofVar d.2.2)))).fla
  let projected ← projectTo V.M (.and f (Fla.conj eqs)) (ds.map fun d => trlDiff d.1) (trlExtend ds ρ)
  let n := shift l.start (trlCounter c)
  let rec_ := (getTopLevelJuncts .conj projected fun _ => true).filterMap (recurrentLit ds n)
  let pb ← projectTo V.M f (ts.varsAtStep l.start) ρ
  let pe ← projectTo V.M f (ts.varsAtStep (l.start + l.len)) ρ
  return sendFla (Fla.conj [trlPos n, Fla.conj rec_, pb, pe]) (-(l.start : Int))

/-- `getLoopValuation` (`src/engine/TRL.cc:432-444`). -/
def loopValuation (ts : TS LIA) (l : TrlLoop) (ρ : Valuation LIA) : List (Var × Int) :=
  ts.stateVars.map (fun x => (x, ρ (shift l.start x))) ++
    ts.nextVars.map (fun x => (x, ρ (shift (((l.start + l.len : Nat) : Int) - 1) x)))

/-- `computeBlockingClause` (`src/engine/TRL.cc:363-370`). -/
def computeBlockingClause (V : TrlEnv) (ts : TS LIA) (l : TrlLoop) (r : Fla LIA) (ρ : Valuation LIA) : Option (Fla LIA) := do
  let p ← trlProject V.M ts r ρ 0
  let f := trlShiftTo ts (.not p) l.start (l.start + l.len)
  return if l.len = 1 then .or f (trlPos (shift l.start trlIdx)) else f

/-- One level of the solver's stack: the relations it may use and the blocking clauses that were active when it was pushed. -/
structure TrlLevel where
  rels : List (Fla LIA)
  clauses : List (Fla LIA)
deriving DecidableEq

/-- The formulas asserted on level `k` (`src/engine/TRL.cc:93-116`). -/
def TrlLevel.asserted (l : TrlLevel) (k : Nat) : List (Fla LIA) :=
  (if k = 0 then [] else
    [.or (.eq (.var (shift k trlIdx)) (.const (0 : Int)))
      (.not (.eq (.var (shift k trlIdx)) (.var (shift ((k : Int) - 1) trlIdx))))]) ++
  [Fla.disj (l.rels.zipIdx.map fun p => .and (sendFla p.1 k) (.eq (.var (shift k trlIdx)) (.const (p.2 : Int))))] ++ l.clauses

/-- The state of the search: the learned relations (the first is the transition relation), the blocking clauses with the level
where they are activated, the levels on the stack, and the number of loop counters used. -/
structure TrlState where
  relations : List (Fla LIA)
  blocks : List (Fla LIA × Nat)
  levels : List TrlLevel
  counter : Nat
deriving DecidableEq

/-- The assertion stack. -/
def trlStack (ts : TS LIA) (ls : List TrlLevel) : List (Fla LIA) :=
  ts.init :: (ls.zipIdx.map fun p => p.1.asserted p.2).flatten

/-- The level that is pushed next (`src/engine/TRL.cc:92-116`). -/
def TrlState.nextLevel (st : TrlState) : TrlLevel :=
  ⟨st.relations, (st.blocks.filter fun b => decide (b.2 = st.levels.length)).map Prod.fst⟩

/-- `trace` (`src/engine/TRL.cc:128-154`): the relation used in every step, moved there and projected. -/
def trlTrace (V : TrlEnv) (ts : TS LIA) (rels : List (Fla LIA)) (ρ : Valuation LIA) (k : Nat) : Option (List (Fla LIA)) :=
  (List.range (k + 1)).mapM fun (i : Nat) => do
    let r ← rels[(ρ (shift i trlIdx) : Int).toNat]?
    trlProject V.M ts (sendFla r i) ρ i

/-- `blockingRelation`: the first learned relation that is consistent with the loop (`src/engine/TRL.cc:158-170`). -/
def consistentRelation (V : TrlEnv) (rels : List (Fla LIA)) (vals : List (Var × Int)) : Option (Fla LIA) :=
  (rels.drop 1).find? fun r =>
    let v := V.simp (varSubstitute r (vals.map fun p => (p.1, Tm.const (p.2 : Int))))
    decide (v ≠ .ff) && (decide (v = .tt) || decide (V.S.check [v] = .sat))

/-- What happens when the trace has a loop (`src/engine/TRL.cc:155-201`). -/
def trlLearn (V : TrlEnv) (ts : TS LIA) (st : TrlState) (trace : List (Fla LIA)) (ρ : Valuation LIA) (l : TrlLoop) : Option TrlState := do
  let vals := loopValuation ts l ρ
  let (r, rels, c) ← (match consistentRelation V st.relations vals with
    | some r => some (r, st.relations, st.counter)
    | none => do
      let p ← transitiveProjection V ts st.counter (Fla.conj ((trace.drop l.start).take l.len)) ρ l
      let r := trlUnshiftFrom ts p 0 l.len
      return (r, st.relations ++ [r], st.counter + 1))
  let fs := vals.map (fun p => Fla.eq (.var p.1) (.const (p.2 : Int))) ++ [r]
  if V.S.check fs = .sat then do
    let b ← computeBlockingClause V ts l r (V.S.model fs)
    return ⟨rels, st.blocks ++ [(b, l.start + l.len - 1)], st.levels.take l.start, c⟩
  else none

/-- One iteration of the main loop (`src/engine/TRL.cc:83-202`): `none` is the answer UNKNOWN, `some (st, true)` an exhausted search,
`some (st, false)` the next state. -/
def trlStep (V : TrlEnv) (ts : TS LIA) (st : TrlState) : Outcome (Option (TrlState × Bool)) :=
  let k := st.levels.length
  match V.S.check (trlStack ts st.levels ++ [sendFla ts.query k]) with
  | .unsat =>
    let next := { st with levels := st.levels ++ [st.nextLevel] }
    let stack := trlStack ts next.levels
    match V.S.check stack with
    | .unsat => .done (some (next, true))
    | .sat =>
      let ρ := V.S.model stack
      (Outcome.orThrow (trlTrace V ts st.relations ρ k)).andThen fun trace =>
      match getLoop trace with
      | some l => (Outcome.orThrow (trlLearn V ts next trace ρ l)).andThen fun st' => .done (some (st', false))
      | none => .done (some (next, false))
    | _ => .done none
  | _ => .done none

/-- The main loop of `Context::run` (`src/engine/TRL.cc:83-202`): the state in which the search space is exhausted, or `none` for
UNKNOWN. -/
def trlSearch (V : TrlEnv) (ts : TS LIA) : Nat → TrlState → Outcome (Option TrlState)
  | 0, _ => .outOfFuel
  | fuel + 1, st => (trlStep V ts st).andThen fun
    | none => .done none
    | some (st', true) => .done (some st')
    | some (st', false) => trlSearch V ts fuel st'

/-- The state before the main loop (`src/engine/TRL.cc:79-82`). -/
def trlStart (ts : TS LIA) : TrlState := ⟨[ts.trans], [], [], 0⟩

/-- The states after `1, 2, ..., n` steps of the learned relations (`src/engine/TRL.cc:466-471`), from `current` after `i` steps. -/
def trlPosts (K : KeepOnly LIA) (ts : TS LIA) (ext : Fla LIA) : Nat → Nat → Fla LIA → Option (List (Fla LIA))
  | 0, _, _ => some []
  | n + 1, i, current => do
    let g ← K (.and current (sendFla ext i)) (ts.varsAtStep (i + 1))
    let gs ← trlPosts K ts ext n (i + 1) g
    return sendFla g (-((i : Int) + 1)) :: gs

/-- `computeInductiveInvariant(relations, diameter)` (`src/engine/TRL.cc:461-473`). -/
def trlInvariant (K : KeepOnly LIA) (ts : TS LIA) (rels : List (Fla LIA)) (d : Nat) : Option (Fla LIA) :=
  (trlPosts K ts (Fla.disj rels) d 0 ts.init).map fun gs => Fla.disj (ts.init :: gs)

/-- `TRL::solve(TransitionSystem)` (`src/engine/TRL.cc:476-478, 117-122`); without a witness the invariant is a placeholder. -/
def trlSolve (V : TrlEnv) (w : Bool) (ts : TS LIA) (fuel : Nat) : Outcome (TSResult LIA) :=
  (trlSearch V ts fuel (trlStart ts)).andThen fun
    | none => .done .unknown
    | some st =>
      if w then (Outcome.orThrow (trlInvariant V.K ts st.relations (st.levels.length - 1))).andThen fun inv => .done (.safeInv inv)
      else .done (.safeInv .tt)

end Golem
