import Verif.Model.Engines.TransitionSystem
import Verif.Model.NormalForms
import Verif.Model.MBP
import Verif.Model.ToTS

/-!
Transition power abstraction: `src/engine/TPA.h`, `src/engine/TPA.cc:29-37, 96-1381` and `1677-1767`, for one transition system. Both
cores are modelled: `TPASplit` and `TPABasic`.

Simplifications: `unsigned short` and `unsigned` are natural numbers (no overflow of the power or of the step count); a vector
indexed by the power is a function that is `none` beyond the size (an access there, undefined in the code, is `thrown`); the
solver wrappers (`src/engine/TPA.cc:96-258`) are the lists of the formulas they have asserted: the pushes, pops and restarts
have no other effect.
-/

namespace Golem
variable {T : Theory}

/-- Sequencing of computations that may throw. -/
def Outcome.andThen {α β : Type} (x : Outcome α) (f : α → Outcome β) : Outcome β :=
  match x with
  | .done a => f a
  | .thrown => .thrown
  | .outOfFuel => .outOfFuel

/-- An exception or undefined behaviour when there is no value. -/
def Outcome.orThrow {α : Type} : Option α → Outcome α
  | some a => .done a
  | none => .thrown

/-- The services a run of TPA uses. `S` is the solver with its first interpolation algorithm, `itp2` the second one
(`src/engine/TPA.cc:621-623`), `M` is `eliminateVars` (`src/engine/TPA.cc:316-330`: projection, or quantifier elimination when
`useQE` is set), `simp` is `LATermUtils::simplifyDisjunction`, `Q` is `QuantifierElimination::eliminate`, `K` is
`QuantifierElimination::keepOnly`. -/
structure TpaEnv (T : Theory) where
  S : Smt T
  itp2 : List (Fla T) → List (Fla T) → Fla T
  M : Mbp T
  simp : Fla T → Fla T
  Q : QElim T
  K : KeepOnly T

/-- A reachability answer: `some (target, steps)` is REACHABLE with the refined target, `none` is UNREACHABLE
(`src/engine/TPA.h:148-157`). -/
abbrev QRes (T : Theory) := Option (Fla T × Nat)

/-- The mutable state: the powers (for `TPABasic`, `exact` is `transitionHierarchy`), the asserted formulas of
`reachabilitySolvers`, the query cache, and the invariants found by Houdini (`src/engine/TPA.h:101-104, 160, 211-213, 251-253`). -/
structure TpaState (T : Theory) where
  exact : Nat → Option (Fla T)
  lt : Nat → Option (Fla T)
  comps : Nat → List (Fla T)
  cache : Nat → List ((Fla T × Fla T) × (Fla T × Nat))
  left : List (Fla T)
  right : List (Fla T)

/-- Update of a function at one point. -/
def updAt {α : Type} (f : Nat → α) (n : Nat) (a : α) : Nat → α := fun m => if m = n then a else f m

/-- `getStateVars(version)` (`src/engine/TPA.cc:281-288`). -/
def TS.varsAt (ts : TS T) (k : Int) : List Var := ts.stateVars.map (shift k)

/-- `isPureStateFormula` (`src/engine/TPA.cc:298-304`). -/
def TS.pureState (ts : TS T) (f : Fla T) : Bool := f.vars.all fun x => decide (x ∈ ts.varsAt 0)

/-- `isPureTransitionFormula` (`src/engine/TPA.cc:306-314`). -/
def TS.pureTrans (ts : TS T) (f : Fla T) : Bool := f.vars.all fun x => decide (x ∈ ts.varsAt 0) || decide (x ∈ ts.varsAt 1)

/-- `shiftOnlyNextVars` (`src/engine/TPA.cc:748-764`). -/
def TS.shiftNext (ts : TS T) (f : Fla T) : Fla T := varSubstitute f ((ts.varsAt 1).zip ((ts.varsAt 2).map Tm.var))

/-- `cleanInterpolant` (`src/engine/TPA.cc:730-746`). -/
def TS.cleanItp (ts : TS T) (f : Fla T) : Fla T := varSubstitute f ((ts.varsAt 2).zip ((ts.varsAt 1).map Tm.var))

/-- `computeIdentity` (`src/engine/TPA.cc:766-775`). -/
def TS.identity (ts : TS T) : Fla T := Fla.conj (ts.stateVars.map fun x => .eq (.var x) (.var (shift 1 x)))

/-- `storeExactPower` (`src/engine/TPA.cc:357-379`) and `storeLevelTransition` (`src/engine/TPA.cc:1194-1216`). -/
def TpaState.storeExact (ts : TS T) (st : TpaState T) (power : Nat) (tr : Fla T) : Option (TpaState T) :=
  if power ≠ 0 && !ts.pureTrans tr then none
  else some { st with
    exact := updAt st.exact power (some (match st.exact power with | none => tr | some c => conjoin tr c))
    comps := updAt st.comps (power + 1) (st.comps (power + 1) ++ [.and tr (sendFla tr 1)]) }

/-- `storeLessThanPower` (`src/engine/TPA.cc:386-396`). -/
def TpaState.storeLt (ts : TS T) (st : TpaState T) (power : Nat) (tr : Fla T) : Option (TpaState T) :=
  if 2 ≤ power && !ts.pureTrans tr then none
  else some { st with lt := updAt st.lt power (some (match st.lt power with | none => tr | some c => conjoin tr c)) }

/-- `extractMidPoint` (`src/engine/TPA.cc:819-834`). -/
def tpaMidPoint (V : TpaEnv T) (ts : TS T) (start first second goal : Fla T) (m : Valuation T) : Option (Fla T) := do
  let a ← V.M (.and start first) (ts.varsAt 0) m
  let b ← V.M (.and goal second) (ts.varsAt 2) m
  return sendFla (.and a b) (-1)

/-- `refineTwoStepTarget` (`src/engine/TPA.cc:836-844`). -/
def tpaRefine (V : TpaEnv T) (ts : TS T) (start twoStep goal : Fla T) (m : Valuation T) : Option (Fla T) :=
  (mbpKeepOnly V.M (Fla.conj [start, twoStep, goal]) (ts.varsAt 2) m).map (sendFla · (-2))

/-- The `while` loop of `reachabilityQueryExact` (`src/engine/TPA.cc:495-574`) and of `TPABasic::reachabilityQuery`
(`src/engine/TPA.cc:1255-1338`). `sub` is the query one level below; `steps` is the number of steps reported in the base
case. -/
def exactLoop (V : TpaEnv T) (ts : TS T) (steps : Valuation T → Nat) (power : Nat)
    (sub : Fla T → Fla T → TpaState T → Outcome (QRes T × TpaState T)) (start target : Fla T) :
    Nat → TpaState T → Outcome (QRes T × TpaState T)
  | 0, _ => .outOfFuel
  | fuel + 1, st =>
    let goal := sendFla target 2
    let fs := st.comps (power + 1) ++ [.and start goal]
    match V.S.check fs with
    | .sat =>
      (Outcome.orThrow (st.exact power)).andThen fun prev =>
      if power = 0 then
        (Outcome.orThrow (tpaRefine V ts start (.and prev (sendFla prev 1)) goal (V.S.model fs))).andThen fun g =>
        let r := (g, steps (V.S.model fs))
        .done (some r, { st with cache := updAt st.cache power (((start, target), r) :: st.cache power) })
      else
        (Outcome.orThrow (tpaMidPoint V ts start prev (sendFla prev 1) goal (V.S.model fs))).andThen fun mid =>
        (sub start mid st).andThen fun r1 =>
        match r1.1 with
        | none => exactLoop V ts steps power sub start target fuel r1.2
        | some (mid', s1) =>
          (sub mid' target r1.2).andThen fun r2 =>
          match r2.1 with
          | none => exactLoop V ts steps power sub start target fuel r2.2
          | some (g, s2) =>
            let r := (g, s2 + s1)
            .done (some r, { r2.2 with cache := updAt r2.2.cache power (((start, target), r) :: r2.2.cache power) })
    | .unsat =>
      let itp := ts.cleanItp (V.simp (V.S.itp (st.comps (power + 1)) [.and start goal]))
      (Outcome.orThrow (st.storeExact ts (power + 1) itp)).andThen fun st' => .done (none, st')
    | _ => .thrown

/-- `reachabilityQueryExact` (`src/engine/TPA.cc:484-575`) and `TPABasic::reachabilityQuery` (`src/engine/TPA.cc:1244-1338`):
first the cache, then the loop. -/
def exactQuery (V : TpaEnv T) (ts : TS T) (steps : Valuation T → Nat) (fuel : Nat) :
    Nat → Fla T → Fla T → TpaState T → Outcome (QRes T × TpaState T)
  | 0, start, target, st =>
    match (st.cache 0).find? fun e => decide (e.1 = (start, target)) with
    | some e => .done (some e.2, st)
    | none => exactLoop V ts steps 0 (fun _ _ _ => .thrown) start target fuel st
  | p + 1, start, target, st =>
    match (st.cache (p + 1)).find? fun e => decide (e.1 = (start, target)) with
    | some e => .done (some e.2, st)
    | none => exactLoop V ts steps (p + 1) (exactQuery V ts steps fuel p) start target fuel st

/-- The two-step formula of `reachabilityQueryLessThan` (`src/engine/TPA.cc:605-609`). -/
def ltTwoStep (ts : TS T) (prev exact : Fla T) : Fla T := .or (ts.shiftNext prev) (.and prev (sendFla exact 1))

/-- The `while` loop of `reachabilityQueryLessThan` (`src/engine/TPA.cc:594-714`). `subLt` and `subExact` are the queries one
level below. -/
def ltLoop (V : TpaEnv T) (ts : TS T) (power : Nat)
    (subLt subExact : Fla T → Fla T → TpaState T → Outcome (QRes T × TpaState T)) (start target : Fla T) :
    Nat → TpaState T → Outcome (QRes T × TpaState T)
  | 0, _ => .outOfFuel
  | fuel + 1, st =>
    let goal := sendFla target 2
    (Outcome.orThrow (st.lt power)).andThen fun prev =>
    (Outcome.orThrow (st.exact power)).andThen fun exact =>
    let A := [ltTwoStep ts prev exact]
    let B := [.and start goal]
    match V.S.check (A ++ B) with
    | .unsat =>
      let itp := ts.cleanItp (V.simp (.and (V.S.itp A B) (V.itp2 A B)))
      (Outcome.orThrow (st.storeLt ts (power + 1) itp)).andThen fun st' => .done (none, st')
    | .sat =>
      let m := V.S.model (A ++ B)
      if (ts.shiftNext prev).holds m then
        if power = 0 then .done (some (.and start target, 0), st)
        else
          (subLt start target st).andThen fun r =>
          match r.1 with
          | some g => .done (some g, r.2)
          | none => ltLoop V ts power subLt subExact start target fuel r.2
      else if power = 0 then
        (Outcome.orThrow (tpaRefine V ts start (.and prev (sendFla exact 1)) goal m)).andThen fun g => .done (some (g, 1), st)
      else
        (Outcome.orThrow (tpaMidPoint V ts start prev (sendFla exact 1) goal m)).andThen fun mid =>
        (subLt start mid st).andThen fun r1 =>
        match r1.1 with
        | none => ltLoop V ts power subLt subExact start target fuel r1.2
        | some (mid', s1) =>
          (subExact mid' target r1.2).andThen fun r2 =>
          match r2.1 with
          | none => ltLoop V ts power subLt subExact start target fuel r2.2
          | some (g, s2) => .done (some (g, s2 + s1), r2.2)
    | _ => .thrown

/-- `reachabilityQueryLessThan` (`src/engine/TPA.cc:583-714`). -/
def ltQuery (V : TpaEnv T) (ts : TS T) (fuel : Nat) : Nat → Fla T → Fla T → TpaState T → Outcome (QRes T × TpaState T)
  | 0, start, target, st =>
    if start = target then .done (some (target, 0), st)
    else ltLoop V ts 0 (fun _ _ _ => .thrown) (fun _ _ _ => .thrown) start target fuel st
  | p + 1, start, target, st =>
    if start = target then .done (some (target, 0), st)
    else ltLoop V ts (p + 1) (ltQuery V ts fuel p) (exactQuery V ts (fun _ => 2) fuel p) start target fuel st

/-- `FixedPointType` (`src/engine/TPA.h:72`). -/
inductive Side where
  | left
  | right
deriving DecidableEq

/-- The inner `for` loop of `squashInvariants` (`src/engine/TPA.cc:897-902`), with `i` at most the last index. -/
def squashPass : Nat → Nat → List (Fla T) → List (Fla T)
  | 0, _, cs => cs
  | i + 1, j, cs =>
    if i + 1 > j then
      match cs[j]?, cs[i + 1]? with
      | some a, some b =>
        let cs' := cs.dropLast.set j (.and a b)
        if cs'.length ≤ 128 then cs' else squashPass i (j + 1) cs'
      | _, _ => cs
    else cs

/-- `squashInvariants` (`src/engine/TPA.cc:894-904`). -/
def squashInvariants : Nat → List (Fla T) → List (Fla T)
  | 0, cs => cs
  | fuel + 1, cs => if cs.length > 128 then squashInvariants fuel (squashPass (cs.length - 1) 0 cs) else cs

/-- The assertions of a Houdini query (`src/engine/TPA.cc:916-920, 930-936, 942-949, 957-962`): the candidates, and the negation
of the goal at the end of a composed step. -/
def houdiniQuery (ts : TS T) (side : Side) (cands goal : Fla T) : List (Fla T) :=
  match side with
  | .right => [sendFla ts.trans 1, .and cands (.not (ts.shiftNext goal))]
  | .left => [ts.trans, .and (sendFla cands 1) (.not (ts.shiftNext goal))]

/-- The `for` loop of `houdiniCheck` (`src/engine/TPA.cc:938-954`) from index `i - 1` down: a refuted candidate is overwritten by
the last one. -/
def houdiniPass (S : Smt T) (ts : TS T) (side : Side) : Nat → List (Fla T) → List (Fla T)
  | 0, cs => cs
  | i + 1, cs =>
    match cs[i]? with
    | none => houdiniPass S ts side i cs
    | some c =>
      if S.check (houdiniQuery ts side (Fla.conj cs) c) = .sat then
        houdiniPass S ts side i ((cs.set i (cs.getLast?.getD c)).dropLast)
      else houdiniPass S ts side i cs

/-- The `while` loop of `houdiniCheck` (`src/engine/TPA.cc:937-963`); `whole` is the candidate formula of the query. -/
def houdiniLoop (S : Smt T) (ts : TS T) (side : Side) : Nat → Fla T → List (Fla T) → Outcome (List (Fla T))
  | 0, _, _ => .outOfFuel
  | fuel + 1, whole, cs =>
    if S.check (houdiniQuery ts side whole whole) = .sat then
      let cs' := houdiniPass S ts side cs.length cs
      houdiniLoop S ts side fuel (Fla.conj cs') cs'
    else .done cs

/-- The invariants kept for one side. -/
def TpaState.invs (st : TpaState T) : Side → List (Fla T)
  | .left => st.left
  | .right => st.right

/-- New invariants are added (`src/engine/TPA.cc:964-972`). -/
def TpaState.addInvs (st : TpaState T) (side : Side) (cs : List (Fla T)) : TpaState T :=
  let add := fun l => cs.foldl (fun l c => if c ∈ l then l else l ++ [c]) l
  match side with
  | .left => { st with left := add st.left }
  | .right => { st with right := add st.right }

/-- `houdiniCheck` (`src/engine/TPA.cc:906-973`). `topLevelConjuncts` of OpenSMT is `getTopLevelJuncts`. -/
def houdiniCheck (S : Smt T) (ts : TS T) (side : Side) (fuel : Nat) (cand : Fla T) (st : TpaState T) : Outcome (TpaState T) :=
  let cs := getTopLevelJuncts .conj cand (fun _ => true)
  (houdiniLoop S ts side fuel cand (squashInvariants cs.length cs)).andThen fun cs => .done (st.addInvs side cs)

/-- `TransitionInvariantType` without NONE (`src/engine/TPA.h:70`). -/
inductive Restriction where
  | whole
  | init
  | query
deriving DecidableEq

/-- `SafetyExplanation` (`src/engine/TPA.h:69-80`): for the relation type LESS_THAN the side of the fixed point, for EQUALS the
exponent. -/
inductive Expl (T : Theory) where
  | lt (r : Restriction) (side : Side) (inv : Fla T)
  | eq (r : Restriction) (exponent : Nat) (inv : Fla T)

/-- Is `cur` a fixed point on one side, given the invariants of that side (`src/engine/TPA.cc:983-985, 1017-1019`)? -/
def ltFixQuery (ts : TS T) (side : Side) (invs : List (Fla T)) (cur : Fla T) : Fla T :=
  match side with
  | .right => Fla.conj [Fla.conj invs, cur, sendFla ts.trans 1, .not (ts.shiftNext cur)]
  | .left => Fla.conj [ts.trans, sendFla (Fla.conj invs) 1, sendFla cur 1, .not (ts.shiftNext cur)]

/-- The condition of a restricted fixed point (`src/engine/TPA.cc:990, 1024`). -/
def ltRestrict (ts : TS T) : Side → Fla T
  | .right => ts.init
  | .left => sendFla ts.query 2

/-- The fixed-point check on one side (`src/engine/TPA.cc:981-1012, 1014-1046`). -/
def ltFixSide (S : Smt T) (ts : TS T) (side : Side) (fuel : Nat) (cur : Fla T) (st : TpaState T) :
    Outcome (Option (Expl T) × TpaState T) :=
  (houdiniCheck S ts side fuel cur st).andThen fun st =>
  let q := ltFixQuery ts side (st.invs side) cur
  let inv := .and (Fla.conj (st.invs side)) cur
  if S.check [q] = .unsat then .done (some (.lt .whole side inv), st)
  else if S.check [q, ltRestrict ts side] = .unsat then
    .done (some (.lt (match side with | .right => .init | .left => .query) side inv), st)
  else .done (none, st)

/-- The last two checks of an iteration (`src/engine/TPA.cc:1047-1075`): the invariants alone exclude the query. -/
def invsSafe (S : Smt T) (ts : TS T) (st : TpaState T) : Option (Expl T) :=
  if S.check [Fla.conj [ts.init, Fla.conj st.right, sendFla ts.query 1]] = .unsat then
    some (.lt .whole .right (Fla.conj st.right))
  else if S.check [Fla.conj [ts.init, Fla.conj st.left, sendFla ts.query 1]] = .unsat then
    some (.lt .whole .left (Fla.conj st.left))
  else none

/-- The `for` loop of `checkLessThanFixedPoint` (`src/engine/TPA.cc:975-1078`), `n` rounds from `i` on; `pw` is `getPower`. -/
def ltFixLoop (S : Smt T) (ts : TS T) (pw : TpaState T → Nat → Option (Fla T)) (fuel : Nat) :
    Nat → Nat → TpaState T → Outcome (Option (Expl T) × TpaState T)
  | 0, _, st => .done (none, st)
  | n + 1, i, st =>
    (Outcome.orThrow (pw st i)).andThen fun cur =>
    (ltFixSide S ts .right fuel cur st).andThen fun r =>
    match r.1 with
    | some e => .done (some e, r.2)
    | none =>
      (ltFixSide S ts .left fuel cur r.2).andThen fun r =>
      match r.1 with
      | some e => .done (some e, r.2)
      | none =>
        match invsSafe S ts r.2 with
        | some e => .done (some e, r.2)
        | none => ltFixLoop S ts pw fuel n (i + 1) r.2

/-- `checkLessThanFixedPoint(power)` (`src/engine/TPA.cc:975-1078`). -/
def ltFixedPoint (S : Smt T) (ts : TS T) (pw : TpaState T → Nat → Option (Fla T)) (fuel power : Nat) (st : TpaState T) :
    Outcome (Option (Expl T) × TpaState T) := ltFixLoop S ts pw fuel power 1 st

/-- One round of `checkExactFixedPoint` (`src/engine/TPA.cc:1083-1133`). -/
def exactFixAt (S : Smt T) (ts : TS T) (lt exact : Fla T) (i : Nat) : Option (Expl T) :=
  let q := Fla.conj [.and exact (sendFla exact 1), .not (ts.shiftNext exact)]
  let inv := .or (ts.shiftNext lt) (.and lt (sendFla exact 1))
  if S.check [q] = .unsat then some (.eq .whole i inv)
  else if S.check [q, sendFla (.and ts.init lt) (-1)] = .unsat then some (.eq .init i inv)
  else if S.check [q, .and (sendFla lt 2) (sendFla ts.query 3)] = .unsat then some (.eq .query i inv)
  else none

/-- The `for` loop of `checkExactFixedPoint` (`src/engine/TPA.cc:1080-1136`), `n` rounds from `i` on. -/
def exactFixLoop (S : Smt T) (ts : TS T) (st : TpaState T) : Nat → Nat → Outcome (Option (Expl T))
  | 0, _ => .done none
  | n + 1, i =>
    (Outcome.orThrow (st.exact i)).andThen fun exact =>
    (Outcome.orThrow (st.lt i)).andThen fun lt =>
    match exactFixAt S ts lt exact i with
    | some e => .done (some e)
    | none => exactFixLoop S ts st n (i + 1)

/-- `checkExactFixedPoint(power)`. -/
def exactFixedPoint (S : Smt T) (ts : TS T) (power : Nat) (st : TpaState T) : Outcome (Option (Expl T)) :=
  exactFixLoop S ts st power 1

/-- The answers of `solve`: SAFE with the explanation, UNSAFE with the reached states and the number of steps. -/
inductive TpaAnswer (T : Theory) where
  | safe (e : Expl T)
  | reached (g : Fla T) (steps : Nat)

/-- `TPASplit::checkPower` (`src/engine/TPA.cc:447-482`); `none` is UNKNOWN. -/
def splitCheckPower (V : TpaEnv T) (ts : TS T) (fuel power : Nat) (st : TpaState T) :
    Outcome (Option (TpaAnswer T) × TpaState T) :=
  (ltQuery V ts fuel power ts.init ts.query st).andThen fun r =>
  match r.1 with
  | some (g, n) => .done (some (.reached g n), r.2)
  | none =>
    (ltFixedPoint V.S ts TpaState.lt fuel (power + 1) r.2).andThen fun f =>
    match f.1 with
    | some e => .done (some (.safe e), f.2)
    | none =>
      (exactFixedPoint V.S ts power f.2).andThen fun x =>
      match x with
      | some e => .done (some (.safe e), f.2)
      | none =>
        (exactQuery V ts (fun _ => 2) fuel power ts.init ts.query f.2).andThen fun r =>
        match r.1 with
        | some (g, n) => .done (some (.reached g n), r.2)
        | none =>
          (exactFixedPoint V.S ts power r.2).andThen fun x =>
          match x with
          | some e => .done (some (.safe e), r.2)
          | none => .done (none, r.2)

/-- The number of steps `TPABasic` reports in the base case (`src/engine/TPA.cc:1270-1277`). -/
def basicSteps (ts : TS T) (m : Valuation T) : Nat :=
  (if ts.identity.holds m then 0 else 1) + (if (sendFla ts.identity 1).holds m then 0 else 1)

/-- The reflexive system whose powers `TPABasic` computes (`src/engine/TPA.cc:1340-1344`). -/
def TS.reflexive (ts : TS T) : TS T := { ts with trans := .or ts.identity ts.trans }

/-- `TPABasic::checkPower` (`src/engine/TPA.cc:1223-1242`). -/
def basicCheckPower (V : TpaEnv T) (ts : TS T) (fuel power : Nat) (st : TpaState T) :
    Outcome (Option (TpaAnswer T) × TpaState T) :=
  (exactQuery V ts.reflexive (basicSteps ts) fuel power ts.init ts.query st).andThen fun r =>
  match r.1 with
  | some (g, n) => .done (some (.reached g n), r.2)
  | none =>
    (ltFixedPoint V.S ts TpaState.exact fuel (power + 1) r.2).andThen fun f =>
    match f.1 with
    | some e => .done (some (.safe e), f.2)
    | none => .done (none, f.2)

/-- `TPACore` (`src/engine/TPA.h:34`). -/
inductive Core where
  | basic
  | split
deriving DecidableEq

/-- `checkPower` of the chosen core. -/
def checkPower (V : TpaEnv T) (core : Core) (ts : TS T) (fuel power : Nat) (st : TpaState T) :
    Outcome (Option (TpaAnswer T) × TpaState T) :=
  match core with
  | .split => splitCheckPower V ts fuel power st
  | .basic => basicCheckPower V ts fuel power st

/-- The loop of `TPABase::solve` (`src/engine/TPA.cc:412-422`). -/
def tpaPowers (V : TpaEnv T) (core : Core) (ts : TS T) (fuel : Nat) : Nat → Nat → TpaState T → Outcome (TpaAnswer T × TpaState T)
  | 0, _, _ => .outOfFuel
  | n + 1, power, st =>
    (checkPower V core ts fuel power st).andThen fun r =>
    match r.1 with
    | some a => .done (a, r.2)
    | none => tpaPowers V core ts fuel n (power + 1) r.2

/-- `checkTrivialUnreachability` (`src/engine/TPA.cc:425-445`). -/
def tpaTrivial (ts : TS T) : Option (Expl T) :=
  if ts.query = .ff then some (.lt .query .left .tt)
  else if ts.init = .ff then some (.lt .init .right .tt)
  else none

/-- `TPABase::solve` (`src/engine/TPA.cc:408-423`). -/
def tpaSolve (V : TpaEnv T) (core : Core) (ts : TS T) (fuel : Nat) (st : TpaState T) : Outcome (TpaAnswer T × TpaState T) :=
  match tpaTrivial ts with
  | some e => .done (.safe e, st)
  | none => tpaPowers V core ts fuel fuel 0 st

/-- `resetPowers` (`src/engine/TPA.cc:846-852, 1340-1344`) on fresh vectors. -/
def tpaReset (core : Core) (ts : TS T) : Option (TpaState T) :=
  let st : TpaState T := ⟨fun _ => none, fun _ => none, fun _ => [], fun _ => [], [], []⟩
  match core with
  | .split => (st.storeExact ts 0 ts.trans).map fun st => { st with lt := updAt st.lt 0 (some ts.identity) }
  | .basic => st.storeExact ts 0 (.or ts.identity ts.trans)

/-- `resetInitialStates` and `resetQueryStates` (`src/engine/TPA.cc:338-350`): the cache is cleared. -/
def TpaState.clear (st : TpaState T) : TpaState T := { st with cache := fun _ => [] }

/-- The system `resetTransitionSystem` keeps (`src/engine/TPA.cc:777-815`). `simpT` stands for `toNNF` (which may throw)
followed by the simplifications of OpenSMT. -/
def tpaPrepare (simpT : Fla T → Fla T) (ts : TS T) : Option (TS T) := do
  let init ← toNNF ts.init
  let query ← toNNF ts.query
  let trans ← toNNF ts.trans
  if ts.pureState init && ts.pureState query then some { ts with init := init, query := query, trans := simpT trans } else none

/-- `inductiveInvariantFromEqualsTransitionInvariant` (`src/engine/TPA.cc:1741-1767`), without its assertions; `done none` is
`PTRef_Undef`. -/
def invFromEquals (V : TpaEnv T) (ts : TS T) (st : TpaState T) (power : Nat) : Outcome (Option (Fla T)) :=
  (Outcome.orThrow (st.exact power)).andThen fun exact =>
  (Outcome.orThrow (st.lt power)).andThen fun lt =>
  (Outcome.orThrow (V.Q (.and ts.init (.or (ts.shiftNext lt) (.and lt (sendFla exact 1)))) (ts.varsAt 0))).andThen fun a =>
  (Outcome.orThrow (V.Q a (ts.varsAt 1))).andThen fun b =>
  if 64 ≤ power then .done none
  else (Outcome.orThrow (kinductiveToInductive V.S ts (sendFla b (-2)) (2 ^ power))).andThen fun I => .done (some I)

/-- `getInductiveInvariant` (`src/engine/TPA.cc:1714-1739`). -/
def tpaInvariant (V : TpaEnv T) (ts : TS T) (st : TpaState T) : Expl T → Outcome (Option (Fla T))
  | .lt _ .left inv =>
    (Outcome.orThrow (V.K (.and inv (sendFla ts.query 1)) (ts.varsAt 0))).andThen fun g => .done (some (.not g))
  | .lt _ .right inv =>
    (Outcome.orThrow (V.K (.and ts.init inv) (ts.varsAt 1))).andThen fun g => .done (some (sendFla g (-1)))
  | .eq r i _ => if r = .query then .done none else if i > 10 then .done none else invFromEquals V ts st i

/-- `safeSupersetOfInitialStates` (`src/engine/TPA.cc:1364-1381`). -/
def safeSuperset (S : Smt T) (start inv target : Fla T) : Option (Fla T) :=
  if S.check [start, inv, target] = .unsat then some (.not (S.itp [inv, target] [start])) else none

/-- `getSafetyExplanation` (`src/engine/TPA.cc:1700-1712`). -/
def tpaExplanation (S : Smt T) (ts : TS T) : Expl T → Option (Fla T)
  | .lt r _ inv => if r = .init then some ts.init else safeSuperset S ts.init inv (sendFla ts.query 1)
  | .eq r _ inv => if r = .init then some ts.init else safeSuperset S ts.init inv (sendFla ts.query 2)

/-- A solver object after `resetTransitionSystem` (`src/engine/TPA.cc:777-815`): its system and its state. -/
def tpaStart (core : Core) (simpT : Fla T → Fla T) (ts : TS T) : Option (TS T × TpaState T) := do
  let ts ← tpaPrepare simpT ts
  let st ← tpaReset core ts
  return (ts, st)

/-- `resetTransitionSystem` on an object that has been used: neither the query cache nor the invariants are cleared. -/
def tpaRestart (core : Core) (simpT : Fla T → Fla T) (ts : TS T) (old : TpaState T) : Option (TS T × TpaState T) := do
  let (ts, st) ← tpaStart core simpT ts
  return (ts, { st with cache := old.cache, left := old.left, right := old.right })

/-- The operations on a solver object that has a system (`src/engine/TPA.h:112-135`). -/
inductive TpaOp (T : Theory) where
  | resetInit (f : Fla T)
  | resetQuery (f : Fla T)
  | solve

/-- A history of operations; the result lists, for every `solve`, the system it was about, the state after it and its answer.
The assertions of `src/engine/TPA.cc:339, 346` stop the run. -/
def tpaOps (V : TpaEnv T) (core : Core) (fuel : Nat) :
    List (TpaOp T) → TS T × TpaState T → Outcome (List (TS T × TpaState T × TpaAnswer T))
  | [], _ => .done []
  | .resetInit f :: ops, (ts, st) =>
    if ts.pureState f then tpaOps V core fuel ops ({ ts with init := f }, st.clear) else .thrown
  | .resetQuery f :: ops, (ts, st) =>
    if ts.pureState f then tpaOps V core fuel ops ({ ts with query := f }, st.clear) else .thrown
  | .solve :: ops, (ts, st) =>
    (tpaSolve V core ts fuel st).andThen fun r =>
    (tpaOps V core fuel ops (ts, r.2)).andThen fun l => .done ((ts, r.2, r.1) :: l)

end Golem
