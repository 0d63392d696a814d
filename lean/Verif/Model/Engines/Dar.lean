import Verif.Model.Engines.TransitionSystem

/-!
Dual approximated reachability: `src/engine/DAR.cc`. `fwd` and `bwd` are the two sequences; an access out of range is `none`
(an exception here; the code asserts). `n` is the index of their last elements.
-/

namespace Golem
variable {T : Theory}

/-- The assertions of a local query (`src/engine/DAR.cc:189-191, 208-210`). -/
def darQuery (ts : TS T) (f b : Fla T) : List (Fla T) := [f, ts.trans, sendFla b 1]

/-- `interpolateForward` (`src/engine/DAR.cc:183-200`): interpolant of mask 3. -/
def darForwardItp (S : Smt T) (ts : TS T) (n i : Nat) (fwd bwd : List (Fla T)) : Option (Fla T) := do
  let f ← fwd[i]?
  let b ← bwd[n - i]?
  if S.check (darQuery ts f b) = .unsat then some (S.itp [f, ts.trans] [sendFla b 1]) else none

/-- `interpolateBackward` (`src/engine/DAR.cc:202-219`): interpolant of mask 6. -/
def darBackwardItp (S : Smt T) (ts : TS T) (n j : Nat) (fwd bwd : List (Fla T)) : Option (Fla T) := do
  let f ← fwd[n - j]?
  let b ← bwd[j]?
  if S.check (darQuery ts f b) = .unsat then some (S.itp [ts.trans, sendFla b 1] [f]) else none

/-- The forward half of `iterativeLocalStrengthening` (`src/engine/DAR.cc:125-132`): `k = n - i` rounds of the loop, then the
new element. -/
def darForward (S : Smt T) (ts : TS T) (n : Nat) (bwd : List (Fla T)) : Nat → Nat → List (Fla T) → Option (List (Fla T))
  | 0, _, fwd => do
    let p ← darForwardItp S ts n n fwd bwd
    return fwd ++ [sendFla p (-1)]
  | k + 1, i, fwd => do
    let p ← darForwardItp S ts n i fwd bwd
    darForward S ts n bwd k (i + 1) (fwd.modify (i + 1) fun f => .and f (sendFla p (-1)))

/-- The backward half (`src/engine/DAR.cc:133-138`). -/
def darBackward (S : Smt T) (ts : TS T) (n : Nat) (fwd : List (Fla T)) : Nat → Nat → List (Fla T) → Option (List (Fla T))
  | 0, _, bwd => do
    let p ← darBackwardItp S ts n n fwd bwd
    return bwd ++ [p]
  | k + 1, j, bwd => do
    let p ← darBackwardItp S ts n j fwd bwd
    darBackward S ts n fwd k (j + 1) (bwd.modify (j + 1) fun b => .and b p)

/-- `iterativeLocalStrengthening` (`src/engine/DAR.cc:122-139`). -/
def darStrengthen (S : Smt T) (ts : TS T) (n i : Nat) (fwd bwd : List (Fla T)) : Option (List (Fla T) × List (Fla T)) := do
  let fwd' ← darForward S ts n bwd (n - i) i fwd
  let bwd' ← darBackward S ts n fwd' i (n - i) bwd
  return (fwd', bwd')

/-- Is the pair `F_{n-j}`, `B_j` not connected by one step (`src/engine/DAR.cc:110-113`)? -/
def darApart (S : Smt T) (ts : TS T) (n : Nat) (fwd bwd : List (Fla T)) (j : Nat) : Bool :=
  match fwd[n - j]?, bwd[j]? with
  | some f, some b => S.check [Fla.conj (darQuery ts f b)] == .unsat
  | _, _ => false

/-- `localStrengthen` (`src/engine/DAR.cc:103-120`): the index found, if any. -/
def darLocalIndex (S : Smt T) (ts : TS T) (n : Nat) (fwd bwd : List (Fla T)) : Option Nat :=
  ((List.range n).find? (darApart S ts n fwd bwd)).map (n - ·)

/-- The assertions of the global query for `i` steps (`src/engine/DAR.cc:145-152, 178`). -/
def darUnroll (ts : TS T) (i : Nat) (b : Fla T) : List (Fla T) :=
  ts.init :: (List.range i).map (fun k : Nat => sendFla ts.trans k) ++ [sendFla b i]

/-- The number of path interpolants used (`src/engine/DAR.cc:157-165`). -/
def darItpCount (n i : Nat) : Nat := if i = n + 1 then i - 1 else i

/-- The path interpolant for `F_k` (`src/engine/DAR.cc:158-172`): the partition is `init` and the first `k` transitions. -/
def darPathItp (S : Smt T) (ts : TS T) (i : Nat) (b : Fla T) (k : Nat) : Fla T :=
  sendFla (S.itp ((darUnroll ts i b).take (k + 1)) ((darUnroll ts i b).drop (k + 1))) (-(k : Int))

/-- Strengthening of `F_1, ..., F_m` (`src/engine/DAR.cc:168-173`). -/
def darGlobalFwd (S : Smt T) (ts : TS T) (n i : Nat) (b : Fla T) (fwd : List (Fla T)) : List (Fla T) :=
  fwd.mapIdx fun k f => if 1 ≤ k ∧ k ≤ darItpCount n i then .and f (darPathItp S ts i b k) else f

/-- The loop of `globalStrengthen` (`src/engine/DAR.cc:148-180`), `k` rounds from `i` on: the index found and the new forward
sequence; `done none` is the answer `false`. -/
def darGlobal (S : Smt T) (ts : TS T) (n : Nat) (fwd bwd : List (Fla T)) : Nat → Nat → Outcome (Option (Nat × List (Fla T)))
  | 0, _ => .done none
  | k + 1, i =>
    match bwd[n + 1 - i]? with
    | none => .thrown
    | some b =>
      if S.check (darUnroll ts i b) = .unsat then .done (some (i - 1, darGlobalFwd S ts n i b fwd))
      else darGlobal S ts n fwd bwd k (i + 1)

/-- The first index whose element is covered by the elements before it (`src/engine/DAR.cc:228-240`). -/
def darCovered (S : Smt T) (seq : List (Fla T)) : Option Nat :=
  ((List.range seq.length).drop 1).find? fun i =>
    match seq[i]? with
    | some f => S.check [.and f (.not (Fla.disj (seq.take i)))] == .unsat
    | none => false

/-- `fixpoint` (`src/engine/DAR.cc:227-262`). -/
def darFixpoint (S : Smt T) (fwd bwd : List (Fla T)) : Option (Fla T) :=
  match darCovered S fwd with
  | some i => some (Fla.disj (fwd.take i))
  | none => (darCovered S bwd).map fun i => .not (Fla.disj (bwd.take i))

/-- The main loop of `run` (`src/engine/DAR.cc:87-100`). -/
def darLoop (S : Smt T) (ts : TS T) : Nat → Nat → List (Fla T) → List (Fla T) → Outcome (TSResult T)
  | 0, _, _, _ => .outOfFuel
  | fuel + 1, n, fwd, bwd =>
    let next : Option (List (Fla T) × List (Fla T)) → Outcome (TSResult T) := fun r =>
      match r with
      | none => .thrown
      | some (fwd', bwd') =>
        match darFixpoint S fwd' bwd' with
        | some I => .done (.safeInv I)
        | none => darLoop S ts fuel (n + 1) fwd' bwd'
    match darLocalIndex S ts n fwd bwd with
    | some i => next (darStrengthen S ts n i fwd bwd)
    | none =>
      match darGlobal S ts n fwd bwd n 2 with
      | .done none => .done (.unsafeAt (n + 1))
      | .done (some (i, fwd')) => next (darStrengthen S ts n i fwd' bwd)
      | .thrown => .thrown
      | .outOfFuel => .outOfFuel

/-- `run` (`src/engine/DAR.cc:62-101`). -/
def darRun (S : Smt T) (ts : TS T) (fuel : Nat) : Outcome (TSResult T) :=
  match S.check (darQuery ts ts.init ts.query) with
  | .sat => .done (.unsafeAt 1)
  | .unsat =>
    darLoop S ts fuel 1 [ts.init, sendFla (S.itp [ts.init, ts.trans] [sendFla ts.query 1]) (-1)]
      [ts.query, S.itp [ts.trans, sendFla ts.query 1] [ts.init]]
  | _ => .done .unknown

/-- `DAR::solve` (`src/engine/DAR.cc:49-60`). -/
def darSolve (S : Smt T) (hasArrays : Bool) (ts : TS T) (fuel : Nat) : Outcome (TSResult T) :=
  if S.check [ts.init, ts.query] = .sat then .done (.unsafeAt 0)
  else if hasArrays then .done .unknown
  else darRun S ts fuel

end Golem
