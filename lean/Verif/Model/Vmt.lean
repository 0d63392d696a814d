import Verif.Model.SExpr
import Verif.Model.Names
import Verif.Model.CheckSat
import Verif.Model.Termination.StepCounter

/-!
The front end for VMT files: `src/vmt/FrontEnd.cc`, `src/vmt/StepCounter.cc`.

Assertions are taken as compiled out. `none` stands for an exception that leaves `run` and for undefined behaviour (reading
past the end of an argument list, using `PTRef_Undef` as a term).
-/

namespace Golem
namespace Vmt
open SExpr (SExp)

abbrev Str := List Char

/-- `VMTModelBuilder::Var` (`src/vmt/FrontEnd.cc:78-81`). -/
structure VarDecl where
  name : Str
  type : Str

/-- `VMTModelBuilder::Defs` (`src/vmt/FrontEnd.cc:83-87`). -/
structure DefDecl where
  name : Str
  type : Str
  value : SExp

/-- `VMTModelBuilder` (`src/vmt/FrontEnd.cc:64-90`). -/
structure Builder where
  vars : List VarDecl
  defs : List DefDecl

/-- `asAtom` (`src/utils/SExpressions.h:26`): `std::get` throws on the other alternative. -/
def asAtom : SExp → Option Str
  | .atom s => some s
  | .list _ => none

/-- `asSubExpressions` (`src/utils/SExpressions.h:30`). -/
def asSub : SExp → Option (List SExp)
  | .atom _ => none
  | .list es => some es

/-- `resolveDeclareFun` (`src/vmt/FrontEnd.cc:130-134`): only the first and the third argument are read. -/
def resolveDeclareFun (b : Builder) (args : List SExp) : Option Builder := do
  let x ← asAtom (← args[0]?)
  let ty ← asAtom (← args[2]?)
  return { b with vars := b.vars ++ [⟨x, ty⟩] }

/-- `resolveDefineFun` (`src/vmt/FrontEnd.cc:136-147`). -/
def resolveDefineFun (b : Builder) (args : List SExp) : Option Builder := do
  let x ← asAtom (← args[0]?)
  let ps ← asSub (← args[1]?)
  if ps.isEmpty then
    let ty ← asAtom (← args[2]?)
    let body ← args[3]?
    return { b with defs := b.defs ++ [⟨x, ty, body⟩] }
  else none

/-- `VMTModelBuilder::resolve` (`src/vmt/FrontEnd.cc:103-128`); `asCommand` (`26-32`). Assertions and information are
ignored (`src/vmt/FrontEnd.cc:117-123, 149-151`). -/
def resolve (b : Builder) : SExp → Option Builder
  | .list (.atom c :: args) =>
    if c = "declare-fun".toList then resolveDeclareFun b args
    else if c = "define-fun".toList then resolveDefineFun b args
    else if c = "assert".toList then (if args.isEmpty then none else some b)
    else if c = "set-info".toList then some b
    else none
  | _ => none

/-- The loop of `parse` (`src/vmt/FrontEnd.cc:96-99`). -/
def resolveAll (b : Builder) : List SExp → Option Builder
  | [] => some b
  | e :: es => (resolve b e).bind fun b' => resolveAll b' es

variable {T : Theory}

/-- What the front end asks of the logic: `mkConst` and the constructors of terms; `none` when they throw or give
`PTRef_Undef`. -/
structure VLogic (T : Theory) where
  const : Str → Option (Tm T)
  mkAnd : List (Tm T) → Option (Tm T)
  mkOr : List (Tm T) → Option (Tm T)
  mkNot : List (Tm T) → Option (Tm T)
  mkEq : List (Tm T) → Option (Tm T)
  mkLeq : List (Tm T) → Option (Tm T)
  mkPlus : List (Tm T) → Option (Tm T)
  mkNeg : Tm T → Option (Tm T)
  mkMinus : List (Tm T) → Option (Tm T)
  mkTimes : List (Tm T) → Option (Tm T)

/-- The variable of a name (`mkIntVar`, `mkRealVar`, `mkBoolVar`, `mkVar`). Simplification: variables are told apart by name
only; `nameToVar` keeps one variable for each name. -/
def varOf (x : Str) : Tm T := .var (.base (.user (String.ofList x)))

/-- The choice of the logic (`src/vmt/FrontEnd.cc:154-184`): `none` for an unknown type or a mixture; `some true` for integers. -/
def chooseLogic (types : List Str) : Option Bool :=
  let reals := types.any (· == "Real".toList)
  let ints := types.any (· == "Int".toList)
  let other := types.any fun t => !(t == "Real".toList || t == "Int".toList || t == "Bool".toList)
  if other then none else if reals && ints then none else some (!reals && ints)

/-- The operators (`src/vmt/FrontEnd.cc:236-256`). -/
def applyOp (L : VLogic T) (op : Str) (args : List (Tm T)) : Option (Tm T) :=
  if op = "and".toList then L.mkAnd args
  else if op = "or".toList then L.mkOr args
  else if op = "not".toList then L.mkNot args
  else if op = "=".toList then L.mkEq args
  else if op = "<=".toList then L.mkLeq args
  else if op = "+".toList then L.mkPlus args
  else if op = "-".toList then
    match args with
    | [a] => L.mkNeg a
    | args => L.mkMinus args
  else if op = "*".toList then L.mkTimes args
  else none

mutual
/-- `parseTerm` (`src/vmt/FrontEnd.cc:212-259`). `vars` and `defs` are `nameToVar` and `nameToDef`. -/
def parseTerm (L : VLogic T) (vars defs : List (Str × Tm T)) : SExp → Option (Tm T)
  | .atom s =>
    match vars.lookup s with
    | some t => some t
    | none =>
      match defs.lookup s with
      | some t => some t
      | none => L.const s
  | .list [] => none
  | .list (.list _ :: _) => none
  | .list (.atom op :: args) => (parseTerms L vars defs args).bind (applyOp L op)

/-- The loop over the arguments (`src/vmt/FrontEnd.cc:233-235`). -/
def parseTerms (L : VLogic T) (vars defs : List (Str × Tm T)) : List SExp → Option (List (Tm T))
  | [] => some []
  | e :: es => (parseTerm L vars defs e).bind fun t => (parseTerms L vars defs es).bind fun ts => some (t :: ts)
end

/-- `gatherer` (`src/vmt/FrontEnd.cc:186-195`). A map is a list of pairs, the first pair with a key counts (`insert` keeps
an existing entry). -/
structure Gatherer (T : Theory) where
  vars : List (Str × Tm T)
  pairs : List (Tm T × Tm T)
  defs : List (Str × Tm T)
  init : Option (Tm T)
  trans : Option (Tm T)
  invar : List (Nat × Tm T)
  live : List (Nat × Tm T)

/-- `std::map::insert` on the index of a property. -/
def insertProp (m : List (Nat × Tm T)) (i : Nat) (t : Tm T) : List (Nat × Tm T) :=
  if (m.lookup i).isSome then m else m ++ [(i, t)]

/-- `unsigned index = std::stoull(...)` (`src/vmt/FrontEnd.cc:278, 282`): the digits at the front, truncated to 32 bits.
Simplification: no leading space or sign. -/
def stoull (s : Str) : Option Nat :=
  (Names.readNat s).bind fun n => if n < 2 ^ 64 then some (n % 2 ^ 32) else none

/-- The loop over the annotations (`src/vmt/FrontEnd.cc:270-297`). -/
def annotations (term : Tm T) : List SExp → Gatherer T → Option (Gatherer T)
  | [], g => some g
  | .list _ :: _, _ => none
  | [.atom a], g =>
    if a = ":init".toList then some { g with init := some term }
    else if a = ":trans".toList then some { g with trans := some term }
    else if a = ":invar-property".toList || a = ":live-property".toList || a = ":next".toList then none
    else some g
  | .atom a :: e :: es, g =>
    if a = ":init".toList then annotations term (e :: es) { g with init := some term }
    else if a = ":trans".toList then annotations term (e :: es) { g with trans := some term }
    else if a = ":invar-property".toList then
      (asAtom e).bind fun s => (stoull s).bind fun i => annotations term es { g with invar := insertProp g.invar i term }
    else if a = ":live-property".toList then
      (asAtom e).bind fun s => (stoull s).bind fun i => annotations term es { g with live := insertProp g.live i term }
    else if a = ":next".toList then
      (asAtom e).bind fun x =>
        match g.vars.lookup x with
        | some t => annotations term es { g with pairs := g.pairs ++ [(term, t)] }
        | none => annotations term es { g with vars := g.vars ++ [(x, varOf x)], pairs := g.pairs ++ [(term, varOf x)] }
    else annotations term (e :: es) g

/-- The body of the loop over the definitions (`src/vmt/FrontEnd.cc:261-303`). -/
def gatherDef (L : VLogic T) (g : Gatherer T) (d : DefDecl) : Option (Gatherer T) :=
  match d.value with
  | .list (.atom op :: es) =>
    if op = "!".toList then
      match es with
      | [] => none
      | e :: anns =>
        (parseTerm L g.vars g.defs e).bind fun t => (annotations t anns g).bind fun g' =>
          some { g' with defs := g'.defs ++ [(d.name, t)] }
    else (parseTerm L g.vars g.defs d.value).bind fun t => some { g with defs := g.defs ++ [(d.name, t)] }
  | _ => none

def gatherDefs (L : VLogic T) (g : Gatherer T) : List DefDecl → Option (Gatherer T)
  | [] => some g
  | d :: ds => (gatherDef L g d).bind fun g' => gatherDefs L g' ds

/-- `VMTModel` (`src/vmt/FrontEnd.cc:35-62`). `ints` are the names of the integer variables (their sorts, which the logic
knows). -/
structure VModel (T : Theory) where
  stateVars : List (Tm T)
  nextStateVars : List (Tm T)
  init : Option (Tm T)
  trans : Option (Tm T)
  invar : List (Nat × Tm T)
  live : List (Nat × Tm T)
  ints : List Str

/-- The names of the integer variables: the first declaration of a name counts. -/
def intNames (vs : List VarDecl) : List Str :=
  (vs.map VarDecl.name).filter fun x => (vs.find? fun v => v.name == x).any fun v => v.type == "Int".toList

/-- `VMTModelBuilder::build` (`src/vmt/FrontEnd.cc:153-318`). -/
def build (L : Bool → VLogic T) (b : Builder) : Option (VModel T) :=
  (chooseLogic (b.vars.map VarDecl.type ++ b.defs.map DefDecl.type)).bind fun k =>
    (gatherDefs (L k) ⟨b.vars.map fun v => (v.name, varOf v.name), [], [], none, none, [], []⟩ b.defs).bind fun g =>
      some ⟨g.pairs.map Prod.fst, g.pairs.map Prod.snd, g.init, g.trans, g.invar, g.live, intNames b.vars⟩

/-- `VMTModel::asChcs` (`src/vmt/FrontEnd.cc:320-342`): the property is the one with index zero (`std::map::at` throws).
`P` is the first predicate. -/
def asChcs (m : VModel T) : Option (List (Clause T)) := do
  let init ← m.init
  let trans ← m.trans
  let prop ← m.invar.lookup 0
  return [⟨(.p 0, m.stateVars), .atom init, []⟩,
    ⟨(.p 0, m.nextStateVars), .atom trans, [(.p 0, m.stateVars)]⟩,
    ⟨(.fls, []), .not (.atom prop), [(.p 0, m.stateVars)]⟩]

/-- A line on the standard output (`src/vmt/FrontEnd.cc:351-382`). -/
inductive VLine where
  | safe | unsafeAns | unknown | valid | error
deriving DecidableEq, Repr

/-- `printAnswer` (`src/vmt/FrontEnd.cc:368-382`). -/
def answerLine : VAnswer → VLine
  | .safe => .safe
  | .unsafeAns => .unsafeAns
  | .unknown => .unknown

abbrev HEngine (T : Theory) := PRepr → GS T → Outcome (VerificationResult T)

/-- `solveSafetyProblem` (`src/vmt/FrontEnd.cc:384-401`): what is printed and how it ends. Simplification: the exception for
nonlinear terms is not thrown here; terms are built before. -/
def solveSafety (rw : Fla T → Fla T) (E : ElimExcept T) (engine : HEngine T) (m : VModel T) : List VLine × Outcome Unit :=
  match asChcs m with
  | none => ([], .thrown)
  | some cs =>
    match pipeline [simplifyStage (normalize cs).1.repr rw E] (initialGraph cs) with
    | .done (st, _) =>
      match engine (normalize cs).1.repr st with
      | .done r => ([answerLine r.answer], .done ())
      | .thrown => ([], .thrown)
      | .outOfFuel => ([], .outOfFuel)
    | .thrown => ([], .thrown)
    | .outOfFuel => ([], .outOfFuel)

/-- `run` (`src/vmt/FrontEnd.cc:409-420`) after the file is read, with the solver for liveness problems as a parameter. -/
def runModel (L : Bool → VLogic T) (rw : Fla T → Fla T) (E : ElimExcept T) (engine : HEngine T)
    (liveness : VModel T → List VLine × Outcome Unit) (file : List SExp) : List VLine × Outcome Unit :=
  match (resolveAll ⟨[], []⟩ file).bind (build L) with
  | none => ([], .thrown)
  | some m =>
    if m.invar.length = 1 ∧ m.live = [] then solveSafety rw E engine m
    else if m.live.length = 1 ∧ m.invar = [] then liveness m
    else ([.unknown], .done ())

/-- `run` (`src/vmt/FrontEnd.cc:409-420`) on the text of the file; `n` bounds the steps of the reader. -/
def run (n : Nat) (L : Bool → VLogic T) (rw : Fla T → Fla T) (E : ElimExcept T) (engine : HEngine T)
    (liveness : VModel T → List VLine × Outcome Unit) (input : List Char) : List VLine × Outcome Unit :=
  match SExpr.readLoop n [] (SExpr.start input) with
  | .done file => runModel L rw E engine liveness file
  | .thrown => ([], .thrown)
  | .outOfFuel => ([], .outOfFuel)

/-! ### Liveness -/

/-- The name `sendVarThroughTime(var, 1)` makes (`src/TermUtils.h:221-232`). -/
def nextName (x : Str) : Option Str := Names.sendVarThroughTime x 1

/-- The name of a variable of the input. -/
def varName : Tm T → Option Str
  | .var (.base (.user s)) => some s.toList
  | _ => none

/-- `sendVarThroughTime(var, 1)` for all variables of a list. -/
def nextTerms : List (Tm T) → Option (List (Tm T))
  | [] => some []
  | t :: ts => (varName t).bind fun x => (nextName x).bind fun y => (nextTerms ts).bind fun us => some (varOf y :: us)

/-- `asLivenessProblem` (`src/vmt/FrontEnd.cc:344-349`): the initial states, the transition relation and the property, if the
constructor of `TransitionSystem` accepts them (`src/TransitionSystem.h:49-57`, `src/TransitionSystem.cc:17-38, 86-103`). -/
def asLiveness (m : VModel T) : Option (Tm T × Tm T × Tm T) := do
  let init ← m.init
  let trans ← m.trans
  let next ← nextTerms m.stateVars
  let prop ← m.live.head?.map Prod.snd
  let sv := m.stateVars.flatMap Tm.vars
  let nv := next.flatMap Tm.vars
  if init.vars.all (sv.contains ·) && prop.vars.all (sv.contains ·) && trans.vars.all ((sv ++ nv).contains ·) then
    return (init, trans, prop)
  else none

/-- `counter0`, `counter1` (`src/vmt/StepCounter.cc:20-23`). -/
def ctr0 : Str := "counter##0".toList
def ctr1 : Str := "counter##1".toList

/-- `lowerBounds` (`src/vmt/StepCounter.cc:25-31`). -/
def lowerBounds (ints : List Str) (vars : List (Tm ctrTheory)) : List (Tm ctrTheory) :=
  intConst 0 :: vars.flatMap fun t =>
    match varName t with
    | some x => if ints.contains x then [t, .ap1 IntSym.neg t] else []
    | none => []

/-- The clauses of the step counter (`src/vmt/StepCounter.cc:16-82`). -/
def counterClauses (m : VModel ctrTheory) : Option (List (Clause ctrTheory)) := do
  let (init, trans, prop) ← asLiveness m
  let next ← nextTerms (m.stateVars ++ [varOf ctr0])
  let cur := m.stateVars ++ [varOf ctr0]
  let c0 : Tm ctrTheory := varOf ctr0
  let c1 : Tm ctrTheory := varOf ctr1
  let start := Fla.conj ((lowerBounds m.ints m.stateVars).map fun b => Fla.atom (.ap2 IntSym.gt c0 b))
  return [⟨(.p 0, cur), .and (.atom init) start, []⟩,
    ⟨(.p 0, next), .and (.atom trans) (.and (.not (.atom prop)) (.eq c1 c0)), [(.p 0, cur)]⟩,
    ⟨(.p 0, next), .and (.atom trans) (.and (.atom prop) (.eq c1 (.ap2 IntSym.minus c0 (intConst 1)))), [(.p 0, cur)]⟩,
    ⟨(.fls, []), .atom (.ap2 IntSym.lt c0 (intConst 0)), [(.p 0, cur)]⟩]

/-- `printLivenessAnswer` (`src/vmt/FrontEnd.cc:351-366`) after the answers of `checkLiveness`
(`src/vmt/StepCounter.cc:93-102`). -/
def livenessLine : VAnswer → VLine
  | .safe => .valid
  | .unknown => .error
  | .unsafeAns => .unknown

/-- `solveLivenessProblem` (`src/vmt/FrontEnd.cc:403-407`), `StepCounter::checkLiveness` (`src/vmt/StepCounter.cc:15-103`). -/
def solveLiveness (engine : HEngine ctrTheory) (m : VModel ctrTheory) : List VLine × Outcome Unit :=
  match counterClauses m with
  | none => ([], .thrown)
  | some cs =>
    match engine (normalize cs).1.repr (initialGraph cs) with
    | .done r => ([livenessLine r.answer], .done ())
    | .thrown => ([], .thrown)
    | .outOfFuel => ([], .outOfFuel)

end Vmt
end Golem
