import Mathlib.Algebra.Order.Ring.Int
import Mathlib.Data.List.Dedup
import Mathlib.Algebra.Order.Field.Rat
import Verif.Model.NormalForms
import Verif.Model.QE

/-!
Model-based projection: `src/ModelBasedProjection.cc`, for linear real and for linear integer arithmetic.

Simplifications: linear terms are polynomials kept as lists of monomials (OpenSMT's canonical form is recovered by
`Poly.norm` when a term is written out), so "contains the variable" is "has a non-zero coefficient". Inequalities are
`0 <= p`, equalities `p = 0` (OpenSMT keeps them as `c <= t`, `t = c`; gcd normalization is dropped). The order of the
literals of an implicant after `std::partition` and swap-removal is not kept (an implicant is a conjunction).
-/

namespace Golem

/-- The arithmetic function symbols: `+`, `*`, `<=` (as a Boolean valued function) and `mod`. -/
inductive ASym where
  | plus | times | leq | mod
deriving DecidableEq, Repr

/-- Arithmetic as a theory (`ArithLogic`): values are numbers, the Boolean values are one (true) and zero (false), `md`
interprets `mod`. -/
abbrev laTheory (K : Type) [CommRing K] [LinearOrder K] [Nontrivial K] (md : K → K → K) : Theory where
  Val := K
  Sym := ASym
  decVal := inferInstance
  decSym := inferInstance
  ap1 _ a := a
  ap2 f a b := match f with
    | .plus => a + b
    | .times => a * b
    | .leq => if a ≤ b then 1 else 0
    | .mod => md a b
  ap3 _ a _ _ := a
  truth v := decide (v ≠ 0)
  vT := 1
  vF := 0
  truth_vT := by simp
  truth_vF := by simp

/-- Linear integer arithmetic. -/
abbrev intTheory : Theory := laTheory Int fun a b => a % b

/-- Linear real arithmetic (OpenSMT's reals are rationals); there is no `mod` on reals. -/
abbrev realTheory : Theory := laTheory Rat fun a _ => a

/-- A linear term: monomials and a constant. -/
structure Poly (K : Type) where
  cs : List (Var × K)
  k : K
deriving DecidableEq

namespace Poly
variable {K : Type} [CommRing K] [DecidableEq K]

/-- `Model::evaluate` on a linear term. -/
def eval (ρ : Var → K) (p : Poly K) : K := (p.cs.map fun m => m.2 * ρ m.1).sum + p.k

/-- Coefficient of a variable (zero if it does not occur). -/
def coeff (p : Poly K) (x : Var) : K := ((p.cs.filter fun m => decide (m.1 = x)).map Prod.snd).sum

/-- The term without the monomials of `x`: second component of `separateVarFromTerm`
(`src/ModelBasedProjection.cc:81-98`). -/
def erase (p : Poly K) (x : Var) : Poly K := ⟨p.cs.filter fun m => decide (m.1 ≠ x), p.k⟩

def const (c : K) : Poly K := ⟨[], c⟩
def ofVar (x : Var) : Poly K := ⟨[(x, 1)], 0⟩

/-- `logic.mkPlus`. -/
def add (p q : Poly K) : Poly K := ⟨p.cs ++ q.cs, p.k + q.k⟩

/-- `logic.mkTimes` with a constant. -/
def smul (c : K) (p : Poly K) : Poly K := ⟨p.cs.map fun m => (m.1, c * m.2), c * p.k⟩

/-- `logic.mkNeg`. -/
def neg (p : Poly K) : Poly K := smul (-1) p

/-- `logic.mkMinus`. -/
def sub (p q : Poly K) : Poly K := p.add q.neg

/-- Substitution of a linear term for a variable (`Substitutor::rewrite`, `TermUtils::varSubstitute`). -/
def subst (p : Poly K) (x : Var) (s : Poly K) : Poly K := (p.erase x).add (smul (p.coeff x) s)

/-- `LATermUtils::termContainsVar` (`src/TermUtils.cc:508-526`). -/
def hasVar (p : Poly K) (x : Var) : Bool := decide (p.coeff x ≠ 0)

/-- The variables with non-zero coefficient. -/
def vars (p : Poly K) : List Var := (p.cs.map Prod.fst).dedup.filter fun x => p.hasVar x

/-- No variable occurs: `logic.isNumConst`. -/
def isConst (p : Poly K) : Bool := p.cs.all fun m => !p.hasVar m.1

/-- Equality of canonical terms (`PTRef` equality of hash-consed terms). -/
def same (p q : Poly K) : Bool := (p.sub q).isConst && decide ((p.sub q).k = 0)

/-- Canonical form: one monomial per variable, no zero coefficients. -/
def norm (p : Poly K) : Poly K := ⟨p.vars.map fun x => (x, p.coeff x), p.k⟩

end Poly

section
variable {K : Type} [CommRing K] [LinearOrder K] [Nontrivial K] {md : K → K → K}

/-- The term as an OpenSMT term. -/
def Poly.toTm (p : Poly K) : Tm (laTheory K md) :=
  p.norm.cs.foldr (fun m t => .ap2 .plus (.ap2 .times (.const m.2) (.var m.1)) t) (.const p.k)

/-- Reading an OpenSMT term as a linear term; `none` if it is not linear. -/
def Poly.ofTm : Tm (laTheory K md) → Option (Poly K)
  | .var x => some (.ofVar x)
  | .const c => some (.const c)
  | .ap2 .plus a b => do return (← Poly.ofTm a).add (← Poly.ofTm b)
  | .ap2 .times a b => do
    let p ← Poly.ofTm a
    let q ← Poly.ofTm b
    if p.isConst then return .smul p.k q else if q.isConst then return .smul q.k p else none
  | _ => none

end

/-- Arithmetic atoms: `0 <= p`, `p = 0`, and `p mod c = 0`. -/
inductive MAtom (K : Type) where
  | leq (p : Poly K)
  | eq (p : Poly K)
  | dvd (c : K) (p : Poly K)
deriving DecidableEq

/-- `PtAsgn` over arithmetic atoms. -/
abbrev MLit (K : Type) := MAtom K × Bool

namespace MAtom
variable {K : Type}

def poly : MAtom K → Poly K
  | .leq p | .eq p | .dvd _ p => p

def map (g : Poly K → Poly K) : MAtom K → MAtom K
  | .leq p => .leq (g p)
  | .eq p => .eq (g p)
  | .dvd c p => .dvd c (g p)

end MAtom

section
variable {K : Type} [CommRing K] [LinearOrder K] [Nontrivial K] {md : K → K → K}

/-- `LATermUtils::atomContainsVar` (`src/TermUtils.cc:528-545`). -/
def MLit.hasVar (x : Var) (l : MLit K) : Bool := l.1.poly.hasVar x

/-- Substitution in a literal (`it2->tr = substitutor.rewrite(it2->tr)`, `src/ModelBasedProjection.cc:165-167`). -/
def MLit.subst (x : Var) (s : Poly K) (l : MLit K) : MLit K := (l.1.map fun p => p.subst x s, l.2)

/-- The literal as a formula. -/
def MAtom.fla : MAtom K → Fla (laTheory K md)
  | .leq p => .atom (.ap2 .leq (.const 0) p.toTm)
  | .eq p => .eq p.toTm (.const 0)
  | .dvd c p => .eq (.ap2 .mod p.toTm (.const c)) (.const 0)

def MLit.fla (l : MLit K) : Fla (laTheory K md) := if l.2 then l.1.fla else .not l.1.fla

/-- Reading a literal: inequalities, divisibility constraints `t mod c = 0` with positive constant `c`
(`isDivisibilityConstraint`, `toDivConstraint`, `src/ModelBasedProjection.cc:506-532`), other equalities; `none` for
anything else (non-linear terms, Boolean terms, uninterpreted functions). -/
def MAtom.parse : Fla (laTheory K md) → Option (MAtom K)
  | .atom (.ap2 .leq a b) => do return .leq ((← Poly.ofTm b).sub (← Poly.ofTm a))
  | .eq (.ap2 .mod t (.const c)) (.const v) =>
    if 0 < c ∧ v = 0 then do return .dvd c (← Poly.ofTm t) else none
  | .eq (.const v) (.ap2 .mod t (.const c)) =>
    if 0 < c ∧ v = 0 then do return .dvd c (← Poly.ofTm t) else none
  | .eq a b => do return .eq ((← Poly.ofTm a).sub (← Poly.ofTm b))
  | _ => none

def MLit.parse (l : Lit (laTheory K md)) : Option (MLit K) := do return (← MAtom.parse l.1, l.2)

/-- Literals that simplify to the constant true (`src/ModelBasedProjection.cc:173-174`); divisibility constraints are not
simplified here. -/
def MLit.trivial (l : MLit K) : Bool :=
  match l with
  | (.leq p, s) => p.isConst && (decide (0 ≤ p.k) == s)
  | (.eq p, s) => p.isConst && (decide (p.k = 0) == s)
  | (.dvd _ _, _) => false

/-! ### `postprocess` (`src/ModelBasedProjection.cc:117-119`): `LATermUtils::simplifyConjunction` -/

/-- `bounds` in `simplifyJunction<Conjunction>` (`src/TermUtils.cc:618-649`): lookup or insertion; the constant of
`0 <= t + k` is `-k`. -/
def addBound (t : List (Var × K)) (sign : Bool) (k : K) : List ((List (Var × K) × Bool) × K) →
    List ((List (Var × K) × Bool) × K)
  | [] => [((t, sign), k)]
  | (key, k') :: bs =>
    if key = (t, sign) then
      (key, if (if sign then decide (-k > -k') else decide (-k < -k')) then k else k') :: bs
    else (key, k') :: addBound t sign k bs

/-- The loop over the literals (`src/TermUtils.cc:619-649`): `view` recognizes inequalities. -/
def gatherBounds {α : Type} (view : α → Option (Poly K × Bool)) :
    List α → List α × List ((List (Var × K) × Bool) × K) → List α × List ((List (Var × K) × Bool) × K)
  | [], st => st
  | l :: ls, (tmp, bs) =>
    match view l with
    | some (p, s) => gatherBounds view ls (tmp, addBound p.norm.cs s p.k bs)
    | none => gatherBounds view ls (tmp ++ [l], bs)

/-- `LATermUtils::simplifyConjunction` (`src/TermUtils.cc:615-666`). -/
def postprocess {α : Type} (view : α → Option (Poly K × Bool)) (mk : Poly K × Bool → α) (ls : List α) : List α :=
  let (tmp, bs) := gatherBounds view ls ([], [])
  if bs.length + tmp.length < ls.length then tmp ++ bs.map fun b => mk (⟨b.1.1, b.2⟩, b.1.2) else ls

def MLit.view : MLit K → Option (Poly K × Bool)
  | (.leq p, s) => some (p, s)
  | _ => none

def MLit.mkLeq (b : Poly K × Bool) : MLit K := (.leq b.1, b.2)

end

/-! ### Reals: `projectSingleVar` (`src/ModelBasedProjection.cc:121-305`) -/

/-- Outcome of the preprocessing loop. -/
inductive RealScan where
  | eq (p : Poly Rat) (all : List (MLit Rat))
  | ineqs (l : List (MLit Rat))

/-- The strict inequality replacing a disequality, the one true in the model
(`src/ModelBasedProjection.cc:187-202`): `p < 0` is `not (0 <= p)`, `0 < p` is `not (0 <= -p)`. -/
def replaceDiseq (ρ : Var → Rat) (p : Poly Rat) : MLit Rat :=
  if p.eval ρ < 0 then (.leq p, false) else (.leq p.neg, false)

/-- The preprocessing loop over the literals containing the variable (`src/ModelBasedProjection.cc:151-205`). -/
def realScan (ρ : Var → Rat) : List (MLit Rat) → List (MLit Rat) → RealScan
  | acc, [] => .ineqs acc
  | acc, (.eq p, true) :: ls => .eq p (acc ++ (.eq p, true) :: ls)
  | acc, (.eq p, false) :: ls => realScan ρ (acc ++ [replaceDiseq ρ p]) ls
  | acc, l :: ls => realScan ρ (acc ++ [l]) ls

/-- `struct Bound` (`src/ModelBasedProjection.cc:14-20`). -/
structure Bound where
  lower : Bool
  val : Poly Rat
  strict : Bool

/-- `utils.expressZeroTermFor(zeroTerm, var)`, also the value of a bound (`src/ModelBasedProjection.cc:228-242`). -/
def solveFor (x : Var) (p : Poly Rat) : Poly Rat := .smul (-1 / p.coeff x) (p.erase x)

/-- A literal as a bound (`src/ModelBasedProjection.cc:213-248`); `none` for anything but an inequality. -/
def toBound (x : Var) : MLit Rat → Option Bound
  | (.leq p, s) => some ⟨if p.coeff x < 0 then !s else s, solveFor x p, !s⟩
  | _ => none

def mkLt (a b : Poly Rat) : MLit Rat := (.leq (a.sub b), false)
def mkLeq (a b : Poly Rat) : MLit Rat := (.leq (b.sub a), true)

/-- `substituteBound(what, where)` (`src/ModelBasedProjection.cc:22-43`); `none` is the exception. -/
def substituteBound (what wh : Bound) : Option (MLit Rat) :=
  if !what.lower && !wh.lower then none
  else if wh.lower && what.lower then
    if wh.strict && !what.strict then some (mkLt wh.val what.val) else some (mkLeq wh.val what.val)
  else
    let upper := if !wh.lower then wh else what
    let lower := if !wh.lower then what else wh
    if upper.strict || lower.strict then some (mkLt lower.val upper.val) else some (mkLeq lower.val upper.val)

/-- `substituteBound(what, vector)` (`src/ModelBasedProjection.cc:45-56`). -/
def substituteBounds (what : Bound) (wh : List Bound) : Option (List (MLit Rat)) := do
  return (← wh.mapM (substituteBound what)).filter fun l => !l.trivial

/-- The search for the highest lower bound (`src/ModelBasedProjection.cc:271-296`). -/
def pickHighest (ρ : Var → Rat) (us : List Bound) : Bound → List Bound → Bound
  | cur, [] => cur
  | cur, b :: bs =>
    if b.val.eval ρ > cur.val.eval ρ ∨ (b.val.eval ρ = cur.val.eval ρ ∧ b.strict = true) then pickHighest ρ us b bs
    else if b.val.eval ρ = cur.val.eval ρ ∧ (us.any fun u => u.val.same b.val) = true then b
    else pickHighest ρ us cur bs

/-- The literals replacing the bounds when there are lower bounds `l, ls` and upper bounds `u, us`
(`src/ModelBasedProjection.cc:256-300`). -/
def newLiterals (ρ : Var → Rat) (bounds : List Bound) (l : Bound) (ls : List Bound) (u : Bound) (us : List Bound) :
    Option (List (MLit Rat)) :=
  if us.isEmpty then substituteBounds u (l :: ls)
  else if ls.isEmpty then substituteBounds l (u :: us)
  else substituteBounds (pickHighest ρ (u :: us) l ls) bounds

/-- Elimination from inequalities (`src/ModelBasedProjection.cc:251-304`). -/
def projectBounds (ρ : Var → Rat) (bounds : List Bound) (rest : List (MLit Rat)) : Option (List (MLit Rat)) :=
  let ls := bounds.filter (·.lower)
  let us := bounds.filter (fun b => !b.lower)
  match ls, us with
  | [], _ => some rest
  | _, [] => some rest
  | l :: ls', u :: us' => do
    return postprocess MLit.view MLit.mkLeq ((← newLiterals ρ bounds l ls' u us') ++ rest)

/-- `projectSingleVar` for a real variable (`src/ModelBasedProjection.cc:121-305`). -/
def projectRealVar (ρ : Var → Rat) (x : Var) (lits : List (MLit Rat)) : Option (List (MLit Rat)) :=
  let inter := lits.filter (MLit.hasVar x)
  let rest := lits.filter fun l => !MLit.hasVar x l
  match realScan ρ [] inter with
  | .eq p all => some ((all.map (MLit.subst x (solveFor x p)) ++ rest).filter fun l => !l.trivial)
  | .ineqs l => do projectBounds ρ (← l.mapM (toBound x)) rest

/-- The loop over the variables (`src/ModelBasedProjection.cc:477-483`). -/
def projectRealVars (ρ : Var → Rat) : List Var → List (MLit Rat) → Option (List (MLit Rat))
  | [], lits => some lits
  | x :: xs, lits => do projectRealVars ρ xs (← projectRealVar ρ x lits)

/-! ### Integers (`src/ModelBasedProjection.cc:501-903`) -/

/-- `DivisibilityConstraint`. -/
structure DivC where
  c : Int
  p : Poly Int
deriving DecidableEq

/-- `LIABound`, `LIABoundLower`, `LIABoundUpper`: `a x = t`, `t <= a x`, `a x <= t`. -/
inductive IBound where
  | eq (t : Poly Int) (a : Int)
  | lower (t : Poly Int) (a : Int)
  | upper (t : Poly Int) (a : Int)

/-- Classification of a literal containing the variable (`src/ModelBasedProjection.cc:675-751`); `none` is the failing
`assert(isLeq)`. -/
def toIBound (ρ : Var → Int) (x : Var) : MLit Int → Option IBound
  | (.eq p, true) =>
    let c := p.coeff x
    let r := p.erase x
    some (if c < 0 then .eq r (-c) else .eq r.neg c)
  | (.eq p, false) =>
    let c := p.coeff x
    let r := p.erase x
    some (if 0 < p.eval ρ then
        (if 0 < c then .lower (.add (.const 1) r.neg) c else .upper (.add (.const (-1)) r) (-c))
      else (if 0 < c then .upper (.add (.const (-1)) r.neg) c else .lower (.add (.const 1) r) (-c)))
  | (.leq p, s) =>
    let p := if s then p else .sub (.const (-1)) p
    let c := p.coeff x
    let r := p.erase x
    some (if 0 < c then .lower r.neg c else .upper r (-c))
  | (.dvd _ _, _) => none

/-- `lower`, `upper`, `equal` (`src/ModelBasedProjection.cc:672-674`), as pairs (term, coefficient). -/
def lowersOf (bs : List IBound) : List (Poly Int × Int) := bs.filterMap fun | .lower t a => some (t, a) | _ => none
def uppersOf (bs : List IBound) : List (Poly Int × Int) := bs.filterMap fun | .upper t a => some (t, a) | _ => none
def equalsOf (bs : List IBound) : List (Poly Int × Int) := bs.filterMap fun | .eq t a => some (t, a) | _ => none

/-- `mkLeq(a, b)` on integer terms, dropped when it is the constant true. -/
def iLeq (a b : Poly Int) : List (MLit Int) := [(MAtom.leq (b.sub a), true)].filter fun l => !l.trivial

/-- `mkEq(a, b)` on integer terms, dropped when it is the constant true. -/
def iEq (a b : Poly Int) : List (MLit Int) := [(MAtom.eq (a.sub b), true)].filter fun l => !l.trivial

/-- `maxElementWithProjection` (`src/ModelBasedProjection.cc:583-596`): the first bound with the greatest `value / coeff`
(a rational number), with the others in order. `cur` is the current maximum. -/
def pickGreatest (ρ : Var → Int) : Poly Int × Int → List (Poly Int × Int) → List (Poly Int × Int) →
    (Poly Int × Int) × List (Poly Int × Int)
  | cur, others, [] => (cur, others)
  | cur, others, b :: bs =>
    if ((b.1.eval ρ : Int) : Rat) / b.2 > ((cur.1.eval ρ : Int) : Rat) / cur.2 then pickGreatest ρ b (others ++ [cur]) bs
    else pickGreatest ρ cur (others ++ [b]) bs

/-- `resolve(lower, upper, model)` (`src/ModelBasedProjection.cc:845-903`). -/
def resolve (ρ : Var → Int) (low up : Poly Int × Int) : List (MLit Int) × List DivC :=
  let (s, b) := low
  let (t, a) := up
  let mul := (a - 1) * (b - 1)
  if mul ≤ b * t.eval ρ - a * s.eval ρ then
    (iLeq (.add (.smul a s) (.const mul)) (.smul b t), [])
  else if a ≥ b then
    let d := (-(s.eval ρ)) % b
    let m := s.add (.const d)
    (iLeq (.smul a s) (.smul b t) ++ (if d = 0 then [] else iLeq (.smul a m) (.smul b t)), [⟨b, m⟩])
  else
    let d := t.eval ρ % a
    let m := t.sub (.const d)
    (iLeq (.smul a s) (.smul b t) ++ (if d = 0 then [] else iLeq (.smul a s) (.smul b m)), [⟨a, m⟩])

/-- What replaces the bounds: new divisibility constraints and new literals (`src/ModelBasedProjection.cc:753-832`). -/
def eliminateBounds (ρ : Var → Int) (bs : List IBound) : List DivC × List (MLit Int) :=
  match equalsOf bs with
  | [] =>
    match lowersOf bs, uppersOf bs with
    | [], _ => ([], [])
    | _, [] => ([], [])
    | l :: ls, us =>
      let g := pickGreatest ρ l [] ls
      let newLow := g.2.flatMap fun b => iLeq (.smul g.1.2 b.1) (.smul b.2 g.1.1)
      (us.flatMap fun u => (resolve ρ g.1 u).2, newLow ++ us.flatMap fun u => (resolve ρ g.1 u).1)
  | (t, a) :: eqs =>
    let newEq := eqs.flatMap fun b => iEq (.smul a b.1) (.smul b.2 t)
    let newLow := (lowersOf bs).flatMap fun b => iLeq (.smul a b.1) (.smul b.2 t)
    let newUp := (uppersOf bs).flatMap fun b => iLeq (.smul b.2 t) (.smul a b.1)
    (if a = 1 then [] else [⟨a, t⟩], newEq ++ newLow ++ newUp)

/-- `processClassicLiterals` (`src/ModelBasedProjection.cc:657-835`). -/
def processClassic (ρ : Var → Int) (x : Var) (divs : List DivC) (lits : List (MLit Int)) :
    Option (List DivC × List (MLit Int)) := do
  let inter := lits.filter (MLit.hasVar x)
  let rest := lits.filter fun l => !MLit.hasVar x l
  let new := eliminateBounds ρ (← inter.mapM (toIBound ρ x))
  return (divs ++ new.1, new.2 ++ rest)

/-- The name of the temporary variable (`src/ModelBasedProjection.cc:634`). -/
def mbpTmp : Var := .base (.user "MBP_LIA_tmp")

/-- `processDivConstraints` (`src/ModelBasedProjection.cc:604-655`). -/
def processDiv (ρ : Var → Int) (x : Var) (divs : List DivC) (lits : List (MLit Int)) :
    Option (List DivC × List (MLit Int)) :=
  let inter := divs.filter fun d => d.p.hasVar x
  let rest := divs.filter fun d => !d.p.hasVar x
  match inter with
  | [] => processClassic ρ x divs lits
  | d0 :: ds =>
    let d := ds.foldl (fun acc e => (Int.lcm acc e.c : Int)) d0.c
    let u := ρ x % d
    let divs' := (inter.map fun e => ⟨e.c, e.p.subst x (.const u)⟩) ++ rest
    let s := Poly.add (.const u) (.smul d (.ofVar mbpTmp))
    let ρ' := fun y => if y = mbpTmp then (ρ x - u) / d else ρ y
    processClassic ρ' mbpTmp divs' (lits.map (MLit.subst x s))

/-- One round of the loop (`src/ModelBasedProjection.cc:540-549`). -/
def projectIntVar (ρ : Var → Int) (x : Var) (divs : List DivC) (lits : List (MLit Int)) :
    Option (List DivC × List (MLit Int)) :=
  if divs.isEmpty then processClassic ρ x divs lits else processDiv ρ x divs lits

/-- The loop over the variables in `projectIntegerVars` (`src/ModelBasedProjection.cc:539-550`). -/
def projectIntLoop (ρ : Var → Int) : List Var → List DivC → List (MLit Int) → Option (List DivC × List (MLit Int))
  | [], divs, lits => some (divs, lits)
  | x :: xs, divs, lits => do
    let r ← projectIntVar ρ x divs lits
    projectIntLoop ρ xs r.1 r.2

/-- `isDivisibilityConstraint` and `toDivConstraint` (`src/ModelBasedProjection.cc:506-532`). -/
def MLit.toDiv : MLit Int → Option DivC
  | (.dvd c p, true) => some ⟨c, p⟩
  | _ => none

/-- `projectIntegerVars` (`src/ModelBasedProjection.cc:501-562`). -/
def projectIntVars (ρ : Var → Int) (xs : List Var) (lits : List (MLit Int)) : Option (List (MLit Int)) := do
  let divs := lits.filterMap MLit.toDiv
  let classic := lits.filter fun l => l.toDiv.isNone
  let (divs', lits') ← projectIntLoop ρ xs divs classic
  return lits' ++ divs'.map fun d => (.dvd d.c d.p, true)

/-! ### `project` (`src/ModelBasedProjection.cc:308-492`) -/

section
variable {T : Theory}

/-- `computeVarsInfo` (`src/ModelBasedProjection.cc:363-400`): does the formula contain a variable to eliminate? -/
def interesting (xs : List Var) (f : Fla T) : Bool := f.vars.any fun y => decide (y ∈ xs)

/-- `collectImplicant` (`src/ModelBasedProjection.cc:308-361`): `seen` is `processed`, `lits` the collected literals. -/
def collectImplicant (ρ : Valuation T) (xs : List Var) :
    Fla T → List (Fla T) × List (Lit T) → Option (List (Fla T) × List (Lit T))
  | .and f g, (seen, lits) =>
    if Fla.and f g ∈ seen then some (seen, lits)
    else do collectImplicant ρ xs g (← collectImplicant ρ xs f (.and f g :: seen, lits))
  | .or f g, (seen, lits) =>
    if Fla.or f g ∈ seen then some (seen, lits)
    else if !interesting xs (Fla.or f g) then some (.or f g :: seen, lits ++ [(.or f g, true)])
    else if f.holds ρ then collectImplicant ρ xs f (.or f g :: seen, lits)
    else if g.holds ρ then collectImplicant ρ xs g (.or f g :: seen, lits)
    else none
  | .not f, (seen, lits) =>
    if Fla.not f ∈ seen then some (seen, lits)
    else if f.isAtom then some (.not f :: seen, lits ++ [(f, false)]) else none
  | .iff _ _, _ => none
  | f, (seen, lits) => if f ∈ seen then some (seen, lits) else some (f :: seen, lits ++ [(f, true)])

end

section
variable {K : Type} [CommRing K] [LinearOrder K] [Nontrivial K] {md : K → K → K}

/-- Literals of the final conjunction: arithmetic ones, and formulas without variables to eliminate. -/
abbrev ELit (K : Type) [CommRing K] [LinearOrder K] [Nontrivial K] (md : K → K → K) := MLit K ⊕ Lit (laTheory K md)

def ELit.view : ELit K md → Option (Poly K × Bool)
  | .inl l => MLit.view l
  | .inr _ => none

def ELit.mk (b : Poly K × Bool) : ELit K md := .inl (MLit.mkLeq b)

def ELit.fla : ELit K md → Fla (laTheory K md)
  | .inl l => l.fla
  | .inr l => l.fla

/-- A literal is arithmetic if it can be read as such. -/
def ELit.ofLit (l : Lit (laTheory K md)) : ELit K md :=
  match MLit.parse l with
  | some m => .inl m
  | none => .inr l

/-- `ModelBasedProjection::project` (`src/ModelBasedProjection.cc:436-492`), over the procedure that eliminates the
arithmetic variables. `isBool` is `logic.hasSortBool`; `none` stands for the exceptions and failing assertions. -/
def mbpProject (core : (Var → K) → List Var → List (MLit K) → Option (List (MLit K))) (isBool : Var → Bool) :
    Mbp (laTheory K md) := fun f vs ρ =>
  let bs := vs.filter isBool
  let ns := vs.filter fun x => !isBool x
  let f1 := if bs = [] then f else f.subst fun x => if x ∈ bs then .const (ρ x) else .var x
  if ns = [] then some f1
  else do
    let nnf ← toNNF f1
    let (_, lits) ← collectImplicant ρ ns nnf ([], [])
    let w ← (lits.filter fun l => interesting ns l.1).mapM MLit.parse
    let r ← core ρ ns w
    let all := r.map Sum.inl ++ (lits.filter fun l => !interesting ns l.1).map ELit.ofLit
    return Fla.conj ((postprocess ELit.view ELit.mk all).map ELit.fla)

end

/-- Projection for linear real arithmetic. -/
def realMbp (isBool : Var → Bool) : Mbp realTheory := mbpProject projectRealVars isBool

/-- Projection for linear integer arithmetic. -/
def intMbp (isBool : Var → Bool) : Mbp intTheory := mbpProject projectIntVars isBool

/-- `ModelBasedProjection::keepOnly` (`src/ModelBasedProjection.cc:427-434`). -/
def mbpKeepOnly {T : Theory} (M : Mbp T) (f : Fla T) (keep : List Var) (ρ : Valuation T) : Option (Fla T) :=
  M f (f.vars.filter fun x => decide (x ∉ keep)) ρ

end Golem
