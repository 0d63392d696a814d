import Verif.Model.Frontend.Parse

/-!
The front end: from an asserted term to a Horn clause.

Models: `src/ChcInterpreter.cc:562-621` (`chclauseFromPTRef`, `isUninterpretedPredicate`), `src/TermUtils.h:69-116`
(`getTopLevelDisjuncts`), `src/ChcSystem.h:40-110` (`ChClause`, `PTRefToCHC`).
-/

namespace Golem
namespace Front
variable {T : Theory}

mutual
/-- Equality of terms (`PTRef ==`: terms are hash-consed). -/
def PT.beq : PT T → PT T → Bool
  | .var x s, .var y s' => x == y && s == s'
  | .const v, .const w => decide (v = w)
  | .ap1 f a, .ap1 g a' => decide (f = g) && a.beq a'
  | .ap2 f a b, .ap2 g a' b' => decide (f = g) && a.beq a' && b.beq b'
  | .ap3 f a b c, .ap3 g a' b' c' => decide (f = g) && a.beq a' && b.beq b' && c.beq c'
  | .pred p as, .pred q bs => p == q && PT.beqL as bs
  | .tt, .tt => true
  | .ff, .ff => true
  | .eq a b, .eq a' b' => a.beq a' && b.beq b'
  | .not a, .not a' => a.beq a'
  | .and as, .and bs => PT.beqL as bs
  | .or as, .or bs => PT.beqL as bs
  | _, _ => false

def PT.beqL : List (PT T) → List (PT T) → Bool
  | [], [] => true
  | a :: as, b :: bs => a.beq b && PT.beqL as bs
  | _, _ => false
end

/-- `logic.mkNot`. -/
def mkNot : PT T → PT T
  | .not t => t
  | .tt => .ff
  | .ff => .tt
  | t => .not t

/-- A term with a sign (`PtAsgn`). -/
abbrev SLit (T : Theory) := PT T × Bool

/-- `logic.purify`: strips negations and records the sign. -/
def ppurify : PT T → SLit T
  | .not t => ((ppurify t).1, !(ppurify t).2)
  | t => (t, true)

/-- The elements pushed for a popped one, or `none` if it is a disjunct (`src/TermUtils.h:87-101`, with
`Junction = Disjunction`). -/
def disjArgs : SLit T → Option (List (SLit T))
  | (.or ts, true) => some (ts.map ppurify)
  | (.and ts, false) => some (ts.map fun t => ((ppurify t).1, !(ppurify t).2))
  | _ => none

/-- The term of a signed element (`src/TermUtils.h:103`). -/
def SLit.term (l : SLit T) : PT T := if l.2 then l.1 else mkNot l.1

mutual
/-- Size of a term, for the termination of the worklist loop. -/
def PT.size : PT T → Nat
  | .not t => t.size + 1
  | .and ts => PT.sizeL ts + 1
  | .or ts => PT.sizeL ts + 1
  | _ => 1

def PT.sizeL : List (PT T) → Nat
  | [] => 0
  | t :: ts => t.size + PT.sizeL ts
end

def slitsSize (q : List (SLit T)) : Nat := (q.map fun l => l.1.size).sum

theorem PT.size_pos (t : PT T) : 0 < t.size := by cases t <;> simp [PT.size]

theorem ppurify_size : ∀ t : PT T, (ppurify t).1.size ≤ t.size
  | .not t => by simp only [ppurify, PT.size]; have := ppurify_size t; omega
  | .var _ _ | .const _ | .ap1 _ _ | .ap2 _ _ _ | .ap3 _ _ _ _ | .pred _ _ | .tt | .ff | .eq _ _ | .and _ | .or _ => by
    simp [ppurify]

theorem sizeL_map (g : SLit T → SLit T) (hg : ∀ l, (g l).1 = l.1) (ts : List (PT T)) :
    slitsSize (ts.map fun t => g (ppurify t)) ≤ PT.sizeL ts := by
  induction ts with
  | nil => simp [slitsSize, PT.sizeL]
  | cons t ts ih =>
    simp only [slitsSize, List.map_cons, List.sum_cons, PT.sizeL, hg] at ih ⊢
    have := ppurify_size t
    omega

theorem disjArgs_size {l : SLit T} {args : List (SLit T)} (h : disjArgs l = some args) : slitsSize args < l.1.size := by
  unfold disjArgs at h
  split at h <;> simp only [Option.some.injEq, reduceCtorEq] at h <;> subst h
  · rename_i ts
    have : slitsSize (ts.map ppurify) ≤ PT.sizeL ts := sizeL_map id (fun _ => rfl) ts
    simp only [PT.size]; omega
  · rename_i ts
    have := sizeL_map (fun l => (l.1, !l.2)) (fun _ => rfl) ts
    simp only [PT.size]; omega

theorem slitsSize_append (a b : List (SLit T)) : slitsSize (a ++ b) = slitsSize a + slitsSize b := by
  simp [slitsSize]

theorem slitsSize_reverse (a : List (SLit T)) : slitsSize a.reverse = slitsSize a := by
  simp [slitsSize]

/-- The worklist loop of `getTopLevelJuncts<Disjunction>` (`src/TermUtils.h:82-106`): the head of the list is the back of the
vector; `dup` is `isdup`. -/
def disjLoop : (queue dup : List (SLit T)) → (res : List (PT T)) → List (PT T)
  | [], _, res => res
  | l :: q, dup, res =>
    if dup.any (fun d => d.1.beq l.1 && d.2 == l.2) then disjLoop q dup res
    else match h : disjArgs l with
      | some args => disjLoop (args.reverse ++ q) (l :: dup) res
      | none => disjLoop q (l :: dup) (res ++ [l.term])
termination_by queue => slitsSize queue
decreasing_by
  · have := PT.size_pos l.1; simp [slitsSize]; omega
  · have := disjArgs_size h; rw [slitsSize_append, slitsSize_reverse]; simp [slitsSize] at *; omega
  · have := PT.size_pos l.1; simp [slitsSize]; omega

/-- `TermUtils::getTopLevelDisjuncts` (`src/TermUtils.h:114-116`). -/
def topDisjuncts (root : PT T) : List (PT T) := disjLoop [ppurify root] [] []

/-- `ChClause` (`src/ChcSystem.h:40-62`): terms only. -/
structure PClause (T : Theory) where
  head : PT T
  constraint : PT T
  body : List (PT T)

/-- `isUninterpretedPredicate` (`src/ChcInterpreter.cc:618-621`, `src/ChcSystem.h:80`): `known` are the declared symbols. -/
def isPred (known : List Nat) : PT T → Bool
  | .pred p _ => known.contains p
  | _ => false

mutual
/-- Whether a term has a subterm that is an application of a declared predicate (`matchingSubTerms(...).size() > 0`,
`src/ChcInterpreter.cc:609-611`). -/
def PT.mentions (known : List Nat) : PT T → Bool
  | .pred p args => known.contains p || PT.mentionsL known args
  | .var _ _ | .const _ | .tt | .ff => false
  | .ap1 _ a | .not a => a.mentions known
  | .ap2 _ a b | .eq a b => a.mentions known || b.mentions known
  | .ap3 _ a b c => a.mentions known || b.mentions known || c.mentions known
  | .and ts | .or ts => PT.mentionsL known ts

def PT.mentionsL (known : List Nat) : List (PT T) → Bool
  | [] => false
  | t :: ts => t.mentions known || PT.mentionsL known ts
end

/-- The literals the first `stable_partition` puts in front (`src/ChcInterpreter.cc:589-592`). -/
def isPredLit (known : List Nat) : PT T → Bool
  | .not t => isPred known t || isPred known (.not t)
  | t => isPred known t

/-- `not logic.isNot(arg)` (`src/ChcInterpreter.cc:596`). -/
def isPositive : PT T → Bool
  | .not _ => false
  | _ => true

/-- The term whose disjuncts are taken (`src/ChcInterpreter.cc:566-585`), for a term that is neither a predicate nor the
negation of one; `none` when it is no disjunction. -/
def asDisjunction (L : Logic T) : PT T → Option (PT T)
  | .or ts => some (.or ts)
  | .not (.and ts) =>
    match L.mkOr (ts.map mkNot) with
    | .or us => some (.or us)
    | _ => none
  | _ => none

/-- The rest of `chclauseFromPTRef` for a disjunction (`src/ChcInterpreter.cc:586-615`). A stable partition keeps the order in
both parts. -/
def clauseOfDisjuncts (L : Logic T) (known : List Nat) (ds : List (PT T)) : Option (PClause T) :=
  let lits := ds.filter (isPredLit known)
  let others := ds.filter fun d => !isPredLit known d
  let positive := lits.filter isPositive
  let negative := lits.filter fun d => !isPositive d
  if positive.length > 1 then none
  else
    let interpreted := L.mkAnd (others.map mkNot)
    if interpreted.mentions known then none
    else some ⟨positive.headD .ff, interpreted, negative.map mkNot⟩

/-- `chclauseFromPTRef` (`src/ChcInterpreter.cc:562-616`). -/
def chclause (L : Logic T) (known : List Nat) (t : PT T) : Option (PClause T) :=
  match t with
  | .pred p args => if known.contains p then some ⟨.pred p args, .tt, []⟩ else none
  | .not (.pred p args) => if known.contains p then some ⟨.ff, .tt, [.pred p args]⟩ else none
  | t => (asDisjunction L t).bind fun d => clauseOfDisjuncts L known (topDisjuncts d)

end Front
end Golem
