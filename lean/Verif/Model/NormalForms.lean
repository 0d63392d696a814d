import Verif.Lemmas.Logic

/-!
Formula normal forms and top-level juncts: `src/TermUtils.cc:258-500`, `src/TermUtils.h:59-118`.
-/

namespace Golem
variable {T : Theory}

/-- `logic.isAtom`: constants, Boolean variables/terms and non-Boolean equalities. -/
def Fla.isAtom : Fla T → Bool
  | .tt | .ff | .atom _ | .eq _ _ => true
  | _ => false

/-- `NNFTransformer::negate` (`src/TermUtils.cc:326-368`); `none` is the `std::logic_error`. The memo table only caches
results. -/
def nnfNegate : Fla T → Option (Fla T)
  | .not f => some f
  | .tt => some (.not .tt)
  | .ff => some (.not .ff)
  | .atom t => some (.not (.atom t))
  | .eq a b => some (.not (.eq a b))
  | .and f g => do return .or (← nnfNegate f) (← nnfNegate g)
  | .or f g => do return .and (← nnfNegate f) (← nnfNegate g)
  | .iff _ _ => none

/-- `NNFTransformer::transform` (`src/TermUtils.cc:273-324`). -/
def nnfTransform : Fla T → Option (Fla T)
  | .tt => some .tt
  | .ff => some .ff
  | .atom t => some (.atom t)
  | .eq a b => some (.eq a b)
  | .and f g => do return .and (← nnfTransform f) (← nnfTransform g)
  | .or f g => do return .or (← nnfTransform f) (← nnfTransform g)
  | .not f => do nnfNegate (← nnfTransform f)
  | .iff f g => do
    let f' ← nnfTransform f
    let g' ← nnfTransform g
    let nf ← nnfNegate f'
    let ng ← nnfNegate g'
    return .and (.or nf g') (.or ng f')

/-- `TermUtils::toNNF` (`src/TermUtils.cc:370-374`). -/
def toNNF (f : Fla T) : Option (Fla T) := nnfTransform f

/-- `PtAsgn`: a term with a polarity. -/
abbrev Lit (T : Theory) := Fla T × Bool

def Lit.fla (l : Lit T) : Fla T := if l.2 then l.1 else .not l.1

/-- `DNFTransformer::Cube` (`src/TermUtils.cc:399-401`). -/
abbrev Cube (T : Theory) := List (Lit T)

/-- `operator<` on `PtAsgn`: by term reference, then by sign. `ord` is the numeric id of the hash-consed term. -/
def litLe (ord : Fla T → Nat) (a b : Lit T) : Bool :=
  decide (ord a.1 < ord b.1 ∨ (ord a.1 = ord b.1 ∧ (a.2 = true ∨ b.2 = false)))

/-- `std::adjacent_find` with "same term, different sign" (`src/TermUtils.cc:435-438`). -/
def hasAdjacentConflict : Cube T → Bool
  | a :: b :: l => (decide (a.1 = b.1) && decide (a.2 ≠ b.2)) || hasAdjacentConflict (b :: l)
  | _ => false

/-- The recursive lambda `dfs` of `conjunctionAsCubes` (`src/TermUtils.cc:423-450`): all combinations, one cube from each
argument, concatenated, sorted, dropped when contradictory. `acc` is `currentCombination`, flattened. -/
def conjunctionDfs (ord : Fla T → Nat) : List (List (Cube T)) → Cube T → List (Cube T)
  | [], acc =>
    let lits := acc.mergeSort (litLe ord)
    if hasAdjacentConflict lits then [] else [lits]
  | cs :: rest, acc => cs.flatMap fun c => conjunctionDfs ord rest (acc ++ c)

/-- `DNFTransformer::conjunctionAsCubes` (`src/TermUtils.cc:419-452`). -/
def conjunctionAsCubes (ord : Fla T → Nat) (toConjoin : List (List (Cube T))) : List (Cube T) :=
  conjunctionDfs ord toConjoin []

/-- `DNFTransformer::unite` (`src/TermUtils.cc:408-417`). -/
def unite (toUnite : List (List (Cube T))) : List (Cube T) := toUnite.flatten

/-- `DNFTransformer::run` (`src/TermUtils.cc:461-500`); `none` is the `std::logic_error`. -/
def dnfRun (ord : Fla T → Nat) : Fla T → Option (List (Cube T))
  | .tt => some [[(.tt, true)]]
  | .ff => some [[(.ff, true)]]
  | .atom t => some [[(.atom t, true)]]
  | .eq a b => some [[(.eq a b, true)]]
  | .not f => some [[(f, false)]]
  | .or f g => do return unite [← dnfRun ord f, ← dnfRun ord g]
  | .and f g => do return conjunctionAsCubes ord [← dnfRun ord f, ← dnfRun ord g]
  | .iff _ _ => none

/-- `DNFTransformer::toDNF` (`src/TermUtils.cc:379-394`). -/
def cubesToFla (cs : List (Cube T)) : Fla T := Fla.disj (cs.map fun c => Fla.conj (c.map Lit.fla))

/-- `TermUtils::toDNF` (`src/TermUtils.cc:454-459`). -/
def toDNF (ord : Fla T → Nat) (f : Fla T) : Option (Fla T) := do
  let nnf ← toNNF f
  let cs ← dnfRun ord nnf
  return cubesToFla cs

/-! ### Top-level juncts -/

/-- `logic.purify`: strips negations and records the sign. -/
def purify : Fla T → Lit T
  | .not f => ((purify f).1, !(purify f).2)
  | f => (f, true)

/-- The two instantiations of the `Junction` parameter (`src/TermUtils.h:59-67`). -/
inductive Junction where
  | conj | disj
deriving DecidableEq

/-- The arguments pushed for a popped element, or `none` if it is a junct (`src/TermUtils.h:85-104`). -/
def junctArgs : Junction → Lit T → Option (List (Lit T))
  | .conj, (.and f g, true) => some [purify f, purify g]
  | .conj, (.or f g, false) => some [((purify f).1, !(purify f).2), ((purify g).1, !(purify g).2)]
  | .disj, (.or f g, true) => some [purify f, purify g]
  | .disj, (.and f g, false) => some [((purify f).1, !(purify f).2), ((purify g).1, !(purify g).2)]
  | _, _ => none

def Fla.size : Fla T → Nat
  | .tt | .ff | .atom _ | .eq _ _ => 1
  | .not f => f.size + 1
  | .and f g | .or f g | .iff f g => f.size + g.size + 1

def queueSize (q : List (Lit T)) : Nat := (q.map fun l => l.1.size).sum

theorem purify_size (f : Fla T) : (purify f).1.size ≤ f.size := by
  induction f <;> simp_all [purify, Fla.size] <;> omega

theorem size_pos (f : Fla T) : 0 < f.size := by cases f <;> simp [Fla.size]

theorem junctArgs_size {J : Junction} {l : Lit T} {args : List (Lit T)} (h : junctArgs J l = some args) :
    queueSize args < l.1.size := by
  unfold junctArgs at h
  split at h <;> simp only [Option.some.injEq, reduceCtorEq] at h <;> subst h <;>
    simp only [queueSize, List.map_cons, List.map_nil, List.sum_cons, List.sum_nil, Fla.size] <;>
    (rename_i f g; have := purify_size f; have := purify_size g; omega)

/-- The worklist loop of `getTopLevelJuncts` (`src/TermUtils.h:80-106`): the head of the list is the back of the vector;
`dup` is `isdup`. -/
def junctLoop (J : Junction) (pred : Fla T → Bool) : (queue dup : List (Lit T)) → (res : List (Fla T)) → List (Fla T)
  | [], _, res => res
  | l :: q, dup, res =>
    if l ∈ dup then junctLoop J pred q dup res
    else match h : junctArgs J l with
      | some args => junctLoop J pred (args.reverse ++ q) (l :: dup) res
      | none => junctLoop J pred q (l :: dup) (if pred (Lit.fla l) then res ++ [Lit.fla l] else res)
termination_by queue => queueSize queue
decreasing_by
  · have := size_pos l.1; simp [queueSize]; omega
  · have := junctArgs_size h; simp [queueSize] at *; omega
  · have := size_pos l.1; simp [queueSize]; omega

/-- `TermUtils::getTopLevelJuncts` (`src/TermUtils.h:70-108`). -/
def getTopLevelJuncts (J : Junction) (root : Fla T) (pred : Fla T → Bool) : List (Fla T) :=
  junctLoop J pred [purify root] [] []

/-- `TermUtils::conjoin` (`src/TermUtils.cc:502-506`). -/
def conjoin (what to : Fla T) : Fla T :=
  Fla.conj (getTopLevelJuncts .conj to (fun _ => true) ++ [what])

end Golem
