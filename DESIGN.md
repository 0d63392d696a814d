# Formal model of golem in Lean 4 — design

Everything is under `lean/Verif/`. Property theorems live in `lean/Verif/Props/*.lean`, the model in
`lean/Verif/Model/*.lean`, independent specifications in `lean/Verif/Spec/*.lean`, helper lemmas in
`lean/Verif/Lemmas/*.lean` (or beside the model).

## Trusted base

* Lean 4.33.0's kernel and the axioms `propext`, `Classical.choice`, `Quot.sound` (nothing else; no `native_decide`,
  no own axioms). `vcheck` prints the axioms of every theorem.
* The reading of the C++ code: each model definition cites file and lines. The code is not run.
* OpenSMT is *not* modelled. It enters as an explicit hypothesis: a structure (`Smt`) bundling the answers of
  `check`, models and (path) interpolants, with the contract that SAT comes with a model, UNSAT means unsatisfiable,
  an interpolant is implied by A, inconsistent with B and only uses shared variables. The solver may answer
  UNKNOWN/ERROR at any time. A computable propositional instance is built and proved to meet the contract, so no
  theorem is vacuous because of this hypothesis.
* OpenSMT's term constructors (`mkAnd`, `mkOr`, `mkNot`, `mkEq`, `Substitutor`, `Rewriter`) are modelled by plain,
  non-simplifying syntax constructors; their equivalence-preserving simplifications are trusted.
* Sorts: all variables range over one arbitrary value domain `Val` (think: disjoint union of the carriers). Theory
  function symbols are arbitrary (`Theory`), so results hold for LIA, LRA, arrays alike. Modules that are *about*
  arithmetic (MBP, bounds, expressZeroTermFor) use concrete integers/rationals.
* Machine integers (`std::size_t`, `unsigned`, `int` version numbers) are unbounded in the model.
* C++ `assert`s are compiled out in release builds: where the code relies on one, the model makes the precondition an
  explicit hypothesis or models the failing branch as a distinct outcome (`none`/`throw`).

## Representation

* Terms `Tm`, formulas `Fla` (deep embedding, binary connectives; n-ary `mkAnd/mkOr` are folds) over structured
  variables `Var` = base name + tag (`base`, `src n i`, `tgt n`, `ver n k`), mirroring the string encodings
  `x`, `x__s##i`, `x__t`, `x##k`. The string encoding itself is modelled in `Model/Names.lean` and proved injective.
* CHC semantics (spec): facts are predicate + argument values; `Derivable` is the least set closed under the clauses;
  a model is an interpretation closed under the clauses.
* Graphs: lists of (hyper)edges with ids; loops over `std::map<EId,...>` are list traversals in id order.
* Loops without a static bound (engines, worklists) take fuel; theorems are for every fuel, and say what happens when
  the loop returns. Running out of fuel is a distinct outcome (`none`), never an answer.

## Plan per property

See `MANIFEST.json` for the status. In short:

* C01, C02, C05: `Model/Validator.lean`; C02's English claim is false of the code for circular derivations
  (`validateStep` never checks that premises precede the step): the negation is proved with a witness, the positive
  theorem carries the explicit hypothesis.
* C03, C04: `Model/Normalizer.lean`, `Model/Builder.lean`; derivability equivalence by induction on derivations.
* C06–C17: `Model/Graph.lean` and `Model/Transformers/*.lean`; exactness of each graph operation on derivable facts plus
  translation of models and derivations.
* C18–C28: `Model/TS.lean`, `Model/Engines/*.lean`; unrolling lemma, then loop invariants for each engine.
* C29–C33, C35–C38: syntactic algorithms over formulas, proved by structural induction against evaluation.
* C35: `Model/MBP.lean`: the whole of `ModelBasedProjection.cc` (Boolean substitution, implicant collection, real and integer
  elimination with divisibility constraints, postprocessing) over linear polynomials; each step keeps the model, drops the
  variable, and any model of the result extends to the eliminated variables. Projections of one formula are finitely many over
  all models (finite range of each step), which gives termination of the elimination loop (C36) for linear arithmetic.
  Simplifications are listed at the top of the file.
* C34: list-of-characters model of the name manipulation.
* C39, C40: character/s-expression level models.
* C41, C42: graph algorithms.

* C14: `Model/Transformers/EdgeInliner.lean`; a run is a list of deletions and replacements (`InlineRun`), each keeps the
  derivable facts; the interpolant strengthens the definition of the middle vertex.
* C15, C47: `Model/Transformers/Pipeline.lean` (stages, composition of back-translators, the concrete list of passes used by
  `TransitionSystemEngine`), `Model/Engines/Hyper.lean`; induction over the list of stages with the graph invariant
  `GS.Inv`, then the linear-graph theorems of C22–C28, C46.
* C48: `Model/Engines/Spacer.lean`, every function of `Spacer.cc`: summaries per level, must and may checks, obligations,
  lemmas, pushing, the derivation database and its traversal. Queue order and set iteration order are parameters with no
  assumption on the former. Invariants in `Lemmas/Spacer*.lean`: must components are derivable, may components of level n+1
  follow from level n, the exit is blocked up to the current bound; termination of the rounds is not claimed.
* C49: `Model/Engines/Dar.lean`, every function of `DAR.cc`: both sequences, local and global strengthening, fixpoint. Invariant:
  images of F_i are in F_{i+1}, preimages of B_j in B_{j+1}, all but the first elements avoid bad resp. initial states;
  after one refutable pair all later interpolation queries are refutable (`Props/Dar.lean`).
* C50: `Model/Engines/PDKind.lean`: `push`, the reachability checker with its frames `R_0, R_1, …`, generalisation by projection,
  the main loop and the conversion of the k-inductive frame. Two invariants: counterexamples of frame elements lead to a bad state
  (sound solver), and lemmas hold up to the current depth and are k-inductive relative to the frame once pushed (deciding solver).
* C51: `Model/Engines/SymbolicExecution.lean`, all of `SymbolicExecution.cc`. A state's formula describes exactly the facts reached
  along one path (variables of earlier steps have negative versions and cannot clash); fairness of the queue gives completeness.
* C52, C53, C54: `Model/Termination/*.lean`, all of `LassoDetector.cc`, `ReachabilityTerm.cc`, `ReachabilityNonterm.cc`, on top of an
  engine service (`Engine.RightOn`, `GoodOn`), instantiated with the verified Spacer from clauses (`C48_clauses`). C52, C53: the
  clauses derive false iff there is a lasso / a run longer than the bound. C54: loop invariant "infinite runs are preserved".
* C55: `Model/Portfolio.lean`, `multiMethodSolve` and `solveWithMultipleEngines` as an interleaving transition relation over parent,
  children, the shared cell and the environment (fork failures, crashes); inductive invariant and decreasing measure. Not modelled:
  output a child prints besides its answer, process id reuse, buffered output duplicated by `fork`.
* C56: `Model/Transformers/Default.lean`, the 15 stages of `defaultTransformationPipeline` over the stage models of C07-C15, plus
  `ConstraintSimplifier`. The rewriters `eliminateItes`, `eliminateDivMod`, `eliminateDistincts` are OpenSMT's: `RewriteExact` is
  their contract (the result implies the input, adds untagged user-named variables, and solutions extend to them). Composition of
  the stage theorems; `DefaultReady` collects the graph conditions under which each back-translation is complete.
* C57: `Model/CheckSat.lean`, `interpretCheckSat`/`doWorkAfterAnswer` with one engine, printing as a list of output lines.
  Composition of C03/C04 (clauses to graph), C56, an engine contract (instantiated by C47/C48/C51) and C43 (validator).
  Not modelled there: parsing (see C69-C71), the text of the printed witness (see C81).
* C58-C61: `Model/Engines/TPA.lean`, `TPABase`, `TPASplit` and `TPABasic` function by function: the powers, the query cache, the
  recursive reachability queries, Houdini, the fixed-point checks, invariant and explanation extraction, `resetInitialStates`,
  `resetQueryStates`, `solve` as operations on one object. Proof: one invariant per core (every power over-approximates its number of
  steps, cached answers are reachable, the Houdini invariants are closed), preserved by every query for every interpolant and
  projection; `Lemmas/TPA*.lean`. The exact-power branch of `tryInductiveInvariant` with exponent above 10 gives up as in the code.
  Interpolants are taken for whole assertions; the two interpolation algorithms are two functions of the environment.
* C62, C64: `Model/Engines/TPANetwork.lean`, `TransitionSystemNetworkManager` and `TPAEngine::solve` (without SIMPLIFY_NESTED): nodes,
  edge and loop queries, the path stack, blocked reasons, error path, definitions. Proof: invariant of the search (path entries are
  reachable; pre-, post-conditions and reasons block false), `Lemmas/TPANetwork`, `TPANetLoop`, `TPANetSearch`; C64 composes C18, C28, C16,
  C17, C58, C59, C62.
* C63: `detectLoop`, `isTransitionSystemDAG` in the same file; invariant of the depth-first search (white paths, finished vertices in
  topological order).
* C65: `Model/Engines/TSCheck.lean` puts the engines behind the interface of `check-sat`. Proof: linear edges and plain names are kept by
  every stage (`Lemmas/PlainNames`), what the second pipeline leaves is ready for the single-loop transformation (`Lemmas/LinearReady`,
  `towards_ready`), its system has no auxiliary variables outside the transition relation if the entry and exit edges have none
  (`Lemmas/SingleLoopAux`); then C17, C49, C50, C64, C47, C56, C57. imc, dar and pdkind on a graph that is no transition system assume
  that its entry and exit edges have no auxiliary variables (they are wrong otherwise, C17_imc_needs_noAux); split-tpa assumes an edge
  out of true that can be taken. Linearity cannot be dropped (C47_no_exit_edge_unsound).
* C66: `Model/Engines/TRL.lean` models `TRL.cc` (the stack of levels, traces by projection, loops, learned relations, blocking clauses,
  the witness). Proof: an invariant of the search (every level's clauses only exclude steps that a relation of the same level covers;
  runs through relations can be shortened until they fit the stack), `Lemmas/TRL`, `TRLStep`, `TRLSearch`, `TRLWitness`; the learned
  relation is transitive because it is a conjunction of bounds on differences, a recurrence, and pre- and post-conditions. Fixed to
  linear integer arithmetic (`LIA`, `intMbp`). C66_check composes it with C65's front part; witnesses are off there, since the witness
  can be wrong (item 46). `Smt.DecidesOne` replaces `Complete`, which no sound solver over the integers with multiplication has.
* C67: `Model/Engines/ArgBased.lean` models `ArgBasedEngine.cc` (the clean-up of local variables, the abstract reachability graph with its
  covering, the edge queue, unfolding of proofs into interpolation trees with numbered labels, masks, refinement, both witnesses). Proof:
  `Lemmas/ArgTuples` (the tuple loop visits every tuple), `ArgTree`/`ArgLabel` (shape of the unfolded tree, labels are renamings that are
  apart), `ArgDeriv` (the derivation), `ArgItp` (one step of a tree interpolant, on the level of the clause), `ArgMake`/`ArgState`/`ArgInv`
  (structure of the graph), `ArgSafe` (every matching tuple of nodes is queued, infeasible, or has a successor; covered nodes have more
  predicates than their coverers), `ArgFinal`. SAFE assumes that the solver of the abstraction decides every query
  (C67_unknown_unsound shows why) and that interpolants of one refutation form a tree interpolant (`Smt.TreeItp`).
* C68: `Model/Engines/Lawi.lean` models all of `Lawi.cc`: the tree with labels, the covering relation, the leaves to check, implication
  checks with hints, closing, refinement by path interpolants, forced covering, depth-first search (pending calls as an explicit stack) and
  the witnesses. Not modelled: the cache of implication checks (the solver is a function of its query) and `simplifyMax`, which is any
  equivalence-preserving function without new variables. Proof: the tree is kept under all settings (so UNSAFE answers are right: the path
  is a feasible chain of edges); without forced covering the invariant is that the tree is well labelled, that each covering is an
  implication between labels of one location whose coverer is not covered, and that each vertex is a leaf, expanded, or refuted.
* C23, C45, C46: `Model/Engines/LinearBmc.lean`, `Model/Engines/Bse.lean`; loop invariants over path queries.
* C69: `Model/Frontend/Parse.lean` models `LetBinder`, `LetRecords`, `addLetFrame`, `parseTerm`, `parseTopLevelAssertion`. The specification
  (`Spec/Script.lean`) gives the meaning of SMT-LIB terms by environments. Proof: the records always are the representation of an
  environment (`LetRecords.of`); induction on the term.
* C70: `Model/Frontend/Clause.lean` models `chclauseFromPTRef` and `getTopLevelDisjuncts` (the worklist with signs and duplicates). Proof:
  invariant of the worklist, which relates it to the inductive set of disjuncts of `Spec/HornTerm.lean`.
* C71: `Model/Frontend/Script.lean` models `interpretCommand`, `interpretDeclareFun`, `interpretAssert`, the loop over the commands, and hands
  the clauses to `checkSat` (C57). Proof: invariant over the commands (the clauses say what the assertions read so far say; later
  declarations do not change earlier parses), then C57. Not modelled: the lexer, `get-info`-like output, `OpenSMT`'s simplifying
  constructors (any functions with the meaning `Logic.Ok` requires), sorts of arguments (predicates are told apart by name and arity).
* C72: `Model/NestedLoop.lean` models `NestedLoopTransformation` (contraction until `detectLoop` finds nothing, translation of error paths and
  invariants) and the branch of `TPAEngine::solve` that uses it. The symbols of new vertices are a parameter, assumed new and different.
  Proof: a contraction step as in C16/C17 (`Lemmas/NestedLoop.lean`), induction over the sequence (`NestedSeq`), interpretations pulled back
  through it (`NestedInv`), facts decoded step by step along the model (`NestedPath`).
* C73: `Model/Vmt.lean` models the VMT front end (`src/vmt/FrontEnd.cc`) from S-expressions to the printed line; `Spec/Vmt.lean` gives the
  format (definitions, roles, reachable states) without the model. Proof: the terms built evaluate to the values of the definitions
  (induction over terms and definitions), what the clauses derive are the reachable states, then C04, C56 and the engine's correctness.
  Operators of the logic are a parameter (`VLogic.Ok`); variables are told apart by name only.
* C74: the same model with `StepCounter::checkLiveness` over integers (`ctrTheory`); derivability of `false` is equivalent to a run with more
  true steps than the counter (induction both ways); bounded counts give `false from some point on` for infinite runs.
* C75: `Model/Termination/{Pipeline,Graph,Solve}.lean` model `run` of `termination/Frontend.cc` from the clauses to the printed line. Each of the nine
  stages is shown to keep infinite runs of the graph (`Lemmas/TermStages.lean`; infinite chains are transferred by `Lemmas/InfChain.lean`), then
  the extracted system is shown to have the same infinite runs (`Lemmas/TermTS.lean`, `TermSys.lean`), then C52-C55. Hypotheses beyond the contracts of
  the services: `NoStrayLoop`, `NoLeftovers` (findings 67, 69), the counter variable is new.
* C76: `Model/Termination/Its.lean` models the reader of integer transition systems (`parseITS`, `ITS::resolve`, `parseFun`, `parseRule`,
  `parseExpr`, `translate`, `asChcs`). `Spec/Its.lean` gives the programs of such files (text as S-expressions, rules, runs) and when a file is well
  formed, apart from the model. Proof: parse lemma by induction on guards; a guard holds iff the formula without its quantifiers holds for some values
  of the bound variables (`sat_open`, needs the bound names to be apart); a fold over the commands; runs of the program and of the clauses are
  translated into each other; then C75. From characters to S-expressions: C40.
* C77: `Model/Proofs/Simplify.lean` models `simplify`, `shortCircuitSimplifyITE`, `simplifyOpDirect` of the Alethe proof printer, for integers and
  Booleans. `Spec/Alethe.lean`: terms, values, steps, when a step follows from those it cites (per rule: which operators it may rely on), and an
  evaluator of closed terms. Proof: mutual induction on terms; every result carries a step that equates the term with it.
* C78: `Model/Proofs/Build.lean` models `buildAletheProof` and what it calls, after let terms have been expanded; the values of the variables
  (`getInstPairs`) are part of the derivation. `Spec/AletheProof.lean` says when a derivation is one. Proof: an invariant of the loop (every derived fact
  has a step that says it; the last step says the last fact); substitution lemma for `forall_inst`; values do not depend on variables that do not
  occur, for `qnt_rm_unused`; C77 for the evaluation.
* C79: `Model/Proofs/InstPairs.lean` models `getInstPairs` over the model of the normalizer (C03). The loops record, for every equality of the
  normalizer whose variable is an argument, the value in the facts (invariant `Recorded`); the solver is a service that finds models. A valuation
  of the normalized clause is carried back to the original clause (`norm_back`).

* C80: `Model/Cli/Main.lean` models the loop over the options, the map they are stored in (`emplace`), the end of `parse`, `tryDetectLogic` and
  `main` up to the call of the analysis. Input: the options in order, as `getopt_long` gives them, and the commands of the script with the
  names of the sorts, as the parser gives them; both are trusted. The numbers (`verbose`, `lra-itp-algorithm`) are left out. By induction over
  the options (a map per key, a flag per switch) and over the commands.

* C81: `Model/WitnessPrint.lean` models the three functions that print witnesses, on top of the model of `printTermWithLets` (C39). Names, sorts
  and facts are texts of the term library, assumed to be readable (`Reads`); the arguments of a predicate are a list (`C34` has the naming).
  The tokens of the text are computed by induction; the reader is that of C40. That tokens determine a derivation: an expression is determined
  by its tokens, numbers of lines end in a colon, the arrow and the numbers of premises do not.
* C82: `Model/Proofs/Intermediate.lean` models `buildIntermediateProof` on the derivations of C78; `Spec/Intermediate.lean` says when a line is
  justified. The line that derives implications prints its premises separated by spaces in front of the conclusion; since `=>` associates to the
  right this is the implication from all of them, and the model keeps the list. The positions of lines stand for their numbers. Proved by an
  invariant of the loop (every earlier fact has a line, and the map points to it), `C82_proof`, and by induction on line numbers, `C82_sound`.
  Finding 75 holds for this format too (`C82_unused_finding`): a quantified variable that the clause does not use has no value, and the look-up
  of it fails.
  The text (`Model/Proofs/IntermediateText.lean`, `Props/IntermediateText.lean`) is read with the lexer of C83: `C82_text` says that it is exactly the
  numbered lines, `C82_line_determined` that equal texts come from lines with the same expression, values and premises, `C82_text_built` that built proofs meet the
  conditions on names.
* C83: `Model/Proofs/ProofText.lean` models the printing of terms and of Alethe steps; names of variables, predicates and rules are texts that are read
  as symbols (`Named`). Let terms and reals are left out, as in C77-C78. The tokens are computed part by part (`Part`: a part begins with a blank
  or is empty); that the text determines the proof: the first symbol of an expression tells the kind of term (`kind_exp`), then induction. The
  conditions hold of every proof that is built from clauses that meet them (`C83_built`, an invariant of all the functions of C77-C78).

Not expressible: performance, memory safety, parsing by OpenSMT.

## Disagreements found between properties and code

(kept current while proving; see also MANIFEST notes)

1. Validator accepts circular derivations (C02).
2. `SExpressionParser::advance` loops forever when input ends inside a comment, because EOF is `char(-1)`, not 0 (C40).
3. `BSE` (k-induction's fallback) treats UNKNOWN/ERROR as infeasible, so it can answer SAFE on an unsafe system when the
   backend gives up.
4. The validator does not check that `true`/`false` are defined as true/false (C01_validator_ignores_exit_definition).
5. In release builds the validator does not compare the predicate symbol of a premise with the edge's source
   (C02_validator_ignores_premise_symbol).
6. `ChcDirectedGraph::reverse` discards the results of its swapTrueFalse calls (dead code).
7. `FalseClauseRemoval` drops vertices all of whose edges are false; the SAFE witness then lacks their definitions and the
   validator answers NOT_VALIDATED (C07_dropped_vertex_has_no_definition).
8. `TrivialEdgePruner`'s back-translation relies on an assert that the derivation has exactly two steps.
9. KIND and IMC treat an UNKNOWN answer to the initial `init ∧ bad` query as "no path of length 0", so with a backend
   that gives up there they can answer SAFE on an unsafe system (C24_unknown_base_query_unsound,
   C25_unknown_initial_query_unsound).
10. `toTransitionSystem` takes the state variables from the last self loop it meets; only an assertion guards against a self
    loop on an unreachable vertex (hypothesis `NoStray` of C18).
11. `SimpleNodeEliminator` on a graph with dead ends can leave a vertex without edges and hence without definition; the SAFE
    back-translation then returns the empty witness. `RemoveUnreachableNodes` before it excludes this (hypothesis `NoDeadEnds`
    of C11_node_elimination_total).
12. `SimpleChainSummarizer` on an unreachable cycle of at least three trivial vertices (a→b→c→a): the "chain" runs once around
    and a bit, all its vertices are deleted together with the summary edge just added, and the translation of a SAFE witness
    then calls `definitions.at` on a missing key: `std::out_of_range` (ChainEx.C13_isolated_cycle_throws). The default pipeline
    runs this pass before `RemoveUnreachableNodes`, so an input with such a cycle reaches it.
13. If a later stage returns the empty SAFE witness (that is how back-translators report failure), `SimpleChainSummarizer`'s
    `definitions.at` throws on it instead of passing it on.
14. `SExpressionParser::parseExpression` reads a stray `)` as an empty atom without consuming it
    (C40_stray_parenthesis_is_empty_atom); the front ends reject the atom.
15. `printTermWithLets` names bindings `l<number>`; an input variable of that name is captured (C39_binding_can_capture).
16. Input variables whose names contain `##`/`__` or look like generated names collide with golem's own
    (C34_tagged_input_name_collides).
17. `FalseClauseRemoval` may leave vertices without definition; `SimpleNodeEliminator`'s translation before it then fails its
    sanity check and returns the empty SAFE witness (hypotheses of C15_pipeline_total).
18. An empty (failed) SAFE witness that reaches `RemoveUnreachableNodes`' translation becomes a non-empty but wrong one (the
    escape disjunct of C15_pipeline).
19. `TrivialEdgePruner`'s UNSAFE translation only repairs the clause id of step 1 (hypothesis `ShortFor`).
20. After `RemoveUnreachableNodes` a kept vertex may no longer reach the exit (backward reachability is computed before the
    forward removal; C08 states it for the input graph).
21. If preprocessing leaves a graph with no edge to the exit (a removed hyperedge was the only way there; see 20), the
    single-loop transformation builds a system with query `true` and the engine answers UNSAFE on a safe input
    (SingleLoopEx.C47_no_exit_edge_unsound, C16_needs_exit_edge).
22. IMC on a single-loop system whose init has auxiliary variables returns a wrong SAFE witness: only init's non-auxiliary part
    is translated back (SingleLoopEx.C17_imc_needs_noAux).
23. The single-loop error-path translation looks for *the* edge between two locations; with parallel edges it gives up
    (SingleLoopEx.C17_parallel_no_witness).
24. `EdgeInliner`'s SAFE translation interpolates between the incoming edges of a vertex and a removed edge without renaming
    auxiliary variables apart; if the removed edge is a self-loop with an auxiliary variable, the variable is shared and can
    occur in the definition (EdgeInlinerEx.C14_self_loop_needed; hypothesis `PlainLoop` of C14_edge_inliner_safe).
25. `EdgeInliner`'s SAFE translation defines a vertex without definition as `true`; this is right only for witnesses that are
    models whatever the undefined predicates are (`SafeFlex`), not for those where undefined means empty.
26. Nothing bounds the `while` loop of `EdgeInliner`: with edges a→b [x=1 ∧ x'=1 ∧ y'=y], b→a [x'=x ∧ y=1 ∧ y'=1],
    true→b [x'=2], true→a [y'=2], b→false [x=1 ∧ y=1] the last edge is replaced by its composition with the other two for
    ever (by hand, not formalised; the theorems of C14 are about runs that end).
27. The integer projection's internal variable `MBP_LIA_tmp` is not reserved; on a formula containing it projection is unsound
    (MBPEx.C35_tmp_clash). Normalisation renames user variables, so inputs do not reach this.
28. Spacer treats UNKNOWN on a must query as "not reached"; an obligation for the entry is then queued and answered UNSAFE. With
    hyperedges this is wrong (SpacerEx.C48_unknown_unsound); on linear systems, with proofs, or with a deciding backend it is not.
29. Spacer logs the first component of a premise that is true in the model, but the stored fact may cover points derived from
    other components; reconstruction then throws on a found counterexample (SpacerEx.C48_reconstruction_fails). With the
    projections of C35 (which follow one implicant) this needs overlapping components.
30. DAR's `localStrengthen` and `globalStrengthen` treat every answer except UNSAT as "a path exists"; if the backend gives
    up, DAR answers UNSAFE on a safe system (C49_unknown_unsound). As IMC it returns wrong SAFE witnesses for single-loop
    systems with auxiliary variables in the initial states (SingleLoopEx.C49_needs_noAux).
31. PDKind takes an UNKNOWN answer to "can the counterexample be reached" for "no" (`PDKind.cc:320-322`); if the lemma already is
    the negation of the counterexample the frame then counts as inductive and SAFE is answered for an unsafe system, with an
    unchecked witness when the induction depth is 1 (PDKindEx.C50_unknown_unsound).
32. `ReachabilityNonterm::run` answers NO when every state has a successor, without checking that there is an initial state
    (`ReachabilityNonterm.cc:73-74`); a system without initial states terminates (TermEx.C54_no_initial_state).
33. The same function reads UNKNOWN in the walk over the trace as UNSAT (`:139-150`), which can give YES for a nonterminating
    system (TermEx.C54_unknown_yes), and UNKNOWN for `init /\ transition` as SAT (`:182-187`), which can give NO for a terminating
    one (TermEx.C54_unknown_no).
34. If `fork` fails, −1 is stored as a process id; when another child answers, the parent calls `kill(-1, SIGKILL)`, which kills every
    process of the user (Portfolio.Ex.C55_stray_kill_happens).
35. The CHC portfolio prints nothing when no engine answers, where a single engine prints `unknown`
    (Portfolio.Ex.C55_chc_prints_nothing). In both portfolios a winner that dies between its compare-and-swap and the printing
    suppresses the answers of the others (Portfolio.Ex.C55_winner_dies).
36. `ConstraintSimplifier::transform` versions the variables the rewriters introduce without making their names differ between
    clauses (its FIXME, `ConstraintSimplifier.cc:72-73`); two clauses in which a rewriter introduces the same auxiliary variable share
    it afterwards, while every later stage assumes that auxiliary variables of different edges differ. C56 and C57 carry this as the
    hypothesis `NoClash.apart`/`RewritesApart`.
37. `TPASplit::reachabilityQueryLessThan` answers REACHABLE in zero steps when the two formulas are the same term
    (`TPA.cc:587-593`), without checking that they are satisfiable: a safe system whose init and query are the same unsatisfiable
    formula is reported UNSAFE (TpaEx.C58_equal_shortcut_unsound).
38. `TPABasic` reports a wrong number of steps (its own comment at `TPA.cc:1278-1279` suspects it), so the UNSAFE witness has the wrong
    length (TpaEx.C58_basic_steps_wrong).
39. `houdiniCheck` treats UNKNOWN as UNSAT (`TPA.cc:937, 950`): candidates that are not closed are kept as invariants and the engine
    can answer SAFE for an unsafe system (TpaEx.C58_unknown_unsound).
40. `resetTransitionSystem` does not clear the query cache nor the left and right invariants: a solver object used for a second
    system can answer SAFE for an unsafe one (TpaEx.C58_restart_unsound). The engine never reuses an object for a second system.
41. The network of TPA uses the first self-loop of a vertex only; on a graph with two it answers SAFE although false can be reached
    (TpaGraphEx.C62_parallel_loops_unsound). The engine merges parallel edges before, so this needs the library API.
42. `computeValidityWitness` of the network does not check that an invariant was extracted (`TPA.cc:1590-1596`): where the single-system
    branches return SAFE without a witness, it substitutes in an undefined term. The model throws.
43. `isTransitionSystemDAG` skips the last vertex of the reverse postorder, assuming it is the exit, and looks at reachable vertices
    only; `getSelfLoopFor(...).value()` in `initNetwork` throws for an unreachable vertex without a self-loop. C63_dag_loops shows that
    pruned graphs are fine.
44. `detectLoop` does not look for loops in graphs of at most three vertices; C63_detectLoop_small shows there is none if no edge enters
    the entry or leaves the exit.
45. `contractVertices` names the new vertex by the concatenation of the names of the old ones (`ChcGraph.cc:646-666`). If a symbol with
    this name and the same sorts is in use, `declareFun` returns that symbol and `addRepresentation` keeps its old variables
    (`TermUtils.cc:728-744`: the assertion is for debug builds, `insert` does not overwrite). The model takes a new symbol.
46. TRL's witness is computed with all learned relations for every step, although levels pushed before a relation was learned do not use
    it (`TRL.cc`, the witness computation of `solve`): the SAFE answer is right, the invariant can contain bad states (TrlEx.witness_gap). C66_witness
    proves it correct if all levels of the last stack know all relations.
47. TRL does not call `ensureNoAuxiliaryVariablesInInitAndQuery`; its witness may mention auxiliary variables of the initial states.
48. If the first step of a loop of length one was made by a learned relation, the blocking clause of TRL contains a disjunct that is true
    in the model, so it excludes nothing (C66_progress needs that the index is 0 there).
49. The constructor of TRL's `Context` uses a `dynamic_cast` to a reference, which throws `bad_cast` before the test for a
    null pointer is reached.
50. Predicate abstraction treats UNKNOWN on an entailment check as "not entailed" while the refuted query is not queued again: with a backend
    that gives up there, it answers SAFE on an unsafe system (ArgEx.C67_unknown_unsound; the validator rejects the witness).
51. Predicate abstraction's refinement uses interpolants of different masks of one refutation as a tree interpolant. OpenSMT's default
    interpolation algorithms have this property for one proof; nothing in golem checks it (hypothesis `Smt.TreeItp` of C67).
52. `isRealProof` throws if the interpolating solver answers UNKNOWN, so `pa` ends with an exception instead of the answer unknown.
53. LAWI with `--forced-covering`: the label of the nearest common ancestor is asserted first, but `getPathInterpolants` builds the masks as if
    the first edge were, so the vertex after `i` edges gets the interpolant for one edge less, moved to the wrong step; and the last vertex
    gets the label of the candidate in any case. The tree is no longer well labelled and SAFE can be wrong: `LawiEx.C68_forced_covering_unsound`,
    and for a whole run of check-sat `LawiEx.C68_forced_covering_wrong_answer` (the validator rejects the model printed).
54. A Boolean variable quantified at the top of an assertion is the same symbol as a declared predicate without arguments and of the same
    name: `(declare-fun p () Bool) (assert (forall ((p Bool)) p)) (check-sat)` prints `sat`, although the assertion has no model
    (`ScriptEx.C71_shadowed_wrong`; hypothesis `NoClash` of C69 and C71).
55. `chclauseFromPTRef` accepts a predicate inside an argument of a predicate (`ScriptEx.C71_nested_accepted`), which is no Horn clause; the rest
    of golem then treats the inner application as a function of the theory. Hypothesis `Clean` of C71.
56. Horn clauses without predicates, such as `(assert (forall ((x Int)) (> x 0)))` or `(assert false)`, are refused and end the script
    (`ScriptEx.C71_no_predicate_refused`).
57. A second `(set-logic HORN)` silently drops all assertions (`ScriptEx.C71_set_logic_twice`); hypothesis `Standard` of C71.
58. With `--simplify-nested` and no witness requested, every SAFE or UNSAFE answer of the network ends in `std::bad_variant_access`:
    `NestedLoopTransformation.cc:47-62` asks for the witness unconditionally (`C72_no_witness_throws`, run in `NestEx.C72_failures`).
59. When a contracted vertex is contracted again (two cycles through one vertex), every SAFE answer ends in `std::out_of_range`: the intermediate
    vertex has no definition (`C72_nested_again_throws`). For UNSAFE the search for the location may dereference an end iterator (the assertion
    is compiled out); the model says `thrown`. Theorems about existence of witnesses have the hypothesis `Flat`.
60. Parallel edges make the error path ambiguous: the answer UNSAFE then comes without a witness (`nestedEdges`); hypothesis `NoParallel`.
61. The symbol of the new vertex is the concatenation of the names of the contracted ones (`ChcGraph.cc:647-666`): it may equal a predicate of the
    user, or that of another contraction, with the same sorts. Hypotheses `new`, `newNe`, `inj` of `NestInput`.
62. VMT: a file whose only invariant property has an index other than 0 ends with `std::out_of_range` (`C73_index`, run in
    `VmtEx.C73_example_index`); the format allows any index.
63. VMT: `assert` commands are parsed and ignored. A definition whose body is an atom ends the run with an exception. The exception for nonlinear terms
    is thrown while terms are built, outside of the `try` block that would print `unknown`. Of several definitions with one index or name
    the first counts. `P`, the predicate, may clash with a declared Boolean variable `P` when there are no state variables (not modelled).
64. VMT liveness has the wrong sign: the counter is decremented when the property is TRUE, so `valid` means that the property is eventually always
    false, while `:live-property` means eventually always true (`C74_wrong_sign`). `false` is `valid`, `true` is `unknown`
    (`LiveEx.C74_example_valid`, `LiveEx.C74_example_unknown`).
65. VMT liveness needs state variables named `x##n` whose next-state variable is `x##n+1`: any other name without digits ends the run with an exception
    (`C74_unversioned`); a name such as `x1` without separator is sent to `x2` (`npos + 2 = 1`), whatever `:next` says. Hypothesis `Named`.
66. VMT liveness does not check that `counter##0` and `counter##1` are unused, and hands the graph to the engine without preprocessing.
67. Termination: the summary of a chain keeps the source variables `x#k__s##0` of the removed predicates as auxiliary variables. The back ends start a new
    `Normalizer` that gives the same names to the arguments of its own predicate. In a clause with the predicate in its body such a variable would be
    captured; the code never checks this. (It does not happen in the programs we tried, because merges that make self-loops rename auxiliary variables.)
    Hypothesis `NoLeftovers` of C75.
68. Termination: when the only edge from the entry is removed as false, the remaining loop is unreachable, the graph does not count as trivially
    terminating, and the extraction runs into an assertion (release: out-of-bounds access), although the program terminates
    (`TermRunEx.C75_false_entry`).
69. Termination: unreachable vertices are removed before the edge inliner and the removal of false clauses, not after.
    `isTransitionSystemWithoutQuery` looks only at the reachable part, `toTransitionSystem` at all edges: with a self-loop that has become unreachable it
    takes the variables of that loop. Hypothesis `NoStrayLoop` of C75.
70. Termination: `NO` may be printed for a program whose extracted system has no initial state (finding 32): third part of `C75_termination`.
71. Integer transition systems: `exists` in a guard is dropped without renaming (`src/termination/Frontend.cc:194-198`), so a bound variable is
    identified with a variable of the same name elsewhere in the rule: `C76_captured` (a nonterminating program whose clauses have no infinite run).
72. Integer transition systems: a number as argument of a location is handed to `mkIntVar` like a name (`src/termination/Frontend.cc:293, 301`);
    `C76_numeral_argument` shows what follows if the logic makes a variable of it. A second `fun` of the same name is ignored; `not`, `=>`, `distinct`
    and compound arguments of locations make the reader throw.
73. Alethe proofs: for a clause without quantifiers the step with rule `implies` cites `lastStep()` (`src/proofs/ProofSteps.cc:299`), which is then not
    the step of the clause: `C78_ground_finding` (`true => Q`, `Q => false`; the first `implies` step cites the wrong assumption).
74. Alethe proofs, read but not modelled: `(- x)` for a variable `x` becomes a variable named `(- x)` (`src/ChcInterpreter.cc:257-259`), which is never
    instantiated; `=` compares texts (`src/proofs/ProofSteps.cc:502`), so `(= (- 0) 0)` is evaluated to false; unary minus on a compound term reads
    `args[1]` of one argument; a let inside an argument of a predicate is not expanded; a clause that is not an implication is taken for one
    (`src/proofs/ProofSteps.cc:292-293`, TODO in the code); a fact that is a predicate without arguments and without a body throws.
75. Proofs: a variable that occurs in the text of a clause but not in the simplified constraint (`(= x x)`, `(>= (+ x 1) x)`) gets no value
    (`C79_dropped`); the text still quantifies it, so `instPairs.at` throws (`src/proofs/ProofSteps.cc:185, 709`; with assertions, the one before it fails).
    In the intermediate format (`src/proofs/ProofSteps.cc:183-186`) the same holds for quantified variables that do not occur at all.
76. Command line (`src/Options.cc`): of several `-e` or `-l` the first counts, unlike `--compute-witness`, where the last does (`C80_options`);
    `--tpa.use-qe=no` switches it on; `--verbose` without a value is `atoi(nullptr)`; an unknown option, after the message of `getopt`, ends in `abort()`
    (a core dump), not in the usage. The usage says that the logic is required and may be QF_LRA or QF_LIA; it is optional and QF_ALIA is accepted.
77. Detection of the logic (`src/bin/golem.cpp:16-76`): arrays are looked for in declarations only, so a script with integer predicates and arrays in
    clauses is run in QF_LIA (examples after `C80_runs`); with Boolean predicates only, a variable of a compound sort is given to `strcmp` without a
    value (read; the parser is OpenSMT's); arrays of reals become QF_ALRA, which is refused as unknown; reals that occur only in
    clauses after an integer declaration are not seen.
78. Printing: with `--proof-format` other than `legacy`, `alethe`, `intermediate` nothing is printed for an unsafe result, without a message
    (`C81_printed`, `src/Witnesses.cc:26-41`).
