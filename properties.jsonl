{"id": "C01", "title": "Validator accepts only genuine models", "statement": "If the validator returns VALIDATED for a SAFE result with a validity witness that defines true as true and false as false, then interpreting every predicate by the witness formulas satisfies every clause of the system for every assignment to its variables; in particular no chain of clause applications derives false.", "quantifier": "every hypergraph (any number of clauses, any number of body predicates, repeated predicates in one body), every witness, every valuation, every sound SMT backend", "why_tests_cant": "The claim quantifies over all valuations of unbounded-domain variables and all derivations; a test only sees witnesses the solver happened to produce.", "anchors": ["src/Validator.cc:Validator::validateValidityWitness", "src/graph/ChcGraph.cc:VertexInstances"]}
{"id": "C02", "title": "Validator accepts only genuine refutations", "statement": "If the validator returns VALIDATED for an UNSAFE result whose derivation only refers to earlier steps, then false is derivable from the clauses, i.e. the system has no model. For derivations whose premises are not earlier steps the validator's check is not sufficient (a circular derivation is accepted); both facts are stated.", "quantifier": "every hypergraph, every derivation of any length, every sound SMT backend", "why_tests_cant": "Needs induction over derivation length and a quantification over every derivation, including ones no engine produces today.", "anchors": ["src/Validator.cc:validateStep", "src/Validator.cc:Validator::validateInvalidityWitness"]}
{"id": "C03", "title": "Normalization preserves the meaning of the clauses", "statement": "Replacing the input clauses by the normalized ones (canonical argument variables, equalities for non-variable or repeated arguments, renamed local variables) derives exactly the same predicate facts, hence keeps satisfiability.", "quantifier": "every CHC system with any terms as predicate arguments, repeated predicates and repeated variables; all ground facts", "why_tests_cant": "Equivalence must hold for all clause shapes and all valuations; unit tests check a few shapes syntactically.", "anchors": ["src/Normalizer.cc:Normalizer::normalize", "src/Normalizer.cc:normalizeAuxiliaryVariables"]}
{"id": "C04", "title": "Building the graph preserves the meaning of the clauses", "statement": "The hypergraph built from a normalized system derives exactly the facts the clauses derive; a clause without body predicates becomes an edge from the entry node.", "quantifier": "every normalized system; all facts", "why_tests_cant": "Quantifies over all systems and all derivations.", "anchors": ["src/graph/ChcGraphBuilder.cc:buildGraph"]}
{"id": "C05", "title": "SAT and UNSAT verdicts are mutually exclusive and exhaustive", "statement": "A system has a model (an interpretation satisfying all clauses) if and only if false is not derivable; so a correct SAFE witness and a correct UNSAFE witness never exist for the same system.", "quantifier": "every clause system", "why_tests_cant": "It is a statement about all interpretations and all derivations.", "anchors": ["src/Witnesses.h:VerificationAnswer", "src/Validator.cc"]}
{"id": "C06", "title": "Merging parallel edges preserves reachability and both witness kinds", "statement": "Replacing all simple edges with the same source and target by one edge labelled with the disjunction keeps the derivable facts of every node; a model of the merged graph is a model of the original; a derivation over the merged graph back-translates to one over the original with every merged edge replaced by an original edge that derives the same fact.", "quantifier": "every hypergraph, every bucket size, every derivation and model", "why_tests_cant": "Universally quantified over graphs, models and derivations.", "anchors": ["src/graph/ChcGraph.cc:mergeMultiEdges", "src/transformers/MultiEdgeMerger.cc"]}
{"id": "C07", "title": "Removing false clauses is sound", "statement": "Deleting edges whose label is the constant false keeps the derivable facts, and any model or derivation of the reduced graph is one of the original.", "quantifier": "every hypergraph, model and derivation", "why_tests_cant": "Universally quantified.", "anchors": ["src/graph/ChcGraph.cc:deleteFalseEdges", "src/transformers/FalseClauseRemoval.cc"]}
{"id": "C08", "title": "Removing unreachable nodes is sound and its SAFE witness is complete", "statement": "Removing nodes that cannot reach false or cannot be reached from true keeps derivability of false; the back-translated model (true for backward-unreachable, false for forward-unreachable nodes) satisfies every original clause.", "quantifier": "every hypergraph, every model of the reduced graph", "why_tests_cant": "Universally quantified; needs a fixpoint argument about the worklist loops.", "anchors": ["src/transformers/RemoveUnreachableNodes.cc"]}
{"id": "C09", "title": "Pruning trivial edges is sound", "statement": "If a direct entry-to-exit edge is satisfiable the reduced graph is that single edge and its refutation back-translates to one of the original; otherwise the unsatisfiable direct edges are dropped and every witness of the rest is a witness of the original.", "quantifier": "every hypergraph, every sound SMT backend", "why_tests_cant": "Universally quantified.", "anchors": ["src/transformers/TrivialEdgePruner.cc"]}
{"id": "C10", "title": "Eliminating a node preserves reachability of the other nodes", "statement": "Contracting a node that has no self loop (each incoming edge combined with each outgoing one, intermediate variables made auxiliary) keeps exactly the derivable facts of all remaining nodes.", "quantifier": "every hypergraph and node meeting the eliminator's guard, all facts", "why_tests_cant": "Quantifies over graphs, labels with arbitrary auxiliary variables and derivations.", "anchors": ["src/graph/ChcGraph.cc:contractVertex", "src/graph/ChcGraph.cc:mergeEdgePair", "src/transformers/NodeEliminator.cc"]}
{"id": "C11", "title": "Node elimination: SAFE witness back-translation", "statement": "Extending a model of the contracted graph by the interpolant computed for the removed node yields a model of the original graph.", "quantifier": "every hypergraph, every model of the contracted graph, every interpolating SMT backend meeting its contract", "why_tests_cant": "Universally quantified over models and interpolants.", "anchors": ["src/transformers/NodeEliminator.cc:BackTranslator::translate(ValidityWitness)"]}
{"id": "C12", "title": "Expanding a contracted derivation step", "statement": "Replacing a derivation step that used a contracted (summary) edge by the steps of the chain it summarizes yields a derivation over the original edges: every step is an instance of its edge, premises point to earlier steps, and the last fact is unchanged.", "quantifier": "every derivation length, every chain length, every position of the replaced step", "why_tests_cant": "Index shifting for all positions and sizes.", "anchors": ["src/transformers/CommonUtils.cc:replaceSummarizingStep", "src/transformers/CommonUtils.cc:expandStepWithHyperEdge"]}
{"id": "C13", "title": "Chain summarization preserves reachability and SAFE witnesses", "statement": "Contracting a simple chain of edges into one edge keeps the facts of the remaining nodes; path interpolants for the removed nodes extend a model of the summary to a model of the chain.", "quantifier": "every chain length, every model, every path-interpolating backend", "why_tests_cant": "Universally quantified.", "anchors": ["src/transformers/SimpleChainSummarizer.cc", "src/graph/ChcGraph.cc:mergeTrivialChain"]}
{"id": "C14", "title": "Edge inlining preserves reachability and SAFE witnesses", "statement": "Deleting an edge no incoming edge can feed, or replacing an edge that only one predecessor can feed by the composition, keeps derivability of false; strengthening the middle node's interpretation with the interpolant gives a model of the original.", "quantifier": "every graph, edge, predecessor set", "why_tests_cant": "Universally quantified.", "anchors": ["src/transformers/EdgeInliner.cc"]}
{"id": "C15", "title": "Pipelines compose witness translations", "statement": "If each stage of a transformation pipeline translates witnesses of its output into witnesses of its input, the pipeline translates a witness of the final graph to a witness of the initial graph.", "quantifier": "every list of stages", "why_tests_cant": "Induction over the number of stages.", "anchors": ["src/transformers/TransformationPipeline.cc"]}
{"id": "C16", "title": "Contracting locations into one loop preserves reachability", "statement": "Encoding the nodes of a linear graph as a single loop with location and argument variables is exact: a bad state of the resulting transition system is reachable iff false is derivable from the graph.", "quantifier": "every linear graph, all path lengths", "why_tests_cant": "Simulation argument over all paths.", "anchors": ["src/graph/ChcGraph.cc:contractVertices", "src/transformers/SingleLoopTransformation.cc", "src/transformers/CommonUtils.cc:translateEdge"]}
{"id": "C17", "title": "Single-loop SAFE witness back-translation", "statement": "Specializing a safe inductive invariant of the single-loop system to each location gives a model of the original graph.", "quantifier": "every linear graph and every safe inductive invariant", "why_tests_cant": "Universally quantified.", "anchors": ["src/transformers/SingleLoopTransformation.cc:WitnessBackTranslator"]}
{"id": "C18", "title": "Conversion to a transition system preserves reachability", "statement": "For a graph of transition-system shape, the extracted init/transition/query have a bad path of length k iff the graph derives false with k loop iterations.", "quantifier": "every such graph, all k", "why_tests_cant": "Universally quantified.", "anchors": ["src/TransformationUtils.cc:toTransitionSystem", "src/TransformationUtils.cc:isTransitionSystem"]}
{"id": "C19", "title": "Reversing a transition system", "statement": "The reversed system relates states exactly in the opposite direction; it is safe iff the original is, and the complement of a safe inductive invariant of one is a safe inductive invariant of the other. Reversing the relation twice gives an equivalent relation.", "quantifier": "every transition system", "why_tests_cant": "Universally quantified over systems and states.", "anchors": ["src/TransitionSystem.cc:reverse", "src/TransitionSystem.cc:reverseTransitionRelation"]}
{"id": "C20", "title": "k-inductive to inductive invariant (single query)", "statement": "Given the UNSAT k-induction query and path interpolants, the returned formula is implied by the initial states, closed under the transition relation and implies the k-inductive invariant.", "quantifier": "every k, every transition system, every interpolating backend", "why_tests_cant": "All k and all systems.", "anchors": ["src/TransitionSystem.cc:unfoldSingleQuery"]}
{"id": "C21", "title": "k-inductive to inductive invariant (halving and QE modes)", "statement": "The other two conversion modes also return a 1-inductive invariant that implies the given one.", "quantifier": "every k, every transition system", "why_tests_cant": "All k and all systems.", "anchors": ["src/TransitionSystem.cc:unfoldHalving", "src/TransitionSystem.cc:qe"]}
{"id": "C22", "title": "BMC verdicts are correct", "statement": "On a transition system BMC answers UNSAFE(k) only if a bad state is reachable in exactly k steps and no shorter path exists; it answers SAFE only if there is no initial state; if the shortest bad path has length k it answers UNSAFE(k) whenever the backend decides its queries.", "quantifier": "every transition system, every number of unrollings", "why_tests_cant": "Unbounded unrollings.", "anchors": ["src/engine/Bmc.cc:solveTransitionSystemInternal"]}
{"id": "C23", "title": "BMC on general linear systems", "statement": "The single-solver BMC on arbitrary linear graphs answers UNSAFE only if false is derivable, and the extracted error path is a feasible path from entry to exit.", "quantifier": "every linear graph, all depths", "why_tests_cant": "Unbounded paths.", "anchors": ["src/engine/Bmc.cc:solveGeneralLinearSystem", "src/engine/Bmc.cc:computeWitness"]}
{"id": "C24", "title": "k-induction verdicts and invariants are correct", "statement": "The k-induction engine answers UNSAFE(k) only if a bad state is reachable in k steps, and SAFE only if no bad state is reachable; the invariant it returns (from forward or backward induction) is a safe inductive invariant.", "quantifier": "every transition system, every k", "why_tests_cant": "Unbounded k.", "anchors": ["src/engine/Kind.cc:solveTransitionSystemInternal", "src/engine/Kind.cc:invariantFromForwardInduction", "src/engine/Kind.cc:invariantFromBackwardInduction"]}
{"id": "C25", "title": "Interpolation-based model checking is sound", "statement": "IMC answers UNSAFE(n) only if a bad state is reachable in n steps, and SAFE only with a formula that is a safe inductive invariant.", "quantifier": "every transition system, all lookahead lengths and iteration counts", "why_tests_cant": "Unbounded loops.", "anchors": ["src/engine/IMC.cc:finiteRun", "src/engine/IMC.cc:computeFinalInductiveInvariant"]}
{"id": "C26", "title": "Trivial systems are decided correctly", "statement": "For a graph with only entry-to-exit edges the answer is UNSAFE iff some label is satisfiable, SAFE iff all are unsatisfiable, and the witness is correct.", "quantifier": "every such graph", "why_tests_cant": "Universally quantified.", "anchors": ["src/engine/Common.cc:solveTrivial"]}
{"id": "C27", "title": "Error paths become valid derivations", "statement": "The derivation built from a feasible error path starts with true, ends with false, and each step is an instance of its edge; an infeasible path is rejected.", "quantifier": "every linear graph, every path length", "why_tests_cant": "All lengths.", "anchors": ["src/Witnesses.cc:fromErrorPath", "src/Witnesses.cc:fromTransitionSystem"]}
{"id": "C28", "title": "Transition-system invariants become valid models", "statement": "The validity witness built from a safe inductive invariant of the extracted transition system satisfies every clause of the graph.", "quantifier": "every transition-system-shaped graph and every safe inductive invariant", "why_tests_cant": "Universally quantified.", "anchors": ["src/Witnesses.cc:ValidityWitness::fromTransitionSystem"]}
{"id": "C29", "title": "Negation normal form is equivalent and in normal form", "statement": "toNNF returns a formula equivalent to its input in which negation is applied to atoms only and no Boolean equality remains.", "quantifier": "every Boolean formula, every valuation", "why_tests_cant": "Structural induction over all formulas.", "anchors": ["src/TermUtils.cc:NNFTransformer"]}
{"id": "C30", "title": "Disjunctive normal form is equivalent and in normal form", "statement": "toDNF returns a formula equivalent to its input that is a disjunction of conjunctions of literals; dropped cubes are exactly contradictory ones.", "quantifier": "every Boolean formula, every valuation", "why_tests_cant": "Structural induction over all formulas.", "anchors": ["src/TermUtils.cc:DNFTransformer"]}
{"id": "C31", "title": "Top-level juncts recompose to the formula", "statement": "The conjunction of the top-level conjuncts (disjunction of the top-level disjuncts) is equivalent to the formula, through nested connectives and negations.", "quantifier": "every formula, every valuation", "why_tests_cant": "Worklist with duplicate detection over all formulas.", "anchors": ["src/TermUtils.h:getTopLevelJuncts", "src/TermUtils.cc:conjoin"]}
{"id": "C32", "title": "Bound simplification keeps the junction's meaning", "statement": "simplifyConjunction/simplifyDisjunction keep for each linear term only the strongest (weakest) bound and the result is equivalent to the input.", "quantifier": "every list of literals, every valuation", "why_tests_cant": "Universally quantified over lists and rationals.", "anchors": ["src/TermUtils.cc:simplifyJunction"]}
{"id": "C33", "title": "Trivial quantifier elimination is exact on the kept variables", "statement": "Eliminating variables by substitution of solved equalities yields a formula with the same solutions on the kept variables.", "quantifier": "every formula and set of variables, every substitution the extraction returns", "why_tests_cant": "Universally quantified.", "anchors": ["src/TermUtils.cc:tryEliminateVars"]}
{"id": "C34", "title": "Versioned names never collide and versions compose", "statement": "Distinct (base name, tag, instance/version) combinations get distinct names, un-versioning inverts versioning, and moving k then m steps in time equals moving k+m steps.", "quantifier": "every base name, instance number and (also negative) time step", "why_tests_cant": "All strings and all integers.", "anchors": ["src/TermUtils.h:TimeMachine", "src/TermUtils.h:VersionManager"]}
{"id": "C35", "title": "Model-based projection under-approximates and covers the model", "statement": "Projecting variables out of a formula with respect to a model returns a formula without these variables that is true in the model and implies the existential projection of the input.", "quantifier": "every formula, model and set of variables of the modelled fragment", "why_tests_cant": "All coefficients, bounds and divisibility constraints.", "anchors": ["src/ModelBasedProjection.cc"]}
{"id": "C36", "title": "Quantifier elimination returns an equivalent formula, and terminates for linear arithmetic", "statement": "The disjunction of projections is equivalent to the existential quantification of the input and mentions no eliminated and no new variable. For linear real and linear integer arithmetic the loop always ends.", "quantifier": "every formula, every number of iterations", "why_tests_cant": "Unbounded loop.", "anchors": ["src/QuantifierElimination.cc:eliminate,keepOnly", "src/ModelBasedProjection.cc:project"]}
{"id": "C37", "title": "Solving a linear term for a variable", "statement": "expressZeroTermFor returns s such that var = s iff the term equals zero.", "quantifier": "every linear term over the rationals with a non-zero coefficient of the variable", "why_tests_cant": "All coefficients.", "anchors": ["src/TermUtils.cc:expressZeroTermFor"]}
{"id": "C38", "title": "Entailment filtering is exact", "statement": "impliedBy returns exactly those candidates entailed by the assertions, as does the one-by-one variant.", "quantifier": "every candidate list and assertion, every model sequence", "why_tests_cant": "Loop over models chosen by the backend.", "anchors": ["src/utils/SmtSolver.cc:impliedBy", "src/utils/SmtSolver.cc:checkEntailmentOneByOne"]}
{"id": "C39", "title": "Let-printing preserves the term", "statement": "The text printed for a witness formula, read back with its let bindings expanded, is the original term.", "quantifier": "every term DAG", "why_tests_cant": "All shared-subterm structures.", "anchors": ["src/TermUtils.cc:printTermWithLets"]}
{"id": "C40", "title": "S-expression printing and parsing round-trip", "statement": "Parsing the printed form of an s-expression whose atoms are plain tokens returns it; malformed (unbalanced) input raises the parsing error instead of being accepted; input that ends inside a comment is a non-terminating case of the code.", "quantifier": "every s-expression, every input character sequence", "why_tests_cant": "All nestings and all inputs.", "anchors": ["src/utils/SExpressions.cc"]}
{"id": "C41", "title": "DFS order and reachability are exact", "statement": "The (reverse) post-order lists each node reachable from entry exactly once, and a node without cycles through it comes before its successors in reverse post-order.", "quantifier": "every linear graph", "why_tests_cant": "Graph induction.", "anchors": ["src/graph/ChcGraph.cc:postOrder", "src/graph/ChcGraph.cc:DFS"]}
{"id": "C42", "title": "Adjacency lists are exact", "statement": "Incoming/outgoing lists contain exactly the edges with that target/source, each once, also for hyperedges with repeated sources.", "quantifier": "every (hyper)graph", "why_tests_cant": "Universally quantified.", "anchors": ["src/graph/ChcGraph.cc:AdjacencyListsGraphRepresentation::from"]}
{"id": "C43", "title": "The validator accepts every genuine witness", "statement": "With a backend that always decides, the validator returns VALIDATED for every SAFE witness that defines each predicate over its own arguments and is a model, and for every UNSAFE witness that is a derivation of false whose steps name the clauses that justify them.", "quantifier": "every hypergraph, every model definable by formulas, every derivation of any length, every sound and complete SMT backend", "why_tests_cant": "It is a completeness claim over all correct witnesses; a test only shows that some witnesses are accepted.", "anchors": ["src/Validator.cc:Validator::validateValidityWitness", "src/Validator.cc:Validator::validateInvalidityWitness"]}
{"id": "C44", "title": "Hypergraph and linear graph conversions are exact", "statement": "Converting a hypergraph with single-source edges to a linear graph keeps, edge by edge, exactly the same pairs of source and target facts, the same edge ids, and hence the same reachability of false; SAFE and UNSAFE witnesses of the linear graph are witnesses of the hypergraph unchanged. The conversion back is exact too.", "quantifier": "every single-source hypergraph and every linear graph whose labels only use the edge's own variables and auxiliary variables, every theory interpretation, every witness", "why_tests_cant": "It is an equality of sets of facts under all valuations; a test evaluates one graph and one witness.", "anchors": ["src/graph/ChcGraph.cc:ChcDirectedHyperGraph::toNormalGraph", "src/graph/ChcGraph.cc:ChcDirectedGraph::toHyperGraph", "src/graph/ChcGraph.cc:ChcDirectedHyperGraph::isNormalGraph"]}
{"id": "C45", "title": "Backward symbolic execution answers are right", "statement": "The backward search that k-induction falls back to answers UNSAFE only if false is derivable and, with a backend that always decides, SAFE only if it is not.", "quantifier": "every linear graph, all path lengths, every sound trivial elimination of variables", "why_tests_cant": "Unbounded backward paths; leftover auxiliary variables interact across steps.", "anchors": ["src/engine/Kind.cc:BSE::run"]}
{"id": "C46", "title": "k-induction and BMC engines are right on every linear graph", "statement": "Whatever branch the engine takes (trivial system, transition system, general linear system), the answer agrees with derivability of false and the witness, if there is one, is a witness for the graph.", "quantifier": "every linear graph, witness and array options", "why_tests_cant": "Quantifies over all graphs and all branches.", "anchors": ["src/engine/Kind.cc:Kind::solve", "src/engine/Bmc.cc:BMC::solve"]}
{"id": "C47", "title": "Engines on hypergraphs are right after preprocessing and back-translation", "statement": "Running the k-induction engine on a hypergraph of clauses (preprocess towards a transition system, convert to a linear graph, solve, translate the witness back through every pass) gives an answer that agrees with derivability of false from the original clauses, and a witness, if there is one, for the original clauses. The same holds for the BMC engine, which does not preprocess.", "quantifier": "every hypergraph built from clauses, every deciding solver, every witness", "why_tests_cant": "Composition of many transformations over all inputs.", "anchors": ["src/engine/TransitionSystemEngine.cc:TransitionSystemEngine::solve", "src/engine/Bmc.h", "src/engine/Kind.cc"]}
{"id": "C48", "title": "Spacer's verdicts and witnesses are right", "statement": "If Spacer answers SAFE, it returns definitions for all predicates that form an inductive model excluding false. A derivation it returns with UNSAFE is a derivation of false. UNSAFE itself is right when the solver decides every query, or the system has no clause with several body predicates, or proofs are requested. With a deciding solver the search never ends in an exception.", "quantifier": "every constraint system (hyperedges included), every solver meeting its contract, every interpolant, projection and model, every order of the obligation queue and of the lemma sets, any number of rounds", "why_tests_cant": "The search interleaves may- and must-summaries over an unbounded number of bounds, with interpolants, models and queue order chosen by the library.", "anchors": ["src/engine/Spacer.cc:SpacerContext::run", "src/engine/Spacer.cc:SpacerContext::boundSafety", "src/engine/Spacer.cc:SpacerContext::isInductive", "src/engine/Spacer.cc:SpacerContext::reconstructInvalidityWitness"]}
{"id": "C49", "title": "Dual approximated reachability answers rightly and finds shortest errors", "statement": "If DAR answers SAFE, no bad state is reachable and the formula it returns is a safe inductive invariant over the state variables. If it answers UNSAFE with k steps, a bad state is reachable in exactly k steps and in no fewer. With a solver that decides, it never ends in an exception, and if a bad state is reachable it is found within as many iterations as the path has steps. The answers and witnesses carry over to the graph of clauses.", "quantifier": "every transition system, every solver meeting its contract (deciding, where stated), every choice of interpolants, any number of iterations", "why_tests_cant": "The two sequences grow without bound and are strengthened by interpolants chosen by the library; exceptions depend on every later query being refutable.", "anchors": ["src/engine/DAR.cc:DAR::solve", "src/engine/DAR.cc:DualApproximatedReachability::run", "src/engine/DAR.cc:DualApproximatedReachability::globalStrengthen", "src/engine/DAR.cc:DualApproximatedReachability::fixpoint"]}
{"id": "C50", "title": "Property-directed k-induction answers rightly", "statement": "If PDKind answers UNSAFE with k steps, a bad state is reachable in exactly k steps, whatever the backend leaves undecided. If the backend decides its queries: a SAFE answer means no bad state is reachable and the returned formula is a safe inductive invariant over the state variables; the search never ends in an exception; and if a bad state is reachable in d steps, at most d rounds of the main loop pass before it answers. The answers and witnesses carry over to the graph of clauses.", "quantifier": "every transition system whose query has no auxiliary variables, every solver meeting its contract (deciding, where stated), every interpolant, model, projection and order of the frame sets, any number of rounds and pushes", "why_tests_cant": "Frames and the reachability sequence grow without bound and depend on interpolants and models chosen by the library; induction depth changes over the run.", "anchors": ["src/engine/PDKind.cc:Context::solve", "src/engine/PDKind.cc:Context::push", "src/engine/PDKind.cc:ReachabilityChecker::checkReachability", "src/engine/PDKind.cc:ReachabilityChecker::generalize", "src/engine/PDKind.h"]}
{"id": "C51", "title": "Forward symbolic execution answers rightly and finds every error", "statement": "If the symbolic execution engine answers UNSAFE, false is derivable and the derivation it returns is one; if it answers SAFE, false is not derivable and the definitions it returns are closed under all clauses and exclude false, with a definition for every predicate reachable from the entry. This holds whatever the backend leaves undecided. With a deciding backend it never answers UNKNOWN or raises an exception, and if false is derivable it answers UNSAFE after finitely many iterations.", "quantifier": "every linear constraint graph, every solver meeting its contract (deciding, where stated), every simplification and partial quantifier elimination, any number of iterations", "why_tests_cant": "The search is unbounded; auxiliary variables of all earlier steps stay in the states, so a clash could appear at any depth.", "anchors": ["src/engine/SymbolicExecution.cc:DirectForwardSymbolicExecution::run", "src/engine/SymbolicExecution.cc:getInvalidityWitness", "src/engine/SymbolicExecution.cc:getValidityWitness"]}
{"id": "C52", "title": "The lasso finder is right", "statement": "If the lasso back end answers LASSO, some reachable state of the system is reached again from itself, so the system has an infinite run; if it answers NO_LASSO there is no such state.", "quantifier": "every transition system, every engine that answers rightly on the clauses it is given (Spacer in particular, with every sound backend)", "why_tests_cant": "Loops may be arbitrarily long and the encoding must hold for all states and all stored copies.", "anchors": ["src/termination/LassoDetector.cc:find_lasso"]}
{"id": "C53", "title": "The step counter proves a concrete bound", "statement": "If the step-counter back end answers YES, then for one of the multipliers 1, 2, 4, 8, 16, 32 every run from an initial state s has at most m*|s|+1 steps, where |s| is the sum of absolute values of the integer variables (or 1), so the system terminates; UNKNOWN means none of these bounds holds; NO is never answered.", "quantifier": "every transition system over integers, every run of any length, every engine that answers rightly on its clauses", "why_tests_cant": "The bound is about all initial states and all runs.", "anchors": ["src/termination/ReachabilityTerm.cc:termination"]}
{"id": "C54", "title": "Termination analysis by safety checks answers rightly", "statement": "If the reachability-based back end answers YES every run of the system is finite; if it answers NO the system has an infinite run, provided it has an initial state. (The solver must decide its queries: with UNKNOWN answers YES and NO can both be wrong.)", "quantifier": "every transition system, every number of refinements of the transition relation, initial and sink states, every exact quantifier elimination, every engine with right answers and witnesses", "why_tests_cant": "The loop restricts the system again and again; each restriction must preserve the existence of infinite runs for all systems.", "anchors": ["src/termination/ReachabilityNonterm.cc:run", "src/termination/ReachabilityNonterm.cc:constructHyperGraph"]}
{"id": "C55", "title": "A portfolio run prints exactly one answer, whatever the schedule", "statement": "When several methods or engines run as processes, at most one answer line is printed in any interleaving, and it is the definite answer of one of them; MAYBE is printed only if every method gave up. No process is left when the parent returns, the child that won is never killed before it finished, every run is finite, and if some method answers and nothing fails exactly one answer is printed.", "quantifier": "every number of methods, every combination of results (also methods that never return), every interleaving of parent and children, every crash of a child and failure of fork", "why_tests_cant": "The outcome depends on the schedule of concurrent processes and on crash points, which tests cannot enumerate.", "anchors": ["src/termination/Frontend.cc:multiMethodSolve", "src/ChcInterpreter.cc:solveWithMultipleEngines"]}
{"id": "C56", "title": "The default preprocessing neither changes the answer nor breaks witnesses", "statement": "The preprocessing run before every engine (constraint simplifier, chain summarizer, unreachable-clause removal, node elimination, edge inlining, false-clause removal, disjunctive merging, pruning of entry edges) keeps derivability of false: its output is unsafe iff its input is. A refutation of the output is translated to nothing or to a refutation of the input; under explicit graph conditions the preprocessing ends and every complete witness of the output is translated to a complete witness of the input.", "quantifier": "every well-formed hypergraph, theory, rewriter of formulas that is equisatisfiable, variable elimination, order of nodes and number of inlining rounds", "why_tests_cant": "Fifteen composed graph rewritings whose correctness depends on all graphs, labels and solver answers.", "anchors": ["src/transformers/BasicTransformationPipelines.cc:defaultTransformationPipeline", "src/transformers/ConstraintSimplifier.cc:ConstraintSimplifier::transform", "src/transformers/EdgeInliner.cc:EdgeInliner::transform", "src/transformers/TransformationPipeline.cc"]}
{"id": "C57", "title": "check-sat: sat is printed only for satisfiable clauses, unsat only for unsatisfiable ones", "statement": "From the asserted clauses, through normalization, graph construction, default preprocessing, the engine, back-translation and printing: `sat` is printed only if the clauses have a model and `unsat` only if they have none; a printed refutation is empty or a derivation of false in the graph of the input clauses; `validation successful` is printed after a complete witness under the conditions of C56. Proved for an arbitrary right engine, and instantiated with Spacer, BMC, symbolic execution and k-induction.", "quantifier": "every list of Horn clauses over every theory, every engine that is right on hypergraphs, every option for printing and validating witnesses", "why_tests_cant": "It ranges over all clause systems and all solver behaviours within the contract, and composes the whole tool.", "anchors": ["src/ChcInterpreter.cc:ChcInterpreterContext::interpretCheckSat", "src/ChcInterpreter.cc:ChcInterpreterContext::solve", "src/Normalizer.cc", "src/graph/ChcGraphBuilder.cc", "src/transformers/BasicTransformationPipelines.cc"]}
{"id": "C58", "title": "Transition power abstraction: answers are right in every history of queries", "statement": "On one solver object of TPA or split-TPA, in every sequence of changing the initial states, changing the query states and solving, SAFE is answered only if no query state is reachable from the initial states, and UNSAFE only if one is; the states reported as reached are non-empty, satisfy the query and are reachable. split-TPA also reports a number of steps for which a counterexample of exactly that length exists. The side condition is explicit: initial states and query are not the same unsatisfiable formula.", "quantifier": "every transition system, theory, history of operations, sound solver (complete for SAFE), interpolation, projection and simplification procedures within their contracts", "why_tests_cant": "The abstraction powers, caches and invariants accumulate over histories, and depend on every interpolant and model the backend may choose.", "anchors": ["src/engine/TPA.cc:TPABase::solve", "src/engine/TPA.cc:TPASplit::reachabilityQueryLessThan", "src/engine/TPA.cc:TPASplit::reachabilityQueryExact", "src/engine/TPA.cc:TPABasic::reachabilityQuery", "src/engine/TPA.cc:TPABase::houdiniCheck", "src/engine/TPA.cc:TPASplit::checkLessThanFixedPoint"]}
{"id": "C59", "title": "TPA: the extracted invariant is a safe inductive invariant", "statement": "After SAFE, the invariant returned (if any) mentions state variables only, contains the initial states, is closed under the transition relation and excludes the query, whichever kind of fixed point was found (less-than or exact, left or right, restricted to init or query or not).", "quantifier": "every transition system, history, core and fixed point", "why_tests_cant": "The construction depends on the kind of fixed point and on the interpolants found; tests reach only a few.", "anchors": ["src/engine/TPA.cc:TPABase::getInductiveInvariant", "src/engine/TPA.cc:TPASplit::inductiveInvariantFromEqualsTransitionInvariant", "src/TransitionSystem.cc:KTo1Inductive"]}
{"id": "C60", "title": "TPA: the safety explanation is a set of states that cannot reach the query", "statement": "After SAFE, the explanation returned is a superset of the initial states, over the state variables, from which no query state is reachable in any number of steps.", "quantifier": "every transition system, history, core and fixed point", "why_tests_cant": "The network of transition systems relies on it for every query; it must hold for all interpolants.", "anchors": ["src/engine/TPA.cc:TPABase::getSafetyExplanation", "src/engine/TPA.cc:TPABase::safeSupersetOfInitialStates"]}
{"id": "C61", "title": "split-TPA: a reported counterexample is less than twice the shortest, and powers rule out exponentially many lengths", "statement": "The number of steps split-TPA reports for UNSAFE is at most one or less than twice the length of a shortest counterexample; and when the check of power p ends without an answer there is no counterexample of at most 2^(p+1) steps, for both cores.", "quantifier": "every transition system, number of powers and backend behaviour within the contract", "why_tests_cant": "It bounds all counterexamples of an unbounded system.", "anchors": ["src/engine/TPA.cc:TPABase::solve", "src/engine/TPA.cc:TPASplit::checkPower"]}
{"id": "C62", "title": "TPA on a network of loops: answers and witnesses are right", "statement": "For an acyclic graph of vertices with self-loops, UNSAFE means false can be derived and the derivation returned is one; SAFE means false cannot be derived and the definitions returned are an inductive interpretation of every vertex. With split-TPA and a deciding backend a derivation is always produced when witnesses are asked for.", "quantifier": "every graph, both cores, every interpolant, projection and order of queries within the contracts of the backend", "why_tests_cant": "The search blocks and refines an unbounded number of pre- and post-states; soundness rests on invariants over the whole search.", "anchors": ["src/engine/TPA.cc:TransitionSystemNetworkManager::solve", "src/engine/TPA.cc:queryEdge", "src/engine/TPA.cc:queryTransitionSystem", "src/engine/TPA.cc:computeValidityWitness", "src/engine/TPA.cc:getErrorPath"]}
{"id": "C63", "title": "Loop detection is exact", "statement": "On graphs with more than three vertices the search for a loop ends and returns the empty list exactly if no cycle through two different vertices is reachable from the entry; otherwise it returns such a cycle, edge by edge, without self-loops or repeated vertices. Graphs accepted as a network of transition systems have no cycles but self-loops and, if pruned, every inner vertex has a self-loop and a way out.", "quantifier": "every linear graph", "why_tests_cant": "It ranges over all finite graphs and search orders.", "anchors": ["src/TransformationUtils.cc:detectLoop", "src/TransformationUtils.cc:isTransitionSystemDAG"]}
{"id": "C64", "title": "The TPA engine is right on every linear graph", "statement": "Whichever of its branches (trivial graph, transition system, network of loops, single-loop transformation) the TPA engine takes, SAFE and UNSAFE are true of the graph and a witness in the result proves the answer; UNSAFE is right even if the backend leaves queries undecided; split-TPA always gives a derivation with UNSAFE.", "quantifier": "every linear graph without parallel self-loops, both cores, every backend within its contract, witnesses on or off", "why_tests_cant": "It composes shape tests, extraction, solving and back-translation for all graphs.", "anchors": ["src/engine/TPA.cc:TPAEngine::solve", "src/engine/TPA.cc:TPAEngine::solveTransitionSystemGraph"]}
{"id": "C65", "title": "check-sat with the transition-system engines on linear clauses", "statement": "With imc, dar, pdkind, tpa or split-tpa, check-sat prints sat for linear clauses only if they have a model and unsat only if they have none; a non-empty refutation printed after unsat derives false from the input clauses. The engines' own preprocessing leaves a trivial graph, or a linear one with entry and exit edges, without parallel edges, unreachable vertices or an edge from entry to exit, whatever the clauses.", "quantifier": "every list of linear clauses (at most one predicate per body) over every theory, every backend within its contract that decides all queries, witnesses and validation on or off", "why_tests_cant": "It composes normalization, two preprocessing pipelines, extraction or single-loop transformation, the engine and three back-translations for all inputs.", "anchors": ["src/ChcInterpreter.cc:ChcInterpreterContext::interpretCheckSat", "src/engine/TransitionSystemEngine.cc:TransitionSystemEngine::solve", "src/engine/TPA.cc:TPAEngine::solve", "src/engine/EngineFactory.cc:EngineFactory::getEngine"]}
{"id": "C66", "title": "Transitive relation learning", "statement": "The trl engine never answers UNSAFE; it answers SAFE only if no bad state can be reached, and on linear clauses check-sat with trl prints sat only if the clauses have a model. The states of its witness are exactly those reached by fewer steps than the last stack has levels, with steps through the learned relations; if all levels know all relations this is a safe inductive invariant. A learned relation contains the loop it was learned from and is transitive; a loop found in a trace is a shortest repetition; each blocking clause excludes the current model unless it was made with a learned relation; with a complete backend the engine raises no error.", "quantifier": "every transition system over linear integer arithmetic, every backend within its contract, every number of iterations, every list of linear clauses", "why_tests_cant": "The search space of levels, learned relations and blocking clauses is unbounded, and soundness rests on shortening arbitrary runs.", "anchors": ["src/engine/TRL.cc:TRL::solve", "src/engine/TRL.cc:TransitiveProjection", "src/engine/TRL.cc:ConjunctiveVariableProjection", "src/engine/TransitionSystemEngine.cc:TransitionSystemEngine::solve"]}
{"id": "C67", "title": "Predicate abstraction", "statement": "For every system of clauses, linear or not, the pa engine answers UNSAFE only if false can be derived, and its witness is a derivation of false from the clauses; it answers SAFE only if false cannot be derived, and its definitions (one per predicate) are a model of the clauses. After the refutation of an abstract proof, the query it ended in is infeasible in the refined abstraction. When it stops it has answered SAFE or UNSAFE, and with a deciding interpolating solver it raises no error. (check-sat) with pa prints sat only if the clauses have a model and unsat only if they have none.", "quantifier": "every list of legal clauses, every order in which sets and maps are iterated, every backend within its contract, every number of iterations", "why_tests_cant": "The abstract reachability graph, the set of predicates and the unfolded proof trees are unbounded; soundness needs that every tuple of uncovered nodes is queued, infeasible or expanded in every reachable state, across refinements and changes of the covering relation.", "anchors": ["src/engine/ArgBasedEngine.cc:Algorithm::run", "src/engine/ArgBasedEngine.cc:ARG::refine", "src/engine/ArgBasedEngine.cc:ARG::recheckCoveredNodes", "src/engine/ArgBasedEngine.cc:InterpolationTree", "src/engine/ArgBasedEngine.cc:AuxCleanupPass"]}
{"id": "C68", "title": "Lazy abstraction with interpolants", "statement": "For every linear system of clauses, the lawi engine answers UNSAFE only if false can be derived, with a derivation along the clauses when a witness is asked for; without forced covering (the default) it answers SAFE only if false cannot be derived, and its definitions (one per predicate) are a model of the clauses. Systems that are not linear or use arrays get UNKNOWN. With deciding solvers it raises no error and never answers UNKNOWN on a linear system. (check-sat) with lawi prints sat only if the clauses have a model and unsat only if they have none. With the option --forced-covering SAFE answers can be wrong.", "quantifier": "every list of legal clauses, every order of the outgoing edges, every backend within its contract, every number of iterations", "why_tests_cant": "The tree, its labels and the covering relation are unbounded, and labels and coverings change with every refinement; soundness needs that the tree stays well labelled and that no vertex is covered by a covered one in every reachable state.", "anchors": ["src/engine/Lawi.cc:LawiContext::unwind", "src/engine/Lawi.cc:LawiContext::DFS", "src/engine/Lawi.cc:LawiContext::refine", "src/engine/Lawi.cc:CoveringRelation::updateWith", "src/engine/Lawi.cc:LawiContext::applyForcedCovering"]}
{"id": "C69", "title": "Parsing of assertions keeps their meaning", "statement": "The term an assertion is parsed to is valid under an interpretation of the predicates exactly if the assertion is true as SMT-LIB defines it: let binds in parallel and only in its body, an inner binding hides an outer one of the same name, quantifiers at the top range over all values. After an assertion, however parsing ended, no binding is left; looking up a name yields the latest binding in an open scope.", "quantifier": "every syntax tree with arbitrarily nested let terms and quantifiers, every list of declarations, every interpretation, every sequence of opened and closed scopes", "why_tests_cant": "Scopes nest without bound and names may be reused at any depth; the claim ranges over all interpretations of the predicates.", "anchors": ["src/ChcInterpreter.h: LetBinder, LetRecords", "src/ChcInterpreter.cc: addLetFrame, parseTopLevelAssertion, parseTerm"]}
{"id": "C70", "title": "Clauses of assertions", "statement": "The clause made of an accepted assertion says the same as the assertion under every interpretation and valuation; its head is a declared predicate or false, its body consists of declared predicates and its constraint contains none. Every predicate, negated predicate and disjunction (with nested disjunctions, negations and conjunctions under negations) that is a Horn clause is accepted.", "quantifier": "every term, every set of declared predicates, every interpretation and valuation", "why_tests_cant": "The disjunction may be nested to any depth with duplicates; equivalence is over all interpretations.", "anchors": ["src/ChcInterpreter.cc: chclauseFromPTRef, isUninterpretedPredicate", "src/TermUtils.h: getTopLevelJuncts, getTopLevelDisjuncts"]}
{"id": "C71", "title": "Scripts get right answers", "statement": "An answer printed while a script is read is right for the assertions read before it: sat only if they have a model as SMT-LIB defines it, unsat only if they have none. If the commands before a check-sat contain no exit and their assertions are accepted where they stand, the check-sat is executed.", "quantifier": "every script with one set-logic at the beginning, any number of declarations, assertions and check-sat commands in any order, every engine that is right", "why_tests_cant": "It composes reading, parsing, clause making, preprocessing, the engine and the answer for all scripts and all positions of check-sat.", "anchors": ["src/ChcInterpreter.cc: interpretSystemAst, interpretCommand, interpretDeclareFun, interpretAssert, interpretCheckSat"]}
{"id": "C72", "title": "Contracting nested loops keeps answers and witnesses", "statement": "With the option to simplify nested loops, the loop-contracting transformation before TPA ends, leaves no cycle besides self-loops and preserves the lengths of error paths. Every SAFE or UNSAFE result the engine then returns is right for the initial system, and a derivation or interpretation it carries proves it there. A derivation is always found with split TPA when there are no parallel edges, an interpretation when quantifier elimination succeeds, provided no contracted loop is contracted again.", "quantifier": "every linear system of clauses with any number of intersecting or nested cycles, both TPA cores, witnesses on or off", "why_tests_cant": "The number of cycles, their nesting and the order of contractions are unbounded; the translated witness has to hold for all values.", "anchors": ["src/transformers/NestedLoopTransformation.cc: transform, translate, translateErrorPath, translateInvariant", "src/graph/ChcGraph.cc: contractVertices", "src/engine/TPA.cc: TPAEngine::solve"]}
{"id": "C73", "title": "VMT files with an invariant property get the right answer", "statement": "For a VMT file with one invariant property, `safe` is printed only if the property holds in every state reachable in the transition system the file describes, `unsafe` only if it fails in one. If the terms of the file can be built, the index of the property is 0 and the engine answers, exactly one line is printed; with another index the run ends with an exception and prints nothing.", "quantifier": "every VMT file (declarations, definitions that use earlier ones, annotations in any order of definitions, any number of state and auxiliary variables), every sound engine", "why_tests_cant": "The files, the nesting of definitions and the length of runs are unbounded; the answer is about all reachable states.", "anchors": ["src/vmt/FrontEnd.cc: VMTModelBuilder::parse, resolve, build, VMTModel::asChcs, solveSafetyProblem, run", "src/utils/SExpressions.cc"]}
{"id": "C74", "title": "What the answer for a VMT liveness property says", "statement": "For a VMT file with one liveness property, versioned names and no variable called like the counter, `valid` is printed only if on every infinite run the property is false from some point on, more exactly if no run makes more than c steps in which it is true, for every c above 0 and the absolute values of the integer state variables at the start; `unknown` is printed only if some run does. (The format asks for `true from some point on`: whenever there is an infinite run, `valid` refutes that.) If a state variable has a name without version, nothing is printed and the run ends with an exception.", "quantifier": "every VMT file with a liveness property, every infinite run of its system, every sound engine", "why_tests_cant": "The statement is about all infinite runs and all initial values.", "anchors": ["src/vmt/StepCounter.cc: StepCounter::checkLiveness", "src/vmt/FrontEnd.cc: asLivenessProblem, solveLivenessProblem", "src/TermUtils.h: TimeMachine::sendVarThroughTime"]}
{"id": "C75", "title": "The answer of the termination analysis for a program", "statement": "For an integer program given as linear clauses without goals (one fact for the start, one clause per rule), the termination front end prints at most one line, whichever back end is selected and however the processes of the portfolio interleave. `YES` is printed only if the program has no infinite run, `NO` only if it has one, or if the transition system extracted from it has no initial state. The transition system has an infinite run exactly if the program has one.", "quantifier": "every such program (any number of locations, rules and variables, any control flow graph), every choice of back end, every interleaving and every death of child processes, every sound solver and exact elimination", "why_tests_cant": "Infinite runs cannot be observed; the preprocessing composes nine transformations whose effect on infinite runs depends on the shape of the graph.", "anchors": ["src/termination/Frontend.cc: run, solve, multiMethodSolve, isTriviallyTerminating", "src/TransformationUtils.cc: isTransitionSystemWithoutQuery, toTransitionSystem", "src/transformers/SingleLoopTransformation.cc", "src/transformers/SimpleChainSummarizer.cc", "src/transformers/NodeEliminator.cc", "src/transformers/EdgeInliner.cc"]}
{"id": "C76", "title": "Integer transition systems are read as the programs they are", "statement": "A well-formed file in the LCTRS format for integer transition systems is read without an error, unless a product in a guard is refused as nonlinear. The Horn clauses made from it have an infinite run exactly if the program of the file has one: a run starts in the entry location with arbitrary values and applies the rules, with any values for the variables of a rule that satisfy its guard. For such a file the termination analysis prints at most one line; `YES` only if the program has no infinite run, `NO` only if it has one or the transition system extracted has no initial state. A file in which a guard uses an operator outside the format gets no answer.", "quantifier": "every well-formed file (any number of locations, arguments, rules; guards of any depth with and, or, exists, comparisons, sums, products), every choice of back end and interleaving", "why_tests_cant": "Guards, rules and runs are unbounded; a rule read wrongly shows only in programs whose termination depends on it.", "anchors": ["src/termination/Frontend.cc: parseITS, ITS::resolve, ITS::parseFun, ITS::parseRule, ITS::parseExpr, ITS::asChcs, translate, run", "src/utils/SExpressions.h"]}
{"id": "C77", "title": "The evaluation steps of a printed proof are right", "statement": "When the Alethe proof printer evaluates a ground term over integers and Booleans, every proof step that it adds cites only earlier steps and follows from the steps it cites: congruence and transitivity by equality alone, the evaluation rules by the SMT-LIB meaning of the operator (division and remainder are those of SMT-LIB, also for negative numbers). The last of the steps says that the term equals the result. A well-sorted closed term without predicates in which nothing is divided by zero is always evaluated, to the constant for its value, without a failed assertion; a predicate over such terms to the predicate over the values.", "quantifier": "every ground term of any depth over the operators that the printer knows, every list of earlier steps", "why_tests_cant": "Terms are unbounded; a wrong premise number or a wrong rounding shows only in some combination of operators, and only to a checker of the proof.", "anchors": ["src/proofs/ProofSteps.cc: simplify, shortCircuitSimplifyITE, simplifyOpDirect, smtlib_divmod, recordStep", "src/proofs/ProofSteps.h: StepHandler, Step"]}
{"id": "C78", "title": "From a derivation of false a correct Alethe proof is printed", "statement": "Given clauses of the form `forall xs. body => head` and a derivation of false from them (each step applies a clause under values for its variables: the constraints of the body are true, its predicates are the facts of the premises, in order, the head is the fact of the step), the printer of Alethe proofs succeeds. The proof assumes exactly the given assertions, in order; every other step cites only earlier steps and follows from those it cites (removal of unused quantifiers, instantiation, implication to clause, evaluation, resolution); the last step is the empty clause. So no interpretation with the SMT-LIB meaning of the operators satisfies all the assertions. The names that the proof introduces can always be given values at once, so no step holds for want of an interpretation.", "quantifier": "every list of clauses with any number of variables and conjuncts and constraints of any depth over integers and Booleans, every derivation of any length", "why_tests_cant": "Derivations and clauses are unbounded; a premise number that is off by one for some shape of clause makes a proof that no checker accepts.", "anchors": ["src/proofs/ProofSteps.cc: buildAletheProof, instantiationSteps, removeUnusedQuantifiers, derivePredicateFromClause, deriveLHSWithoutConstraint, buildAssumptionSteps, getOrCreateTrueStep", "src/proofs/Term.cc: InstantiateVisitor"]}
{"id": "C79", "title": "The values printed for the variables of a clause make the step an instance of the clause", "statement": "For a step of a derivation that is an instance of a clause of the input (its premises are the facts of the body in order, its fact is that of the head, the constraint holds under some values), the printer of proofs finds values for the variables of the clause without an error: from the facts for variables that are arguments, from a model of the constraint for the others. Under these values the body of the clause becomes the facts of the premises, the head the fact of the step, and the constraint holds, also if a variable is used several times or inside a compound argument, and whatever values variables without one have. If the constraint of the graph is exactly that of the normalized clause, every variable of the clause gets a value.", "quantifier": "every clause with any number of predicates, arguments and variables, over every theory, every instance of it, every solver that finds models", "why_tests_cant": "Clauses and facts are unbounded; a value taken from the wrong occurrence of a predicate shows only if the facts of the occurrences differ.", "anchors": ["src/proofs/ProofSteps.cc: getInstPairs", "src/Normalizer.cc: normalize, normalizeAuxiliaryVariables", "src/Normalizer.h: Equality"]}
{"id": "C80", "title": "The command line and the input file decide the analysis and its options", "statement": "The command line is accepted exactly when it has no option that ends the program and names the input at most once. Then the engine and the logic are the first ones given; the input is that of -i or the argument; the witness is computed exactly when it is validated, printed or asked for, where of several --compute-witness the last one counts and no, false and disable switch it off; forced covering likewise; the other switches are set exactly when given. The kind of analysis is decided by the text after the last dot of the file name; a .smt2 file is analysed in the logic asked for or else in the detected one, which must be QF_LRA, QF_LIA or QF_ALIA. The detected logic is the one of the sorts in the declarations before the first assertion if these mention integers or reals; it has reals only if the file mentions reals and arrays only if a predicate is declared over arrays; integers together with reals are refused. Help, version and unknown options end the program before any analysis, in the order given.", "quantifier": "every sequence of options and arguments, every file name, every script", "why_tests_cant": "The sequences of options, the file names and the scripts are unbounded, and the meaning depends on their order.", "anchors": ["src/Options.cc: CommandLineParser::parse, isDisableKeyword", "src/Options.h: addOption, getOption", "src/bin/golem.cpp: tryDetectLogic, main"]}
{"id": "C81", "title": "A printed witness can be read back", "statement": "The text printed for a model is one expression: the list, in order, of the definitions of the interpreted predicates other than true and false, each with its name, its arguments with their sorts in order, the result sort and a body that is the interpretation once its let bindings are expanded; the reader of expressions reads it back as this list. The text printed for a derivation in the legacy format has a line for each step with its number, its fact and the numbers of its premises, and determines the facts and the premises. Without a witness, and for an unsafe result in a format that is not one of the three, nothing is printed.", "quantifier": "every model with any number of predicates, arguments and definitions of any size, every derivation of any length", "why_tests_cant": "Models and derivations are unbounded; a text that two witnesses share is not found by printing examples.", "anchors": ["src/Witnesses.cc: ValidityWitness::print, InvalidityWitness::print, VerificationResult::printWitness", "src/TermUtils.cc: printTermWithLets"]}
{"id": "C82", "title": "Proofs in the intermediate format are justified line by line", "statement": "From every derivation of false in which all variables of the clauses have values (or that uses a clause without values) a proof in the intermediate format is made, without a failed assertion. Every line of it is justified by the lines before it: a clause is one of the input; an instance is the body of the clause on the line before at exactly the values listed there, in the order of the quantified variables; an implication follows from the instance on the line before; a derived fact is the conclusion of the implication on the line before, and its premises are true or are derived on the earlier lines that it cites, of which each is used. The last line derives false. If every line of a proof is justified, every derived fact is true wherever the input is, so a proof of false refutes the input. The text printed for a proof consists, read as SMT-LIB tokens, of exactly these lines: the number, the expression, the values and the numbers of the premises; lines with the same text have the same expression, values and premises.", "quantifier": "every list of clauses with any bodies and any number of variables, every derivation of any length, every interpretation of the predicates", "why_tests_cant": "Derivations and clauses are unbounded and truth ranges over all interpretations.", "anchors": ["src/proofs/ProofSteps.cc: StepHandler::buildIntermediateProof", "src/proofs/Term.cc: InstantiateVisitor"]}
{"id": "C83", "title": "The text of an Alethe proof is read as the proof", "statement": "The text printed for an Alethe proof is, for the reader of expressions, the sequence of its steps in order: an assumption is (assume tN F), another step (step tN (cl F ...) :rule R :premises (tK ...) :args (C ...)) with the number of the step, all literals of the clause, the rule, the premises and the values in order, where empty premises and values are left out; terms are printed with their operators, predicates, quantified variables with sorts, names and negative numbers as expressions of the same structure. If the names of variables and predicates are symbols that are not numbers, truth values, operators or names the proof introduces, and no variable has two sorts, then the text determines the proof.", "quantifier": "every proof with any number of steps, clauses, premises and values and terms of any size", "why_tests_cant": "Proofs and terms are unbounded; two different proofs with the same text are not found by printing examples.", "anchors": ["src/proofs/ProofSteps.cc: Step::printStepAlethe, numberToString", "src/proofs/Term.cc: PrintVisitor"]}
