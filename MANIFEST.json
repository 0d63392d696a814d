{
 "claims": [
  {
   "property": "C01",
   "status": "proved",
   "theorems": [
    "Golem.C01_validated_safe_is_model",
    "Golem.C01_validator_ignores_exit_definition",
    "Golem.C01_input_clauses"
   ],
   "note": "Hypothesis: the witness defines true as true and false as false. The code only asserts that definitions exist; the second theorem shows the hypothesis is needed."
  },
  {
   "property": "C02",
   "status": "proved",
   "theorems": [
    "Golem.C02_validated_unsafe_is_refutation",
    "Golem.C02_validator_accepts_circular_derivation",
    "Golem.C02_validator_ignores_premise_symbol",
    "Golem.C02_input_clauses"
   ],
   "note": "Positive theorem for derivations that only refer to earlier steps; the other two prove that the validator's own checks are not sufficient."
  },
  {
   "property": "C03",
   "status": "proved",
   "theorems": [
    "Golem.C03_normalize_same_instances",
    "Golem.C03_normal_form"
   ],
   "note": "Input variables are assumed not to use golem's own generated names (x#k__t etc.)."
  },
  {
   "property": "C04",
   "status": "proved",
   "theorems": [
    "Golem.C04_buildGraph_exact",
    "Golem.C04_input_to_graph",
    "Golem.C04_initial_graph"
   ],
   "note": ""
  },
  {
   "property": "C05",
   "status": "proved",
   "theorems": [
    "Golem.C05_sat_iff_not_derivable",
    "Golem.C05_witnesses_exclusive",
    "Golem.C05_clauses",
    "Golem.C05_validated_has_verdict"
   ],
   "note": ""
  },
  {
   "property": "C06",
   "status": "proved",
   "theorems": [
    "Golem.C06_merge_same_facts",
    "Golem.C06_merge_safe",
    "Golem.C06_merge_unsafe"
   ],
   "note": ""
  },
  {
   "property": "C07",
   "status": "proved",
   "theorems": [
    "Golem.C07_false_edges_same_facts",
    "Golem.C07_false_edges_unsafe",
    "Golem.C07_false_edges_safe",
    "Golem.C07_dropped_vertex_has_no_definition"
   ],
   "note": "A vertex all of whose edges are false is dropped and gets no definition; the last theorem exhibits it, C07_false_edges_safe states what holds."
  },
  {
   "property": "C08",
   "status": "proved",
   "theorems": [
    "Golem.C08_remove_unreachable",
    "Golem.C08_remove_forward_unreachable"
   ],
   "note": ""
  },
  {
   "property": "C09",
   "status": "proved",
   "theorems": [
    "Golem.C09_trivial_edge_pruner"
   ],
   "note": ""
  },
  {
   "property": "C10",
   "status": "proved",
   "theorems": [
    "Golem.C10_mergeEdgePair",
    "Golem.C10_node_elimination",
    "Golem.C10_unsafe",
    "Golem.NodeElimEx.example_C10_C11"
   ],
   "note": "For the two guards golem uses; trivial quantifier elimination enters as its contract, which C33_elim derives from C33."
  },
  {
   "property": "C11",
   "status": "proved",
   "theorems": [
    "Golem.C11_node_elimination_safe",
    "Golem.C11_node_elimination_total",
    "Golem.NodeElimEx.example_C10_C11"
   ],
   "note": "The code gives up (empty witness) when a neighbour of a removed vertex has no definition; the second theorem says when this cannot happen."
  },
  {
   "property": "C12",
   "status": "proved",
   "theorems": [
    "Golem.C12_replaceSummarizingStep",
    "Golem.C12_replaceSummarizingStep_total",
    "Golem.C12_expandStepWithHyperEdge",
    "Golem.C12_expandStepWithHyperEdge_total",
    "Golem.C12_node_elimination_unsafe",
    "Golem.C12_terminates",
    "Golem.C12_node_elimination_total",
    "Golem.DerivEx.example_C12"
   ],
   "note": "Also the whole loop of node elimination's translation of UNSAFE witnesses, with termination."
  },
  {
   "property": "C13",
   "status": "proved",
   "theorems": [
    "Golem.C13_chain_summarizer",
    "Golem.C13_unsafe",
    "Golem.C13_chain_summarizer_safe",
    "Golem.C13_chain_summarizer_safe_total",
    "Golem.C13_chain_summarizer_unsafe",
    "Golem.C13_chain_summarizer_unsafe_terminates",
    "Golem.C13_chain_summarizer_unsafe_total"
   ],
   "note": "All of SimpleChainSummarizer (trivialChain with both loops, contractTrivialChain, both back-translations), for any order in which getVertices lists the vertices. SAFE totality needs all vertices reachable from the entry (see DESIGN disagreement 12 for the isolated-cycle case)."
  },
  {
   "property": "C14",
   "status": "proved",
   "theorems": [
    "Golem.C14_edge_inliner",
    "Golem.C14_unsafe",
    "Golem.C14_edge_inliner_unsafe",
    "Golem.C14_edge_inliner_safe",
    "Golem.C14_edge_inliner_safe_total",
    "Golem.C14_fixpoint",
    "Golem.EdgeInlinerEx.C14_example",
    "Golem.EdgeInlinerEx.C14_self_loop_needed"
   ],
   "note": "All runs that end (nothing bounds the loop in the code). SAFE translation: removed self-loops must have no auxiliary variables (shown necessary), witnesses must not rely on undefined predicates being empty."
  },
  {
   "property": "C15",
   "status": "proved",
   "theorems": [
    "Golem.C15_pipeline",
    "Golem.C15_pipeline_total",
    "Golem.C15_towards_transition_systems",
    "Golem.C15_towards_transition_systems_total",
    "Golem.PipelineEx.C15_example"
   ],
   "note": "For every list of stages that each translate correctly, and for the concrete pipeline before the transition-system engines. A stage may fail and return the empty witness; the theorem says the pipeline's result is then either a right witness or comes from an empty one."
  },
  {
   "property": "C16",
   "status": "proved",
   "theorems": [
    "Golem.C16_single_loop",
    "Golem.C16_unsafe",
    "Golem.SingleLoopEx.C16_needs_exit_edge",
    "Golem.SingleLoopEx.C17_example"
   ],
   "note": "Graphs with an edge from the entry, an edge to the exit and no direct entry-exit edge (the preprocessing leaves no other kind except, see the third theorem, when the exit edge is missing). Names: the graph's variables must not be golem's own location/argument names."
  },
  {
   "property": "C17",
   "status": "proved",
   "theorems": [
    "Golem.C17_invariant",
    "Golem.C17_errorPath",
    "Golem.C17_errorPath_total",
    "Golem.C17_translate",
    "Golem.C17_solve",
    "Golem.C17_ts_engine",
    "Golem.C17_bmc_forced",
    "Golem.C17_imc",
    "Golem.SingleLoopEx.C17_example",
    "Golem.SingleLoopEx.C17_parallel_no_witness",
    "Golem.SingleLoopEx.C17_imc_needs_noAux"
   ],
   "note": "SAFE invariants and UNSAFE error paths; totality of the error-path translation for graphs without parallel edges (with parallel edges the code may give no witness: proved example). IMC needs a system without auxiliary variables in init and query (proved wrong-witness example)."
  },
  {
   "property": "C18",
   "status": "proved",
   "theorems": [
    "Golem.C18_toTransitionSystem",
    "Golem.C18_unsafe",
    "Golem.C18_ensureNoAux",
    "Golem.C33_elimExcept"
   ],
   "note": "Graphs whose edges all start at reachable vertices (in a release build a stray self loop would be taken for the loop) and whose edges share no auxiliary variables."
  },
  {
   "property": "C19",
   "status": "proved",
   "theorems": [
    "Golem.C19_reverse_semantics",
    "Golem.C19_reverse_wf",
    "Golem.C19_reverse_badIn",
    "Golem.C19_reverse_safe",
    "Golem.C19_reverse_invariant",
    "Golem.C19_reverse_twice"
   ],
   "note": ""
  },
  {
   "property": "C20",
   "status": "proved",
   "theorems": [
    "Golem.C20_unfoldSingleQuery",
    "Golem.C20_no_throw",
    "Golem.C20_kinductiveToInductive"
   ],
   "note": "Transition systems without auxiliary variables (the engines ensure this before the call)."
  },
  {
   "property": "C21",
   "status": "proved",
   "theorems": [
    "Golem.C21_unfoldHalving",
    "Golem.C21_qe"
   ],
   "note": "Quantifier elimination enters as the contract of KeepOnly (see C36)."
  },
  {
   "property": "C22",
   "status": "proved",
   "theorems": [
    "Golem.C22_bmc_sound",
    "Golem.C22_bmc_shortest",
    "Golem.C22_bmc_finds_shortest",
    "Golem.C22_bmc_graph"
   ],
   "note": "Shortest/complete parts for a backend that always decides."
  },
  {
   "property": "C23",
   "status": "proved",
   "theorems": [
    "Golem.C23_sound",
    "Golem.C23_level_exact",
    "Golem.C23_complete",
    "Golem.LinearEx.C23_example"
   ],
   "note": "Soundness with any sound backend; exactness of each level, completeness, shortest path and no exception with a deciding backend. Multi-edges are allowed (the comment in the code excludes them)."
  },
  {
   "property": "C24",
   "status": "proved",
   "theorems": [
    "Golem.C24_kind_unsafe",
    "Golem.C24_kind_safe_invariant",
    "Golem.C24_kind_safe",
    "Golem.C24_kind_finds",
    "Golem.C24_kind_no_throw",
    "Golem.C24_kind_graph",
    "Golem.C24_unknown_base_query_unsound"
   ],
   "note": "SAFE answers need the base queries to be decided; the last theorem proves that the hypothesis cannot be dropped."
  },
  {
   "property": "C25",
   "status": "proved",
   "theorems": [
    "Golem.C25_imc_unsafe",
    "Golem.C25_imc_safe",
    "Golem.C25_imc_graph",
    "Golem.C25_unknown_initial_query_unsound"
   ],
   "note": "SAFE answers need the query init-and-bad to be decided; the last theorem proves that the hypothesis cannot be dropped."
  },
  {
   "property": "C26",
   "status": "proved",
   "theorems": [
    "Golem.C26_solveTrivial_sound",
    "Golem.C26_solveTrivial_decides"
   ],
   "note": ""
  },
  {
   "property": "C27",
   "status": "proved",
   "theorems": [
    "Golem.C27_fromErrorPath_sound",
    "Golem.C27_fromErrorPath_exact"
   ],
   "note": ""
  },
  {
   "property": "C28",
   "status": "proved",
   "theorems": [
    "Golem.C28_validity",
    "Golem.C28_translate",
    "Golem.LinearEx.C28_example"
   ],
   "note": ""
  },
  {
   "property": "C29",
   "status": "proved",
   "theorems": [
    "Golem.C29_nnf"
   ],
   "note": ""
  },
  {
   "property": "C30",
   "status": "proved",
   "theorems": [
    "Golem.C30_dnf",
    "Golem.C30_dropped_cubes_are_contradictory"
   ],
   "note": "Cubes are sorted by the numeric ids of hash-consed terms, assumed injective."
  },
  {
   "property": "C31",
   "status": "proved",
   "theorems": [
    "Golem.C31_juncts_recompose",
    "Golem.C31_juncts_filter",
    "Golem.C31_conjoin",
    "Golem.C31_juncts_irreducible"
   ],
   "note": ""
  },
  {
   "property": "C32",
   "status": "proved",
   "theorems": [
    "Golem.C32_simplify_equiv",
    "Golem.C32_one_bound_per_term"
   ],
   "note": ""
  },
  {
   "property": "C33",
   "status": "proved",
   "theorems": [
    "Golem.C33_eliminate_exact",
    "Golem.C33_terminates",
    "Golem.C33_tryEliminateVars",
    "Golem.C33_tryEliminateVarsExcept"
   ],
   "note": "OpenSMT's retrieveSubstitutions and arithmetic term services enter as contracts; substitutions with non-variable keys (array selects) are not modelled."
  },
  {
   "property": "C34",
   "status": "proved",
   "theorems": [
    "Golem.C34_names_distinct",
    "Golem.C34_tagged_input_name_collides",
    "Golem.C34_unversioning_inverts",
    "Golem.C34_time_steps_compose",
    "Golem.C34_model_of_names",
    "Golem.C34_bad_version_throws"
   ],
   "note": "On the level of strings (rfind, stoi, to_string). Input names must not contain the separators or be generated names; the second theorem exhibits the collisions otherwise. C34_model_of_names links the abstract tagged variables used in all other theorems to the strings."
  },
  {
   "property": "C35",
   "status": "proved",
   "theorems": [
    "Golem.C35_real",
    "Golem.C35_int",
    "Golem.C35_keepOnly",
    "Golem.C35_real_total",
    "Golem.C35_int_total",
    "Golem.C35_real_finite",
    "Golem.C35_int_finite",
    "Golem.MBPEx.C35_tmp_clash"
   ],
   "note": "Linear real arithmetic, and linear integer arithmetic with divisibility constraints, mixed with Boolean variables. Integers: provided the internal name MBP_LIA_tmp does not occur in the formula (shown to be needed). Terms are polynomials instead of OpenSMT's canonical terms."
  },
  {
   "property": "C36",
   "status": "proved",
   "theorems": [
    "Golem.C36_eliminate",
    "Golem.C36_eliminate_at",
    "Golem.C36_keepOnly",
    "Golem.C36_qelim",
    "Golem.C36_terminates",
    "Golem.C36_real",
    "Golem.C36_int"
   ],
   "note": "OpenSMT's final boolean simplification is assumed to preserve equivalence. C36_real and C36_int instantiate projection with the model of C35 and prove termination for linear formulas with a backend that decides."
  },
  {
   "property": "C37",
   "status": "proved",
   "theorems": [
    "Golem.C37_solve_for"
   ],
   "note": ""
  },
  {
   "property": "C38",
   "status": "proved",
   "theorems": [
    "Golem.C38_impliedBy_exact",
    "Golem.C38_impliedBy_complete",
    "Golem.C38_oneByOne_exact"
   ],
   "note": ""
  },
  {
   "property": "C39",
   "status": "proved",
   "theorems": [
    "Golem.C39_let_printing",
    "Golem.C39_read_back",
    "Golem.C39_binding_can_capture"
   ],
   "note": "Character-level: the printed text is lexed and parsed, bindings expanded. A variable called like a binding (l<number>) is captured; third theorem."
  },
  {
   "property": "C40",
   "status": "proved",
   "theorems": [
    "Golem.C40_round_trip",
    "Golem.C40_read_exact",
    "Golem.C40_unbalanced_throws",
    "Golem.C40_unclosed_throws",
    "Golem.C40_stray_parenthesis_is_empty_atom",
    "Golem.C40_unfinished_comment_diverges"
   ],
   "note": "Both directions for every input without the zero character, including comments and quoted words. The parser alone does not reject a stray closing parenthesis; the front ends' loop does."
  },
  {
   "property": "C41",
   "status": "proved",
   "theorems": [
    "Golem.C41_reversePostOrder_exact",
    "Golem.C41_reversePostOrder_topological"
   ],
   "note": ""
  },
  {
   "property": "C42",
   "status": "proved",
   "theorems": [
    "Golem.C42_adjacency_exact"
   ],
   "note": ""
  },
  {
   "property": "C43",
   "status": "proved",
   "theorems": [
    "Golem.C43_genuine_safe_accepted",
    "Golem.C43_genuine_unsafe_accepted",
    "Golem.C43_safe_example",
    "Golem.C43_unsafe_example"
   ],
   "note": ""
  },
  {
   "property": "C44",
   "status": "proved",
   "theorems": [
    "Golem.C44_toNormalEdge",
    "Golem.C44_toHyperEdge",
    "Golem.C44_toNormalGraph_rules",
    "Golem.C44_toNormalGraph_unsafe",
    "Golem.C44_unsafe_witness",
    "Golem.C44_safe_witness",
    "Golem.C44_toHyperGraph_rules"
   ],
   "note": ""
  },
  {
   "property": "C45",
   "status": "proved",
   "theorems": [
    "Golem.C45_unsafe",
    "Golem.C45_safe",
    "Golem.LinearEx.C45_example",
    "Golem.LinearEx.C45_needs_complete"
   ],
   "note": "SAFE needs a deciding backend (counterexample proved: UNKNOWN is treated as infeasible)."
  },
  {
   "property": "C46",
   "status": "proved",
   "theorems": [
    "Golem.C46_kind",
    "Golem.C46_bmc"
   ],
   "note": "The single-loop branch of BMC (forceTransitionSystem) is a parameter; see C16/C17."
  },
  {
   "property": "C47",
   "status": "proved",
   "theorems": [
    "Golem.C47_ts_engine",
    "Golem.C47_ts_engine_at",
    "Golem.C47_kind",
    "Golem.C47_bmc",
    "Golem.PipelineEx.C47_example",
    "Golem.SingleLoopEx.C47_no_exit_edge_unsound"
   ],
   "note": "C47_ts_engine is for any engine on linear graphs that is right; instantiated for Kind; C47_ts_engine_at needs the engine only on the preprocessed graph. The last theorem exhibits a safe hypergraph on which the single-loop route answers UNSAFE."
  },
  {
   "property": "C48",
   "status": "proved",
   "theorems": [
    "Golem.C48_spacer",
    "Golem.C48_logged",
    "Golem.C48_hyper",
    "Golem.C48_clauses",
    "Golem.C48_no_error",
    "Golem.C48_never_throws",
    "Golem.SpacerEx.C48_example",
    "Golem.SpacerEx.C48_unknown_unsound",
    "Golem.SpacerEx.C48_reconstruction_fails"
   ],
   "note": "All of Spacer.cc with every queue order. SAFE and returned derivations are right for every sound backend and projection; the verdict UNSAFE under the stated condition, which a counterexample shows to be needed; exceptions only from reconstruction, which do occur. C48_clauses: directly from input clauses."
  },
  {
   "property": "C49",
   "status": "proved",
   "theorems": [
    "Golem.C49_dar_safe",
    "Golem.C49_dar_unsafe",
    "Golem.C49_no_error",
    "Golem.C49_dar_finds",
    "Golem.C49_dar_graph",
    "Golem.C49_dar_linear",
    "Golem.C49_example",
    "Golem.C49_counter",
    "Golem.C49_unknown_unsound",
    "Golem.SingleLoopEx.C49_needs_noAux"
   ],
   "note": "SAFE needs the solver to decide init and query only; UNSAFE, totality and completeness need a deciding solver (C49_unknown_unsound shows why). C49_dar_linear needs the single-loop system to have no auxiliary variables in init and query (C49_needs_noAux)."
  },
  {
   "property": "C50",
   "status": "proved",
   "theorems": [
    "Golem.C50_unsafe",
    "Golem.C50_safe",
    "Golem.C50_no_error",
    "Golem.C50_rounds",
    "Golem.C18_ensureNoAuxQuery",
    "Golem.C50_graph",
    "Golem.C50_linear",
    "Golem.PDKindEx.C50_example",
    "Golem.PDKindEx.C50_unknown_unsound"
   ],
   "note": "Deciding solver needed for SAFE (C50_unknown_unsound). C50_linear assumes the single-loop system's query has no auxiliary variables (the code does not eliminate them in that branch). Termination of push is not claimed."
  },
  {
   "property": "C51",
   "status": "proved",
   "theorems": [
    "Golem.C51_result",
    "Golem.C51_graph",
    "Golem.C51_no_error",
    "Golem.C51_finds",
    "Golem.C51_hyper",
    "Golem.LinearEx.C51_example"
   ],
   "note": "Any sound backend; deciding backend for totality and completeness. Termination on safe systems is not claimed."
  },
  {
   "property": "C52",
   "status": "proved",
   "theorems": [
    "Golem.C52_lasso",
    "Golem.C52_spacer",
    "Golem.TermEx.C52_example"
   ],
   "note": "Engine assumption discharged for Spacer."
  },
  {
   "property": "C53",
   "status": "proved",
   "theorems": [
    "Golem.C53_step_counter",
    "Golem.C53_spacer",
    "Golem.StepEx.C53_example"
   ],
   "note": "Engine assumption discharged for Spacer."
  },
  {
   "property": "C54",
   "status": "proved",
   "theorems": [
    "Golem.C54_nonterm",
    "Golem.C54_spacer",
    "Golem.TermEx.C54_example",
    "Golem.TermEx.C54_no_initial_state",
    "Golem.TermEx.C54_unknown_yes",
    "Golem.TermEx.C54_unknown_no"
   ],
   "note": "The premises (an initial state, a deciding solver) are shown to be needed."
  },
  {
   "property": "C55",
   "status": "proved",
   "theorems": [
    "Golem.Portfolio.C55_portfolio",
    "Golem.Portfolio.C55_one_answer",
    "Golem.Portfolio.C55_completed",
    "Golem.Portfolio.C55_answer_not_lost",
    "Golem.Portfolio.C55_quiet",
    "Golem.Portfolio.C55_winner_finishes",
    "Golem.Portfolio.C55_no_stray_kill",
    "Golem.Portfolio.C55_step_decreases",
    "Golem.Portfolio.Ex.C55_example"
   ],
   "note": "Interleaving model of both portfolios. Exactly-one-answer needs a run without faults; counterexamples with faults are proved (Portfolio.Ex)."
  },
  {
   "property": "C56",
   "status": "proved",
   "theorems": [
    "Golem.C56_constraint_simplifier",
    "Golem.C56_default_pipeline",
    "Golem.C56_default_pipeline_total",
    "Golem.default_noStray",
    "Golem.CheckEx.C57_example_ready"
   ],
   "note": "Rewriter of OpenSMT as contract RewriteExact; the completeness part has the graph conditions DefaultReady; names introduced by the rewriters are assumed to differ between clauses (FIXME in the code)."
  },
  {
   "property": "C57",
   "status": "proved",
   "theorems": [
    "Golem.C57_check_sat",
    "Golem.C57_unsafe_witness",
    "Golem.C57_complete",
    "Golem.C57_spacer",
    "Golem.C57_bmc",
    "Golem.C57_se",
    "Golem.C57_kind",
    "Golem.CheckEx.hyps",
    "Golem.CheckEx.C57_example_safe",
    "Golem.CheckEx.C57_example_unsafe"
   ],
   "note": "One engine; engine contract Right/Good proved for Spacer, BMC, symbolic execution, k-induction."
  },
  {
   "property": "C58",
   "status": "proved",
   "theorems": [
    "Golem.C58_prepare",
    "Golem.C58_safe",
    "Golem.C58_unsafe",
    "Golem.C58_first",
    "Golem.TpaEx.C58_example",
    "Golem.TpaEx.C58_basic_steps_wrong",
    "Golem.TpaEx.C58_equal_shortcut_unsound",
    "Golem.TpaEx.C58_unknown_unsound",
    "Golem.TpaEx.C58_restart_unsound"
   ],
   "note": "Both cores, all histories of resetInitialStates/resetQueryStates/solve; the step count only for split-TPA (that of TPABasic is wrong: C58_basic_steps_wrong); hypotheses shown necessary by the other examples."
  },
  {
   "property": "C59",
   "status": "proved",
   "theorems": [
    "Golem.C59_invariant",
    "Golem.TpaEx.C59_example"
   ],
   "note": "All kinds of fixed points; the example exercises less-than ones."
  },
  {
   "property": "C60",
   "status": "proved",
   "theorems": [
    "Golem.C60_explanation",
    "Golem.TpaEx.C59_example"
   ],
   "note": "A superset of the initial states that cannot reach the query."
  },
  {
   "property": "C61",
   "status": "proved",
   "theorems": [
    "Golem.C61_length",
    "Golem.C61_bound",
    "Golem.TpaEx.C61_example"
   ],
   "note": "C61_length for split-TPA, C61_bound for both cores."
  },
  {
   "property": "C62",
   "status": "proved",
   "theorems": [
    "Golem.C62_unsafe",
    "Golem.C62_safe",
    "Golem.C62_unsafe_witness_total",
    "Golem.TpaGraphEx.C62_example",
    "Golem.TpaGraphEx.C62_parallel_loops_unsound"
   ],
   "note": "The search of the network for both cores; SAFE under at most one self-loop per vertex and a deciding backend."
  },
  {
   "property": "C63",
   "status": "proved",
   "theorems": [
    "Golem.C63_detectLoop",
    "Golem.C63_detectLoop_small",
    "Golem.C63_dag_cycleFree",
    "Golem.C63_dag_loops",
    "Golem.TpaGraphEx.C63_example"
   ],
   "note": "Loop detection and the shape test of networks."
  },
  {
   "property": "C64",
   "status": "proved",
   "theorems": [
    "Golem.C64_tpa_graph",
    "Golem.C64_tpa_unsafe",
    "Golem.C64_split_witness",
    "Golem.TpaGraphEx.C64_example"
   ],
   "note": "All branches of TPAEngine::solve except the option SIMPLIFY_NESTED. With split-TPA some clause without body atoms must be applicable (C58_equal_shortcut_unsound)."
  },
  {
   "property": "C65",
   "status": "proved",
   "theorems": [
    "Golem.C65_imc",
    "Golem.C65_dar",
    "Golem.C65_pdkind",
    "Golem.C65_tpa",
    "Golem.C65_imc_graph",
    "Golem.C65_dar_graph",
    "Golem.C65_pdkind_graph",
    "Golem.C65_tpa_graph",
    "Golem.towards_ready",
    "Golem.singleLoop_noAux",
    "Golem.default_tame",
    "Golem.initialGraph_tame",
    "Golem.C57_check_sat_at",
    "Golem.C57_unsafe_witness_at",
    "Golem.TSCheckEx.C65_example_tpa",
    "Golem.TSCheckEx.C65_example_engines"
   ],
   "note": "Linear clauses, complete backend. imc, dar and pdkind assume no auxiliary variables on the entry and exit edges of a graph that is no transition system (C17_imc_needs_noAux); split-tpa assumes that an edge out of true can be taken. Non-linear clauses: C47_no_exit_edge_unsound."
  },
  {
   "property": "C66",
   "status": "proved",
   "theorems": [
    "Golem.C66_safe",
    "Golem.C66_invariant",
    "Golem.C66_witness",
    "Golem.C66_loop",
    "Golem.C66_transitive",
    "Golem.C66_total",
    "Golem.C66_progress",
    "Golem.C66_linear",
    "Golem.C66_graph",
    "Golem.C66_check",
    "Golem.TrlEx.witness_gap"
   ],
   "note": "transition systems over the integers and, without witnesses, linear clauses. Finding: the witness can contain bad states when an early level does not know a learned relation (TrlEx.witness_gap)."
  },
  {
   "property": "C67",
   "status": "proved",
   "theorems": [
    "Golem.C67_unsafe",
    "Golem.C67_safe",
    "Golem.C67_result",
    "Golem.C67_total",
    "Golem.C67_engine",
    "Golem.C67_refinement",
    "Golem.C67_check",
    "Golem.ArgEx.hyps",
    "Golem.ArgEx.C67_example_safe",
    "Golem.ArgEx.C67_example_unsafe",
    "Golem.ArgEx.C67_example_refinement",
    "Golem.ArgEx.C67_unknown_unsound",
    "Golem.propSmt_treeItp"
   ],
   "note": "The whole engine ArgBasedEngine.cc, for arbitrary (also nonlinear) clauses and all iteration orders. UNSAFE needs only a correct interpolating solver; SAFE needs a deciding solver for the abstraction (C67_unknown_unsound: with UNKNOWN answers the engine is unsound) and tree interpolants."
  },
  {
   "property": "C68",
   "status": "proved",
   "theorems": [
    "Golem.C68_result",
    "Golem.C68_unsafe",
    "Golem.C68_safe",
    "Golem.C68_no_error",
    "Golem.C68_graph",
    "Golem.C68_hyper",
    "Golem.C68_engine",
    "Golem.C68_check",
    "Golem.LawiEx.C68_example",
    "Golem.LawiEx.C68_example_check",
    "Golem.LawiEx.C68_forced_covering_unsound",
    "Golem.LawiEx.C68_forced_covering_wrong_answer"
   ],
   "note": "All of Lawi.cc on linear graphs, without forced covering; UNSAFE answers for all settings. Finding: with --forced-covering SAFE can be wrong (proved on a graph and on a whole check-sat run)."
  },
  {
   "property": "C69",
   "status": "proved",
   "theorems": [
    "Golem.Front.C69_scopes",
    "Golem.Front.C69_parse",
    "Golem.Front.C69_restored",
    "Golem.Front.ScriptEx.C70_example"
   ],
   "note": "LetRecords, addLetFrame, parseTerm and parseTopLevelAssertion against an independent environment semantics. Hypothesis NoClash is needed (Front.ScriptEx.C71_shadowed_wrong)."
  },
  {
   "property": "C70",
   "status": "proved",
   "theorems": [
    "Golem.Front.C70_same_meaning",
    "Golem.Front.C70_horn",
    "Golem.Front.C70_accepts",
    "Golem.Front.ScriptEx.C70_example"
   ],
   "note": "chclauseFromPTRef and getTopLevelDisjuncts; acceptance is for disjunctions, predicates and negated predicates; Horn clauses without predicates that are no disjunction are refused (Front.ScriptEx.C71_no_predicate_refused)."
  },
  {
   "property": "C71",
   "status": "proved",
   "theorems": [
    "Golem.Front.C71_script",
    "Golem.Front.C71_check_sat",
    "Golem.Front.C71_answered",
    "Golem.Front.ScriptEx.C71_example",
    "Golem.Front.ScriptEx.C71_example_accepted",
    "Golem.Front.ScriptEx.C71_shadowed_wrong",
    "Golem.Front.ScriptEx.C71_set_logic_twice",
    "Golem.Front.ScriptEx.C71_nested_accepted",
    "Golem.Front.ScriptEx.C71_no_predicate_refused"
   ],
   "note": "The loop over the commands composed with C69, C70 and C57; findings: shadowed nullary predicates, repeated set-logic, nested predicates, refused predicate-free clauses."
  },
  {
   "property": "C72",
   "status": "proved",
   "theorems": [
    "Golem.C72_transform",
    "Golem.C72_solve",
    "Golem.C72_tpa_nested",
    "Golem.C72_unsafe_witness",
    "Golem.C72_safe_witness",
    "Golem.C72_no_witness_throws",
    "Golem.C72_nested_again_throws",
    "Golem.NestEx.C72_example",
    "Golem.NestEx.C72_failures"
   ],
   "note": "Nested loop contraction and its back-translation. The symbols declared for contracted loops are assumed new and different; two failures of the code are theorems."
  },
  {
   "property": "C73",
   "status": "proved",
   "theorems": [
    "Golem.Vmt.C73_vmt_safety",
    "Golem.Vmt.VmtEx.C73_index_number",
    "Golem.Vmt.VmtEx.C73_next_name",
    "Golem.Vmt.C73_answered",
    "Golem.Vmt.C73_index",
    "Golem.Vmt.VmtEx.C73_example_safe",
    "Golem.Vmt.VmtEx.C73_example_unsafe",
    "Golem.Vmt.VmtEx.C73_example_index"
   ],
   "note": "From the S-expressions of the file to the printed line; the reader of S-expressions is C40's model, run on the text in the examples. Hypotheses: the file has the format (Problem), the logic's constructors mean what they say (VLogic.Ok), the engine is right, the rewriters keep clauses apart."
  },
  {
   "property": "C74",
   "status": "proved",
   "theorems": [
    "Golem.Vmt.C74_counter",
    "Golem.Vmt.C74_vmt_liveness",
    "Golem.Vmt.C74_wrong_sign",
    "Golem.Vmt.C74_never",
    "Golem.Vmt.C74_unversioned",
    "Golem.Vmt.LiveEx.C74_example_valid",
    "Golem.Vmt.LiveEx.C74_example_unknown"
   ],
   "note": "Integers (ctrTheory). Hypotheses: the file has the format, versioned names and a fresh counter (Named), a right engine. The polarity differs from the format: see finding 64."
  },
  {
   "property": "C75",
   "status": "proved",
   "theorems": [
    "Golem.C75_prepare",
    "Golem.C75_solve",
    "Golem.C75_termination",
    "Golem.TermRunEx.C75_example_hyps",
    "Golem.TermRunEx.C75_example_yes",
    "Golem.TermRunEx.C75_example_no",
    "Golem.TermRunEx.C75_false_entry"
   ],
   "note": "The clauses are those the ITS front end makes; for the reader of ITS files see C76. Hypotheses on the program: NoStrayLoop, NoLeftovers (decidable on the preprocessed graph and the extracted system)."
  },
  {
   "property": "C76",
   "status": "proved",
   "theorems": [
    "Golem.Its.C76_its_clauses",
    "Golem.Its.C76_its_linear",
    "Golem.Its.C76_its_answer",
    "Golem.Its.C76_its_foreign",
    "Golem.Its.Ex.C76_example_foreign",
    "Golem.Its.Ex.C76_example_no",
    "Golem.Its.Ex.C76_example_yes",
    "Golem.Its.Ex.C76_captured",
    "Golem.Its.Ex.C76_numeral_argument"
   ],
   "note": "Files are lists of S-expressions (characters: C40). Which products the logic refuses as nonlinear is a parameter. Well-formed: names bound by exists are apart (finding 71), locations declared once, arguments are names."
  },
  {
   "property": "C77",
   "status": "proved",
   "theorems": [
    "Golem.Alethe.C77_simplify_steps",
    "Golem.Alethe.C77_simplify_total",
    "Golem.Alethe.C77_simplify_predicate"
   ],
   "note": "Reals are not modelled; let and quantifiers cannot occur here. Numbers are values, not texts."
  },
  {
   "property": "C78",
   "status": "proved",
   "theorems": [
    "Golem.Alethe.C78_proof",
    "Golem.Alethe.C78_refutes",
    "Golem.Alethe.Correct.refutes",
    "Golem.Alethe.C78_ground_finding"
   ],
   "note": "The clauses are quantified and their bodies are flat conjunctions; let terms are expanded; the values of the variables (getInstPairs) are an input; reals are not modelled. Ground clauses: finding 73."
  },
  {
   "property": "C79",
   "status": "proved",
   "theorems": [
    "Golem.C79_instantiation",
    "Golem.C79_complete",
    "Golem.InstEx.C79_example",
    "Golem.InstEx.C79_dropped"
   ],
   "note": "The clause of the graph is any formula equivalent to the normalized constraint without further variables; the conversion of values to text is not modelled. The values feed C78, which is stated over its own terms (integers and Booleans)."
  },
  {
   "property": "C80",
   "status": "proved",
   "theorems": [
    "Golem.Cli.C80_accepted",
    "Golem.Cli.C80_options",
    "Golem.Cli.C80_declared_logic",
    "Golem.Cli.C80_detected",
    "Golem.Cli.C80_front",
    "Golem.Cli.C80_runs",
    "Golem.Cli.C80_refused"
   ],
   "note": "getopt_long and the parser of scripts are trusted; the numbers of verbose and lra-itp-algorithm are left out."
  },
  {
   "property": "C81",
   "status": "proved",
   "theorems": [
    "Golem.WitnessPrint.C81_model",
    "Golem.WitnessPrint.C81_model_read_back",
    "Golem.WitnessPrint.C81_derivation",
    "Golem.WitnessPrint.C81_derivation_determined",
    "Golem.WitnessPrint.C81_printed"
   ],
   "note": "The texts of names, sorts and facts come from the term library and are assumed to be readable; a name like a let binding is excluded (finding of C39)."
  },
  {
   "property": "C82",
   "status": "proved",
   "theorems": [
    "Golem.Alethe.C82_proof",
    "Golem.Alethe.C82_sound",
    "Golem.Alethe.C82_text",
    "Golem.Alethe.C82_line_determined",
    "Golem.Alethe.C82_text_built"
   ],
   "note": "A proof is always made and every line is justified; justified proofs are sound. The printed text is exactly the numbered lines, and a line is determined by its text. Finding 75 holds for this format too (C82_unused_finding)."
  },
  {
   "property": "C83",
   "status": "proved",
   "theorems": [
    "Golem.Alethe.C83_text",
    "Golem.Alethe.C83_read_back",
    "Golem.Alethe.C83_determined",
    "Golem.Alethe.C83_built"
   ],
   "note": "The text is read as the steps and determines the proof."
  }
 ]
}