# One entry per property: (id, status, [theorems], note). Run tools/mkmanifest.py to write MANIFEST.json.
CLAIMS = [
("C01","proved",["Golem.C01_validated_safe_is_model","Golem.C01_validator_ignores_exit_definition","Golem.C01_input_clauses"],
 "Hypothesis: the witness defines true as true and false as false. The code only asserts that definitions exist; the second theorem shows the hypothesis is needed."),
("C02","proved",["Golem.C02_validated_unsafe_is_refutation","Golem.C02_validator_accepts_circular_derivation","Golem.C02_validator_ignores_premise_symbol","Golem.C02_input_clauses"],
 "Positive theorem for derivations that only refer to earlier steps; the other two prove that the validator's own checks are not sufficient."),
("C05","proved",["Golem.C05_sat_iff_not_derivable","Golem.C05_witnesses_exclusive","Golem.C05_clauses","Golem.C05_validated_has_verdict"],""),
("C03","proved",["Golem.C03_normalize_same_instances","Golem.C03_normal_form"],"Input variables are assumed not to use golem's own generated names (x#k__t etc.)."),
("C06","proved",["Golem.C06_merge_same_facts","Golem.C06_merge_safe","Golem.C06_merge_unsafe"],""),
("C07","proved",["Golem.C07_false_edges_same_facts","Golem.C07_false_edges_unsafe","Golem.C07_false_edges_safe","Golem.C07_dropped_vertex_has_no_definition"],"A vertex all of whose edges are false is dropped and gets no definition; the last theorem exhibits it, C07_false_edges_safe states what holds."),
("C08","proved",["Golem.C08_remove_unreachable","Golem.C08_remove_forward_unreachable"],""),
("C09","proved",["Golem.C09_trivial_edge_pruner"],""),
("C42","proved",["Golem.C42_adjacency_exact"],""),
("C43","proved",["Golem.C43_genuine_safe_accepted","Golem.C43_genuine_unsafe_accepted","Golem.C43_safe_example","Golem.C43_unsafe_example"],""),
("C29","proved",["Golem.C29_nnf"],""),
("C30","proved",["Golem.C30_dnf","Golem.C30_dropped_cubes_are_contradictory"],"Cubes are sorted by the numeric ids of hash-consed terms, assumed injective."),
("C31","proved",["Golem.C31_juncts_recompose","Golem.C31_juncts_filter","Golem.C31_conjoin","Golem.C31_juncts_irreducible"],""),
("C32","proved",["Golem.C32_simplify_equiv","Golem.C32_one_bound_per_term"],""),
("C33","proved",["Golem.C33_eliminate_exact","Golem.C33_terminates","Golem.C33_tryEliminateVars","Golem.C33_tryEliminateVarsExcept"],"OpenSMT's retrieveSubstitutions and arithmetic term services enter as contracts; substitutions with non-variable keys (array selects) are not modelled."),
("C37","proved",["Golem.C37_solve_for"],""),
("C38","proved",["Golem.C38_impliedBy_exact","Golem.C38_impliedBy_complete","Golem.C38_oneByOne_exact"],""),
("C19","proved",["Golem.C19_reverse_semantics","Golem.C19_reverse_wf","Golem.C19_reverse_badIn","Golem.C19_reverse_safe","Golem.C19_reverse_invariant","Golem.C19_reverse_twice"],""),
("C20","proved",["Golem.C20_unfoldSingleQuery","Golem.C20_no_throw","Golem.C20_kinductiveToInductive"],"Transition systems without auxiliary variables (the engines ensure this before the call)."),
("C21","proved",["Golem.C21_unfoldHalving","Golem.C21_qe"],"Quantifier elimination enters as the contract of KeepOnly (see C36)."),
("C22","proved",["Golem.C22_bmc_sound","Golem.C22_bmc_shortest","Golem.C22_bmc_finds_shortest","Golem.C22_bmc_graph"],"Shortest/complete parts for a backend that always decides."),
("C24","proved",["Golem.C24_kind_unsafe","Golem.C24_kind_safe_invariant","Golem.C24_kind_safe","Golem.C24_kind_finds","Golem.C24_kind_no_throw","Golem.C24_kind_graph","Golem.C24_unknown_base_query_unsound"],"SAFE answers need the base queries to be decided; the last theorem proves that the hypothesis cannot be dropped."),
("C25","proved",["Golem.C25_imc_unsafe","Golem.C25_imc_safe","Golem.C25_imc_graph","Golem.C25_unknown_initial_query_unsound"],"SAFE answers need the query init-and-bad to be decided; the last theorem proves that the hypothesis cannot be dropped."),
("C41","proved",["Golem.C41_reversePostOrder_exact","Golem.C41_reversePostOrder_topological"],""),
("C26","proved",["Golem.C26_solveTrivial_sound","Golem.C26_solveTrivial_decides"],""),
("C27","proved",["Golem.C27_fromErrorPath_sound","Golem.C27_fromErrorPath_exact"],""),
("C44","proved",["Golem.C44_toNormalEdge","Golem.C44_toHyperEdge","Golem.C44_toNormalGraph_rules","Golem.C44_toNormalGraph_unsafe","Golem.C44_unsafe_witness","Golem.C44_safe_witness","Golem.C44_toHyperGraph_rules"],""),
("C18","proved",["Golem.C18_toTransitionSystem","Golem.C18_unsafe","Golem.C18_ensureNoAux","Golem.C33_elimExcept"],"Graphs whose edges all start at reachable vertices (in a release build a stray self loop would be taken for the loop) and whose edges share no auxiliary variables."),
("C28","proved",["Golem.C28_validity","Golem.C28_translate","Golem.LinearEx.C28_example"],""),
("C10","proved",["Golem.C10_mergeEdgePair","Golem.C10_node_elimination","Golem.C10_unsafe","Golem.NodeElimEx.example_C10_C11"],"For the two guards golem uses; trivial quantifier elimination enters as its contract, which C33_elim derives from C33."),
("C11","proved",["Golem.C11_node_elimination_safe","Golem.C11_node_elimination_total","Golem.NodeElimEx.example_C10_C11"],"The code gives up (empty witness) when a neighbour of a removed vertex has no definition; the second theorem says when this cannot happen."),
("C12","proved",["Golem.C12_replaceSummarizingStep", "Golem.C12_replaceSummarizingStep_total", "Golem.C12_expandStepWithHyperEdge", "Golem.C12_expandStepWithHyperEdge_total", "Golem.C12_node_elimination_unsafe", "Golem.C12_terminates", "Golem.C12_node_elimination_total", "Golem.DerivEx.example_C12"],"Also the whole loop of node elimination's translation of UNSAFE witnesses, with termination."),
("C13","proved",["Golem.C13_chain_summarizer", "Golem.C13_unsafe", "Golem.C13_chain_summarizer_safe", "Golem.C13_chain_summarizer_safe_total", "Golem.C13_chain_summarizer_unsafe", "Golem.C13_chain_summarizer_unsafe_terminates", "Golem.C13_chain_summarizer_unsafe_total"],"All of SimpleChainSummarizer (trivialChain with both loops, contractTrivialChain, both back-translations), for any order in which getVertices lists the vertices. SAFE totality needs all vertices reachable from the entry (see DESIGN disagreement 12 for the isolated-cycle case)."),
("C34","proved",["Golem.C34_names_distinct", "Golem.C34_tagged_input_name_collides", "Golem.C34_unversioning_inverts", "Golem.C34_time_steps_compose", "Golem.C34_model_of_names", "Golem.C34_bad_version_throws"],"On the level of strings (rfind, stoi, to_string). Input names must not contain the separators or be generated names; the second theorem exhibits the collisions otherwise. C34_model_of_names links the abstract tagged variables used in all other theorems to the strings."),
("C39","proved",["Golem.C39_let_printing", "Golem.C39_read_back", "Golem.C39_binding_can_capture"],"Character-level: the printed text is lexed and parsed, bindings expanded. A variable called like a binding (l<number>) is captured; third theorem."),
("C40","proved",["Golem.C40_round_trip", "Golem.C40_read_exact", "Golem.C40_unbalanced_throws", "Golem.C40_unclosed_throws", "Golem.C40_stray_parenthesis_is_empty_atom", "Golem.C40_unfinished_comment_diverges"],"Both directions for every input without the zero character, including comments and quoted words. The parser alone does not reject a stray closing parenthesis; the front ends' loop does."),
("C23","proved",["Golem.C23_sound", "Golem.C23_level_exact", "Golem.C23_complete", "Golem.LinearEx.C23_example"],"Soundness with any sound backend; exactness of each level, completeness, shortest path and no exception with a deciding backend. Multi-edges are allowed (the comment in the code excludes them)."),
("C45","proved",["Golem.C45_unsafe", "Golem.C45_safe", "Golem.LinearEx.C45_example", "Golem.LinearEx.C45_needs_complete"],"SAFE needs a deciding backend (counterexample proved: UNKNOWN is treated as infeasible)."),
("C46","proved",["Golem.C46_kind", "Golem.C46_bmc"],"The single-loop branch of BMC (forceTransitionSystem) is a parameter; see C16/C17."),
("C15","proved",["Golem.C15_pipeline", "Golem.C15_pipeline_total", "Golem.C15_towards_transition_systems", "Golem.C15_towards_transition_systems_total", "Golem.PipelineEx.C15_example"],"For every list of stages that each translate correctly, and for the concrete pipeline before the transition-system engines. A stage may fail and return the empty witness; the theorem says the pipeline's result is then either a right witness or comes from an empty one."),
("C16","proved",["Golem.C16_single_loop", "Golem.C16_unsafe", "Golem.SingleLoopEx.C16_needs_exit_edge", "Golem.SingleLoopEx.C17_example"],"Graphs with an edge from the entry, an edge to the exit and no direct entry-exit edge (the preprocessing leaves no other kind except, see the third theorem, when the exit edge is missing). Names: the graph's variables must not be golem's own location/argument names."),
("C17","proved",["Golem.C17_invariant", "Golem.C17_errorPath", "Golem.C17_errorPath_total", "Golem.C17_translate", "Golem.C17_solve", "Golem.C17_ts_engine", "Golem.C17_bmc_forced", "Golem.C17_imc", "Golem.SingleLoopEx.C17_example", "Golem.SingleLoopEx.C17_parallel_no_witness", "Golem.SingleLoopEx.C17_imc_needs_noAux"],"SAFE invariants and UNSAFE error paths; totality of the error-path translation for graphs without parallel edges (with parallel edges the code may give no witness: proved example). IMC needs a system without auxiliary variables in init and query (proved wrong-witness example)."),
("C47","proved",["Golem.C47_ts_engine", "Golem.C47_ts_engine_at", "Golem.C47_kind", "Golem.C47_bmc", "Golem.PipelineEx.C47_example", "Golem.SingleLoopEx.C47_no_exit_edge_unsound"],"C47_ts_engine is for any engine on linear graphs that is right; instantiated for Kind; C47_ts_engine_at needs the engine only on the preprocessed graph. The last theorem exhibits a safe hypergraph on which the single-loop route answers UNSAFE."),
("C14","proved",["Golem.C14_edge_inliner", "Golem.C14_unsafe", "Golem.C14_edge_inliner_unsafe", "Golem.C14_edge_inliner_safe", "Golem.C14_edge_inliner_safe_total", "Golem.C14_fixpoint", "Golem.EdgeInlinerEx.C14_example", "Golem.EdgeInlinerEx.C14_self_loop_needed"],"All runs that end (nothing bounds the loop in the code). SAFE translation: removed self-loops must have no auxiliary variables (shown necessary), witnesses must not rely on undefined predicates being empty."),
("C35","proved",["Golem.C35_real", "Golem.C35_int", "Golem.C35_keepOnly", "Golem.C35_real_total", "Golem.C35_int_total", "Golem.C35_real_finite", "Golem.C35_int_finite", "Golem.MBPEx.C35_tmp_clash"],"Linear real arithmetic, and linear integer arithmetic with divisibility constraints, mixed with Boolean variables. Integers: provided the internal name MBP_LIA_tmp does not occur in the formula (shown to be needed). Terms are polynomials instead of OpenSMT's canonical terms."),
("C36","proved",["Golem.C36_eliminate", "Golem.C36_eliminate_at", "Golem.C36_keepOnly", "Golem.C36_qelim", "Golem.C36_terminates", "Golem.C36_real", "Golem.C36_int"],"OpenSMT's final boolean simplification is assumed to preserve equivalence. C36_real and C36_int instantiate projection with the model of C35 and prove termination for linear formulas with a backend that decides."),
("C49","proved",["Golem.C49_dar_safe", "Golem.C49_dar_unsafe", "Golem.C49_no_error", "Golem.C49_dar_finds", "Golem.C49_dar_graph", "Golem.C49_dar_linear", "Golem.C49_example", "Golem.C49_counter", "Golem.C49_unknown_unsound", "Golem.SingleLoopEx.C49_needs_noAux"],"SAFE needs the solver to decide init and query only; UNSAFE, totality and completeness need a deciding solver (C49_unknown_unsound shows why). C49_dar_linear needs the single-loop system to have no auxiliary variables in init and query (C49_needs_noAux)."),
("C50","proved",["Golem.C50_unsafe", "Golem.C50_safe", "Golem.C50_no_error", "Golem.C50_rounds", "Golem.C18_ensureNoAuxQuery", "Golem.C50_graph", "Golem.C50_linear", "Golem.PDKindEx.C50_example", "Golem.PDKindEx.C50_unknown_unsound"],"Deciding solver needed for SAFE (C50_unknown_unsound). C50_linear assumes the single-loop system's query has no auxiliary variables (the code does not eliminate them in that branch). Termination of push is not claimed."),
("C51","proved",["Golem.C51_result", "Golem.C51_graph", "Golem.C51_no_error", "Golem.C51_finds", "Golem.C51_hyper", "Golem.LinearEx.C51_example"],"Any sound backend; deciding backend for totality and completeness. Termination on safe systems is not claimed."),
("C04","proved",["Golem.C04_buildGraph_exact", "Golem.C04_input_to_graph", "Golem.C04_initial_graph"],""),
("C48","proved",["Golem.C48_spacer", "Golem.C48_logged", "Golem.C48_hyper", "Golem.C48_clauses", "Golem.C48_no_error", "Golem.C48_never_throws", "Golem.SpacerEx.C48_example", "Golem.SpacerEx.C48_unknown_unsound", "Golem.SpacerEx.C48_reconstruction_fails"],"All of Spacer.cc with every queue order. SAFE and returned derivations are right for every sound backend and projection; the verdict UNSAFE under the stated condition, which a counterexample shows to be needed; exceptions only from reconstruction, which do occur. C48_clauses: directly from input clauses."),
("C52","proved",["Golem.C52_lasso", "Golem.C52_spacer", "Golem.TermEx.C52_example"],"Engine assumption discharged for Spacer."),
("C53","proved",["Golem.C53_step_counter", "Golem.C53_spacer", "Golem.StepEx.C53_example"],"Engine assumption discharged for Spacer."),
("C54","proved",["Golem.C54_nonterm", "Golem.C54_spacer", "Golem.TermEx.C54_example", "Golem.TermEx.C54_no_initial_state", "Golem.TermEx.C54_unknown_yes", "Golem.TermEx.C54_unknown_no"],"The premises (an initial state, a deciding solver) are shown to be needed."),
("C55","proved",["Golem.Portfolio.C55_portfolio", "Golem.Portfolio.C55_one_answer", "Golem.Portfolio.C55_completed", "Golem.Portfolio.C55_answer_not_lost", "Golem.Portfolio.C55_quiet", "Golem.Portfolio.C55_winner_finishes", "Golem.Portfolio.C55_no_stray_kill", "Golem.Portfolio.C55_step_decreases", "Golem.Portfolio.Ex.C55_example"],"Interleaving model of both portfolios. Exactly-one-answer needs a run without faults; counterexamples with faults are proved (Portfolio.Ex)."),
("C56","proved",["Golem.C56_constraint_simplifier", "Golem.C56_default_pipeline", "Golem.C56_default_pipeline_total", "Golem.default_noStray", "Golem.CheckEx.C57_example_ready"],"Rewriter of OpenSMT as contract RewriteExact; the completeness part has the graph conditions DefaultReady; names introduced by the rewriters are assumed to differ between clauses (FIXME in the code)."),
("C57","proved",["Golem.C57_check_sat", "Golem.C57_unsafe_witness", "Golem.C57_complete", "Golem.C57_spacer", "Golem.C57_bmc", "Golem.C57_se", "Golem.C57_kind", "Golem.CheckEx.hyps", "Golem.CheckEx.C57_example_safe", "Golem.CheckEx.C57_example_unsafe"],"One engine; engine contract Right/Good proved for Spacer, BMC, symbolic execution, k-induction."),
("C58","proved",["Golem.C58_prepare", "Golem.C58_safe", "Golem.C58_unsafe", "Golem.C58_first", "Golem.TpaEx.C58_example", "Golem.TpaEx.C58_basic_steps_wrong", "Golem.TpaEx.C58_equal_shortcut_unsound", "Golem.TpaEx.C58_unknown_unsound", "Golem.TpaEx.C58_restart_unsound"],"Both cores, all histories of resetInitialStates/resetQueryStates/solve; the step count only for split-TPA (that of TPABasic is wrong: C58_basic_steps_wrong); hypotheses shown necessary by the other examples."),
("C59","proved",["Golem.C59_invariant", "Golem.TpaEx.C59_example"],"All kinds of fixed points; the example exercises less-than ones."),
("C60","proved",["Golem.C60_explanation", "Golem.TpaEx.C59_example"],"A superset of the initial states that cannot reach the query."),
("C61","proved",["Golem.C61_length", "Golem.C61_bound", "Golem.TpaEx.C61_example"],"C61_length for split-TPA, C61_bound for both cores."),
("C62","proved",["Golem.C62_unsafe", "Golem.C62_safe", "Golem.C62_unsafe_witness_total", "Golem.TpaGraphEx.C62_example", "Golem.TpaGraphEx.C62_parallel_loops_unsound"],"The search of the network for both cores; SAFE under at most one self-loop per vertex and a deciding backend."),
("C63","proved",["Golem.C63_detectLoop", "Golem.C63_detectLoop_small", "Golem.C63_dag_cycleFree", "Golem.C63_dag_loops", "Golem.TpaGraphEx.C63_example"],"Loop detection and the shape test of networks."),
("C64","proved",["Golem.C64_tpa_graph", "Golem.C64_tpa_unsafe", "Golem.C64_split_witness", "Golem.TpaGraphEx.C64_example"],"All branches of TPAEngine::solve except the option SIMPLIFY_NESTED. With split-TPA some clause without body atoms must be applicable (C58_equal_shortcut_unsound)."),
("C65","proved",["Golem.C65_imc", "Golem.C65_dar", "Golem.C65_pdkind", "Golem.C65_tpa", "Golem.C65_imc_graph", "Golem.C65_dar_graph", "Golem.C65_pdkind_graph", "Golem.C65_tpa_graph", "Golem.towards_ready", "Golem.singleLoop_noAux", "Golem.default_tame", "Golem.initialGraph_tame", "Golem.C57_check_sat_at", "Golem.C57_unsafe_witness_at", "Golem.TSCheckEx.C65_example_tpa", "Golem.TSCheckEx.C65_example_engines"],"Linear clauses, complete backend. imc, dar and pdkind assume no auxiliary variables on the entry and exit edges of a graph that is no transition system (C17_imc_needs_noAux); split-tpa assumes that an edge out of true can be taken. Non-linear clauses: C47_no_exit_edge_unsound."),
("C66","proved",["Golem.C66_safe", "Golem.C66_invariant", "Golem.C66_witness", "Golem.C66_loop", "Golem.C66_transitive", "Golem.C66_total", "Golem.C66_progress", "Golem.C66_linear", "Golem.C66_graph", "Golem.C66_check", "Golem.TrlEx.witness_gap"],"transition systems over the integers and, without witnesses, linear clauses. Finding: the witness can contain bad states when an early level does not know a learned relation (TrlEx.witness_gap)."),
("C67","proved",["Golem.C67_unsafe", "Golem.C67_safe", "Golem.C67_result", "Golem.C67_total", "Golem.C67_engine", "Golem.C67_refinement", "Golem.C67_check", "Golem.ArgEx.hyps", "Golem.ArgEx.C67_example_safe", "Golem.ArgEx.C67_example_unsafe", "Golem.ArgEx.C67_example_refinement", "Golem.ArgEx.C67_unknown_unsound", "Golem.propSmt_treeItp"],"The whole engine ArgBasedEngine.cc, for arbitrary (also nonlinear) clauses and all iteration orders. UNSAFE needs only a correct interpolating solver; SAFE needs a deciding solver for the abstraction (C67_unknown_unsound: with UNKNOWN answers the engine is unsound) and tree interpolants."),
("C68","proved",["Golem.C68_result", "Golem.C68_unsafe", "Golem.C68_safe", "Golem.C68_no_error", "Golem.C68_graph", "Golem.C68_hyper", "Golem.C68_engine", "Golem.C68_check", "Golem.LawiEx.C68_example", "Golem.LawiEx.C68_example_check", "Golem.LawiEx.C68_forced_covering_unsound", "Golem.LawiEx.C68_forced_covering_wrong_answer"],"All of Lawi.cc on linear graphs, without forced covering; UNSAFE answers for all settings. Finding: with --forced-covering SAFE can be wrong (proved on a graph and on a whole check-sat run)."),
("C69","proved",["Golem.Front.C69_scopes", "Golem.Front.C69_parse", "Golem.Front.C69_restored", "Golem.Front.ScriptEx.C70_example"],"LetRecords, addLetFrame, parseTerm and parseTopLevelAssertion against an independent environment semantics. Hypothesis NoClash is needed (Front.ScriptEx.C71_shadowed_wrong)."),
("C70","proved",["Golem.Front.C70_same_meaning", "Golem.Front.C70_horn", "Golem.Front.C70_accepts", "Golem.Front.ScriptEx.C70_example"],"chclauseFromPTRef and getTopLevelDisjuncts; acceptance is for disjunctions, predicates and negated predicates; Horn clauses without predicates that are no disjunction are refused (Front.ScriptEx.C71_no_predicate_refused)."),
("C71","proved",["Golem.Front.C71_script", "Golem.Front.C71_check_sat", "Golem.Front.C71_answered", "Golem.Front.ScriptEx.C71_example", "Golem.Front.ScriptEx.C71_example_accepted", "Golem.Front.ScriptEx.C71_shadowed_wrong", "Golem.Front.ScriptEx.C71_set_logic_twice", "Golem.Front.ScriptEx.C71_nested_accepted", "Golem.Front.ScriptEx.C71_no_predicate_refused"],"The loop over the commands composed with C69, C70 and C57; findings: shadowed nullary predicates, repeated set-logic, nested predicates, refused predicate-free clauses."),
("C72","proved",["Golem.C72_transform", "Golem.C72_solve", "Golem.C72_tpa_nested", "Golem.C72_unsafe_witness", "Golem.C72_safe_witness", "Golem.C72_no_witness_throws", "Golem.C72_nested_again_throws", "Golem.NestEx.C72_example", "Golem.NestEx.C72_failures"],"Nested loop contraction and its back-translation. The symbols declared for contracted loops are assumed new and different; two failures of the code are theorems."),
("C73","proved",["Golem.Vmt.C73_vmt_safety", "Golem.Vmt.VmtEx.C73_index_number", "Golem.Vmt.VmtEx.C73_next_name", "Golem.Vmt.C73_answered", "Golem.Vmt.C73_index", "Golem.Vmt.VmtEx.C73_example_safe", "Golem.Vmt.VmtEx.C73_example_unsafe", "Golem.Vmt.VmtEx.C73_example_index"],"From the S-expressions of the file to the printed line; the reader of S-expressions is C40's model, run on the text in the examples. Hypotheses: the file has the format (Problem), the logic's constructors mean what they say (VLogic.Ok), the engine is right, the rewriters keep clauses apart."),
("C74","proved",["Golem.Vmt.C74_counter", "Golem.Vmt.C74_vmt_liveness", "Golem.Vmt.C74_wrong_sign", "Golem.Vmt.C74_never", "Golem.Vmt.C74_unversioned", "Golem.Vmt.LiveEx.C74_example_valid", "Golem.Vmt.LiveEx.C74_example_unknown"],"Integers (ctrTheory). Hypotheses: the file has the format, versioned names and a fresh counter (Named), a right engine. The polarity differs from the format: see finding 64."),
("C75","proved",["Golem.C75_prepare", "Golem.C75_solve", "Golem.C75_termination", "Golem.TermRunEx.C75_example_hyps", "Golem.TermRunEx.C75_example_yes", "Golem.TermRunEx.C75_example_no", "Golem.TermRunEx.C75_false_entry"],"The clauses are those the ITS front end makes; for the reader of ITS files see C76. Hypotheses on the program: NoStrayLoop, NoLeftovers (decidable on the preprocessed graph and the extracted system)."),
("C76","proved",["Golem.Its.C76_its_clauses", "Golem.Its.C76_its_linear", "Golem.Its.C76_its_answer", "Golem.Its.C76_its_foreign", "Golem.Its.Ex.C76_example_foreign", "Golem.Its.Ex.C76_example_no", "Golem.Its.Ex.C76_example_yes", "Golem.Its.Ex.C76_captured", "Golem.Its.Ex.C76_numeral_argument"],"Files are lists of S-expressions (characters: C40). Which products the logic refuses as nonlinear is a parameter. Well-formed: names bound by exists are apart (finding 71), locations declared once, arguments are names."),
("C77","proved",["Golem.Alethe.C77_simplify_steps", "Golem.Alethe.C77_simplify_total", "Golem.Alethe.C77_simplify_predicate"],"Reals are not modelled; let and quantifiers cannot occur here. Numbers are values, not texts."),
("C78","proved",["Golem.Alethe.C78_proof", "Golem.Alethe.C78_refutes", "Golem.Alethe.Correct.refutes", "Golem.Alethe.C78_ground_finding"],"The clauses are quantified and their bodies are flat conjunctions; let terms are expanded; the values of the variables (getInstPairs) are an input; reals are not modelled. Ground clauses: finding 73."),
("C79","proved",["Golem.C79_instantiation", "Golem.C79_complete", "Golem.InstEx.C79_example", "Golem.InstEx.C79_dropped"],"The clause of the graph is any formula equivalent to the normalized constraint without further variables; the conversion of values to text is not modelled. The values feed C78, which is stated over its own terms (integers and Booleans)."),
("C80","proved",["Golem.Cli.C80_accepted", "Golem.Cli.C80_options", "Golem.Cli.C80_declared_logic", "Golem.Cli.C80_detected", "Golem.Cli.C80_front", "Golem.Cli.C80_runs", "Golem.Cli.C80_refused"],"getopt_long and the parser of scripts are trusted; the numbers of verbose and lra-itp-algorithm are left out."),
("C81","proved",["Golem.WitnessPrint.C81_model", "Golem.WitnessPrint.C81_model_read_back", "Golem.WitnessPrint.C81_derivation", "Golem.WitnessPrint.C81_derivation_determined", "Golem.WitnessPrint.C81_printed"],"The texts of names, sorts and facts come from the term library and are assumed to be readable; a name like a let binding is excluded (finding of C39)."),
("C82","proved",["Golem.Alethe.C82_proof", "Golem.Alethe.C82_sound", "Golem.Alethe.C82_text", "Golem.Alethe.C82_line_determined", "Golem.Alethe.C82_text_built"],"A proof is always made and every line is justified; justified proofs are sound. The printed text is exactly the numbered lines, and a line is determined by its text. Finding 75 holds for this format too (C82_unused_finding)."),
("C83","proved",["Golem.Alethe.C83_text", "Golem.Alethe.C83_read_back", "Golem.Alethe.C83_determined", "Golem.Alethe.C83_built"],"The text is read as the steps and determines the proof."),
]
