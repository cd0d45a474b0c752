{
 "claims": [
  {
   "property": "C01",
   "status": "proved",
   "theorems": [
    "Verif.C01_round_trip",
    "Verif.C01_defined",
    "Verif.C01_injective",
    "Verif.C01_small"
   ],
   "note": "Handle encoding for all types, indices below 2^58 (2^26 in the 32-bit form) and both cache flags. C01_index_overflow_collides and C01_truncation_aliases show that the bounds are needed."
  },
  {
   "property": "C02",
   "status": "proved",
   "theorems": [
    "Verif.C02_handle_stable"
   ],
   "note": "Any later sequence of calls; no size bound."
  },
  {
   "property": "C03",
   "status": "partial",
   "theorems": [
    "Verif.C03_hash_consing_partial",
    "Verif.C03_names_unique",
    "Verif.C03_large_counterexample"
   ],
   "note": "Proved for every reachable state while no table exceeds 2^26 entries. Beyond that the claim is false (counterexample theorem)."
  },
  {
   "property": "C04",
   "status": "partial",
   "theorems": [
    "Verif.C04_and_or_partial",
    "Verif.C04_total_partial",
    "Verif.C04_large_counterexample"
   ],
   "note": "Proved while no table exceeds 2^26 entries; beyond that the claim is false (counterexample theorem)."
  },
  {
   "property": "C05",
   "status": "partial",
   "theorems": [
    "Verif.C05_normal_shape_partial",
    "Verif.C05_large_counterexample"
   ],
   "note": "Proved while no table exceeds 2^26 entries; beyond that the claim is false (counterexample theorem)."
  },
  {
   "property": "C06",
   "status": "partial",
   "theorems": [
    "Verif.C06_negation_partial",
    "Verif.C06_not_shape_partial",
    "Verif.C06_not_not_partial",
    "Verif.C06_negate_negate_partial",
    "Verif.C06_negate_negate_counterexample",
    "Verif.C18_large_counterexample"
   ],
   "note": "Proved while no table exceeds 2^26 entries. negate is not an involution on equations; counterexample proved. Beyond 2^26 entries the negation of an equation is wrong (counterexample theorem)."
  },
  {
   "property": "C07",
   "status": "partial",
   "theorems": [
    "Verif.C07_implication_partial",
    "Verif.C07_equivalence_partial",
    "Verif.C07_symmetric_partial",
    "Verif.C07_symmetry_counterexample",
    "Verif.C07_large_counterexample"
   ],
   "note": "Semantics proved while no table exceeds 2^26 entries. Handle symmetry holds unless an operand is an equation or similar constraint; counterexample proved. Beyond 2^26 entries the semantics is wrong, too (counterexample theorem)."
  },
  {
   "property": "C08",
   "status": "partial",
   "theorems": [
    "Verif.C08_cc",
    "Verif.C08_amo",
    "Verif.C08_exo",
    "Verif.C08_pbc_partial",
    "Verif.C08_rhs_truncated"
   ],
   "note": "cc/amo/exo proved for all reachable states. pbc proved except for right-hand sides >= 2^32 with all coefficients 1, where the code truncates (counterexample proved)."
  },
  {
   "property": "C09",
   "status": "partial",
   "theorems": [
    "Verif.C09_restrict_partial",
    "Verif.C09_truncated_counterexample"
   ],
   "note": "Proved for constraints with fewer than 2^32 variables, sum|c|+|rhs| < 2^63 (< 2^32 for equations); beyond that false (counterexample proved)."
  },
  {
   "property": "C10",
   "status": "partial",
   "theorems": [
    "Verif.C10_substitute_partial",
    "Verif.C10_substitute_total",
    "Verif.C10_panic",
    "Verif.C10_truncated_counterexample"
   ],
   "note": "Proved for pseudo-Boolean constraints with sum|c|+|rhs| < 2^32; beyond that false (counterexample proved). Substituting a formula into a constraint panics."
  },
  {
   "property": "C11",
   "status": "proved",
   "theorems": [
    "Verif.C11_nnf",
    "Verif.C14_all_results_conservative"
   ],
   "note": "All reachable cache histories (TReach); with constraints the NNF is a conservative extension (joint for all results), without it is equivalent."
  },
  {
   "property": "C12",
   "status": "proved",
   "theorems": [
    "Verif.C12_factorization",
    "Verif.C12_unlimited"
   ],
   "note": "CNF and DNF, all cache histories; constraint-free inputs equivalent, inputs with constraints conservative extension."
  },
  {
   "property": "C13",
   "status": "proved",
   "theorems": [
    "Verif.C13_limits"
   ],
   "note": "Aborts exactly if the totals of the unlimited run exceed a limit; otherwise same result and state."
  },
  {
   "property": "C14",
   "status": "proved",
   "theorems": [
    "Verif.C14_tseitin",
    "Verif.C14_conservative",
    "Verif.C14_all_results_conservative"
   ],
   "note": "All boundaries, stateful and stateless encoders in any interleaving; uniqueness for constraint-free inputs."
  },
  {
   "property": "C15",
   "status": "proved",
   "theorems": [
    "Verif.C15_plaisted_greenbaum",
    "Verif.C15_cnf_encoder",
    "Verif.C14_conservative",
    "Verif.C15_on_solver",
    "Verif.C15_memory_partial",
    "Verif.C15_memory_counterexample"
   ],
   "note": "Plaisted-Greenbaum on formulas (also Advanced with any fallback but BDD), stateful encoders; and on the solver, with its variable cache and polarity flags, with and without NNF first, for any sequence of formulas mixed with other uses of the factory. Memory: compute_transformation asks for room for all atoms of the tree; without effect below 2^60 - 1 atoms (C15_memory_partial), a panic on some formulas of less than 200 shared nodes (C15_memory_counterexample); C15_plaisted_greenbaum is about formulas for which the memory suffices."
  },
  {
   "property": "C16",
   "status": "partial",
   "theorems": [
    "Verif.C16_terms",
    "Verif.C16_is_dnf",
    "Verif.C16_is_nnf",
    "Verif.C16_is_cnf_partial",
    "Verif.C16_large_counterexample"
   ],
   "note": "is_dnf, is_nnf and terms are proved for all cache states; is_cnf in every reachable state of the factory while no table exceeds 2^26 entries. Beyond that is_cnf is false of some CNFs (C16_large_counterexample)."
  },
  {
   "property": "C17",
   "status": "proved",
   "theorems": [
    "Verif.C17_variables",
    "Verif.C17_literals",
    "Verif.C17_sub_nodes"
   ],
   "note": "All reachable cache states."
  },
  {
   "property": "C18",
   "status": "partial",
   "theorems": [
    "Verif.C18_negated_constraint_partial",
    "Verif.C18_large_counterexample"
   ],
   "note": "Proved while no table exceeds 2^26 entries. Beyond that the claim is false (counterexample theorem)."
  },
  {
   "property": "C19",
   "status": "partial",
   "theorems": [
    "Verif.C19_normalize_partial",
    "Verif.C19_overflow_counterexample"
   ],
   "note": "Proved for sum|c|+|rhs| < 2^63-1 and fewer than 2^32 terms; beyond that i64 overflow makes it false (counterexample proved)."
  },
  {
   "property": "C20",
   "status": "partial",
   "theorems": [
    "Verif.C20_coefficients",
    "Verif.C20_decided_partial",
    "Verif.C20_overflow_counterexample"
   ],
   "note": "Proved for sum|c|+|rhs| < 2^63; beyond that false (counterexample proved)."
  },
  {
   "property": "C21",
   "status": "proved",
   "theorems": [
    "Verif.C21_amo_correct",
    "Verif.C21_amo_bad_parameters"
   ],
   "note": "All eight encoders, all variable lists. Parameters for which the code does not terminate or panics are characterised by the second theorem."
  },
  {
   "property": "C22",
   "status": "proved",
   "theorems": [
    "Verif.C22_totalizer_amk",
    "Verif.C22_totalizer_alk",
    "Verif.C22_totalizer_exk"
   ],
   "note": "All three totalizer forms, any variable list (repetitions allowed) shorter than 2^30."
  },
  {
   "property": "C23",
   "status": "proved",
   "theorems": [
    "Verif.C23_modular_amk",
    "Verif.C23_modular_alk"
   ],
   "note": "Modular totalizer incl. the default Best; shows no assertion fails."
  },
  {
   "property": "C24",
   "status": "proved",
   "theorems": [
    "Verif.C24_card_network",
    "Verif.C24_sorter",
    "Verif.C24_encode_constraint",
    "Verif.C24_repeated_variable_panics"
   ],
   "note": "Cardinality networks and sorters for distinct variables; C24_encode_constraint is the full CcEncoder dispatch. With a repeated variable the code panics (witness)."
  },
  {
   "property": "C25",
   "status": "partial",
   "theorems": [
    "Verif.C25_incremental_upper",
    "Verif.C25_incremental_lower_partial",
    "Verif.C25_lower_bound_above_n_violated",
    "Verif.C25_no_loosening"
   ],
   "note": "Any sequence of tightening bounds. The code violates the claim for lower bounds above the number of variables (C25_lower_bound_above_n_violated); the lower-bound theorem covers bounds up to that number."
  },
  {
   "property": "C26",
   "status": "proved",
   "theorems": [
    "Verif.C26_swc",
    "Verif.C26_adder",
    "Verif.C26_binary_merge",
    "Verif.C26_encode_internal",
    "Verif.C26_encode"
   ],
   "note": "All three algorithms and all binary-merge options; full entry points with normalization, caches and any history of encodings. Sizes below 2^30 terms and coefficient sums below 2^62 (hypotheses of C26_encode)."
  },
  {
   "property": "C27",
   "status": "proved",
   "theorems": [
    "Verif.C27_fresh"
   ],
   "note": "Sequences of calls; atomic counters make threads a sequence."
  },
  {
   "property": "C28",
   "status": "partial",
   "theorems": [
    "Verif.Sat.C28_model_partial",
    "Verif.Sat.C28_named_partial"
   ],
   "note": "For all sequences of new_var/add_clause/solve(assumptions, selection order)/save/load on the CDCL model, with variable numbers and with names. Excluded (with counterexample theorems): ClauseMinimization::None, and explicit load_state calls while a clause to be removed has the same literals as one to be kept. That solve ends is C67."
  },
  {
   "property": "C29",
   "status": "partial",
   "theorems": [
    "Verif.Sat.C29_unsat_partial",
    "Verif.Sat.C29_named_partial",
    "Verif.Sat.C29_no_panic_partial",
    "Verif.Sat.C29_none_counterexample",
    "Verif.Sat.C32_twins_counterexample"
   ],
   "note": "UNSAT answers are right and no legal call panics, for all call sequences. Excluded (with counterexample theorems): ClauseMinimization::None, and explicit load_state calls while a clause to be removed has the same literals as one to be kept. That solve ends is C67."
  },
  {
   "property": "C30",
   "status": "partial",
   "theorems": [
    "Verif.Sat.C30_learnt_partial",
    "Verif.Sat.C30_models_partial",
    "Verif.Sat.C30_quiet_partial"
   ],
   "note": "At every iteration of search in every call: learnt clauses implied; remaining problem clauses plus level-0 literals have exactly the models of the clauses added. Excluded (with counterexample theorems): ClauseMinimization::None, and explicit load_state calls while a clause to be removed has the same literals as one to be kept. That solve ends is C67. Floating-point numbers are an arbitrary linear order with arbitrary operations."
  },
  {
   "property": "C31",
   "status": "partial",
   "theorems": [
    "Verif.Sat.C31_complete_partial",
    "Verif.Sat.C31_sound_partial",
    "Verif.Sat.C31_conflict_partial",
    "Verif.Sat.C31_total_partial"
   ],
   "note": "At every iteration of search in every call. Excluded (with counterexample theorems): ClauseMinimization::None, and explicit load_state calls while a clause to be removed has the same literals as one to be kept. That solve ends is C67. Floating-point numbers are an arbitrary linear order with arbitrary operations."
  },
  {
   "property": "C32",
   "status": "partial",
   "theorems": [
    "Verif.Sat.C32_restore_partial",
    "Verif.Sat.C32_answers_partial",
    "Verif.Sat.C32_invalid_partial",
    "Verif.Sat.C32_twins_counterexample"
   ],
   "note": "Loading restores variables and clauses, further answers agree with the saved solver, newer states become invalid. Excluded (with counterexample theorems): ClauseMinimization::None, and explicit load_state calls while a clause to be removed has the same literals as one to be kept. That solve ends is C67. Floating-point numbers are an arbitrary linear order with arbitrary operations."
  },
  {
   "property": "C33",
   "status": "partial",
   "theorems": [
    "Verif.Sat.C33_enumeration_partial",
    "Verif.Sat.C33_bounded_partial",
    "Verif.Sat.C33_no_panic_partial",
    "Verif.Sat.C33_count_partial",
    "Verif.Sat.C33_auxiliary_counterexample"
   ],
   "note": "For all clause sets, call sequences, projection sets and bounds: every model agrees with exactly one reported model on the variables asked for; the solver holds the same clauses afterwards. Auxiliary variables among the projection variables while kept out of models are excluded (counterexample). Excluded (with counterexample theorems): ClauseMinimization::None, and explicit load_state calls while a clause to be removed has the same literals as one to be kept. That solve ends is C67."
  },
  {
   "property": "C34",
   "status": "partial",
   "theorems": [
    "Verif.Sat.C34_backbone_partial",
    "Verif.Sat.C34_no_panic_partial"
   ],
   "note": "For all clause sets, call sequences, variables and polarities; the solver holds the same clauses afterwards. Excluded (with counterexample theorems): ClauseMinimization::None, and explicit load_state calls while a clause to be removed has the same literals as one to be kept. That solve ends is C67."
  },
  {
   "property": "C35",
   "status": "partial",
   "theorems": [
    "Verif.Sat.C35_optimal_partial",
    "Verif.Sat.C35_no_panic_partial",
    "Verif.Sat.C35_selector_counterexample",
    "Verif.Sat.C35_nonincremental_counterexample"
   ],
   "note": "For all clause sets, call sequences, literal lists (repeated literals too), result variables and encoder configurations: the result is optimal and the loop ends without a panic. The names of selectors must be unused (counterexample). A solver that is not incremental keeps the added clauses (counterexample). Excluded (with counterexample theorems): ClauseMinimization::None, and load_state while two problem clauses have the same literals. That solve ends is C67."
  },
  {
   "property": "C36",
   "status": "partial",
   "theorems": [
    "Verif.Bdd.C36_construction",
    "Verif.Bdd.C36_total",
    "Verif.Bdd.C36_constraints_partial",
    "Verif.Bdd.C36_negated_constraint"
   ],
   "note": "Full claim for formulas without cardinality/pseudo-Boolean constraints, in every reachable kernel (any order, table and cache sizes, growth policy, earlier operations, handlers), plus totality. With constraints: every assignment of the old variables extends so that all BDDs agree; the full claim is false of the code below negations (proved witness)."
  },
  {
   "property": "C37",
   "status": "proved",
   "theorems": [
    "Verif.Bdd.C37_canonical",
    "Verif.Bdd.C37_equivalence",
    "Verif.Bdd.C37_constants"
   ],
   "note": "All handles returned by from_formula in all reachable kernels."
  },
  {
   "property": "C38",
   "status": "partial",
   "theorems": [
    "Verif.Bdd.C38_stable",
    "Verif.Bdd.C38_unreferenced_result"
   ],
   "note": "Full claim for handles from from_formula and constants under any further operations. Results of restrict/exists/for_all are not referenced by the code: proved witness that they can change."
  },
  {
   "property": "C39",
   "status": "proved",
   "theorems": [
    "Verif.Bdd.C39_restrict",
    "Verif.Bdd.C39_exists",
    "Verif.Bdd.C39_for_all",
    "Verif.Bdd.C39_negate",
    "Verif.Bdd.C39_apply",
    "Verif.Bdd.C39_both_phases"
   ],
   "note": "Exact semantics in every reachable kernel; panics only if the kernel has no room for the variables. restrict: for literal lists without a variable in both phases (with both the code ignores it: C39_both_phases)."
  },
  {
   "property": "C40",
   "status": "proved",
   "theorems": [
    "Verif.Bdd.C40_model_count",
    "Verif.Bdd.C40_enumeration",
    "Verif.Bdd.C40_projection_partial",
    "Verif.Bdd.C40_projection_duplicates",
    "Verif.Bdd.C40_normal_form",
    "Verif.Bdd.C40_normal_form_panics",
    "Verif.Bdd.C40_to_formula"
   ],
   "note": "Counting, enumeration over all variables, CNF/DNF (if every kernel variable is registered; otherwise the code panics, proved) and to_formula. Projected enumeration is complete and sound but may repeat results (proved), which the claim does not speak about."
  },
  {
   "property": "C41",
   "status": "partial",
   "theorems": [
    "Verif.C41_heap_partial",
    "Verif.C41_remove_keeps_order",
    "Verif.C41_remove_counterexample"
   ],
   "note": "All operation sequences of the solver: no panic, exact content, consistent positions, and remove_min yields a maximum unless a `remove` happened since the last `build`. With `remove` the full claim is false of the code (only percolates down): proved counterexample. Activities are an arbitrary linear order (f64 without NaN)."
  },
  {
   "property": "C42",
   "status": "partial",
   "theorems": [
    "Verif.C42_ubtree_partial",
    "Verif.C42_empty_set"
   ],
   "note": "Full claim for all sequences of insertions of non-empty sets and all queries; the empty set is silently not stored (proved)."
  },
  {
   "property": "C43",
   "status": "proved",
   "theorems": [
    "Verif.C43_cnf",
    "Verif.C43_dnf",
    "Verif.C43_reject"
   ],
   "note": "For every normal-form formula and every literal order and hash order inside the tree."
  },
  {
   "property": "C44",
   "status": "proved",
   "theorems": [
    "Verif.C44_no_fault",
    "Verif.C44_indices",
    "Verif.C44_distinct",
    "Verif.C44_reads",
    "Verif.C44_stable",
    "Verif.C44_visible",
    "Verif.C44_cells",
    "Verif.C44_progress"
   ],
   "note": "All interleavings of any number of threads under release/acquire views. Not modelled: Drop, iter, the 44-bin bound and usize wrap-around, allocation failure."
  },
  {
   "property": "C45",
   "status": "partial",
   "theorems": [
    "Verif.C45_round_trip_partial",
    "Verif.C45_left_implication",
    "Verif.C45_foreign_auxiliary",
    "Verif.C45_nesting"
   ],
   "note": "For all formulas of the factory, over names that are identifiers, in which no left operand of an implication is an implication. For implications nested to the left, for TMP variables and for auxiliary variables of factories with other identifiers the claim is false (proved with witnesses)."
  },
  {
   "property": "C46",
   "status": "partial",
   "theorems": [
    "Verif.C46_with_vars_partial",
    "Verif.C46_count_partial",
    "Verif.C46_conjunction_with_vars_partial",
    "Verif.C46_conjunction_partial",
    "Verif.C46_bdd_counter",
    "Verif.C46_bdd_partial",
    "Verif.C46_dnnf_count",
    "Verif.C46_verum_wrong",
    "Verif.C46_constraint_panics",
    "Verif.Dnnf.C46_dnnf_wrong",
    "Verif.C46_force_partial",
    "Verif.C46_bdd_endless"
   ],
   "note": "Exact for every formula with at least one variable whose constraints are AMO/EXO, for single formulas and conjunctions, with the BDD algorithm (any variable ordering of exactly the formula variables); counting on d-DNNFs exact. False for verum over non-empty variables (proved). Panics on other constraints (proved). The sharpSAT backend is not modelled. Counting through compilation to a DNNF is wrong (proved by a run). With the FORCE ordering the BDD counter is right whenever it ends; it does not end on a concrete formula."
  },
  {
   "property": "C47",
   "status": "proved",
   "theorems": [
    "Verif.C47_expansion_total",
    "Verif.C47_expansion",
    "Verif.C47_cnf",
    "Verif.C47_exactly_one",
    "Verif.C47_anonymize",
    "Verif.C47_models"
   ],
   "note": "For all formulas and, for the anonymizer, all sequences of calls, all prefixes (the numbered names are distinct), also if they clash with names in the formula. Model counts are over any set of variables that contains those of the formula, and its image."
  },
  {
   "property": "C48",
   "status": "partial",
   "theorems": [
    "Verif.Sat.C48_conflict_partial",
    "Verif.Sat.C48_core_partial",
    "Verif.Sat.C48_proposition_core_partial",
    "Verif.Sat.C48_trimmed",
    "Verif.Sat.C48_mixed_core",
    "Verif.Sat.C48_repeated_core",
    "Verif.Sat.C48_no_core",
    "Verif.Sat.C48_stale_assumptions"
   ],
   "note": "Conflicts over assumptions, and unsatisfiable cores end to end: propositions and formulas added with all three CNF methods, the solver's proof log, the DRUP trimmer (for arbitrary proofs: C48_trimmed) and compute_unsat_core. Proved for every sequence of calls: a reported core consists of added propositions (or of clauses implied by formulas added without a proposition) and has no model. Missing: cores are wrong if formulas added without proposition share auxiliary variables with propositions (C48_mixed_core, witness), so these clauses are assumed to be over original variables; a core is not always reported (panics C48_no_core, C48_stale_assumptions, witnesses), may contain repetitions (C48_repeated_core); that the trimmer accepts every proof of the solver otherwise is not proved. Excluded (with counterexample theorems): ClauseMinimization::None, and explicit load_state calls while a clause to be removed has the same literals as one to be kept. That solve ends is C67. Floating-point numbers are an arbitrary linear order with arbitrary operations."
  },
  {
   "property": "C49",
   "status": "proved",
   "theorems": [
    "Verif.C49_luby",
    "Verif.C49_total"
   ],
   "note": "Exponent of the restart factor; the floating-point power and isize overflow are not modelled."
  },
  {
   "property": "C50",
   "status": "partial",
   "theorems": [
    "Verif.C50_evaluate_partial",
    "Verif.C50_both_phases",
    "Verif.C50_overflow_counterexample"
   ],
   "note": "Proved if left-hand sides stay within 64 bits; beyond that the claim is false (C50_overflow_counterexample)."
  },
  {
   "property": "C51",
   "status": "proved",
   "theorems": [
    "Verif.C51_contains_node",
    "Verif.C51_contains_variable",
    "Verif.C51_contains_pbc"
   ],
   "note": "Exact; for contains_node the literal ~a does not contain the node a."
  },
  {
   "property": "C52",
   "status": "partial",
   "theorems": [
    "Verif.C52_depth",
    "Verif.C52_atoms",
    "Verif.C52_profile",
    "Verif.C73_u64_partial",
    "Verif.C52_overflow_counterexample"
   ],
   "note": "Exact with counters as natural numbers; the u64 counter of number_of_atoms is exact below 2^64 atoms (C73_u64_partial). A formula of less than 200 shared nodes with 2^64 atoms, for which number_of_atoms returns 0, is C52_overflow_counterexample."
  },
  {
   "property": "C53",
   "status": "proved",
   "theorems": [
    "Verif.Bdd.C53_model",
    "Verif.Bdd.C53_full_model",
    "Verif.Bdd.C53_model_for_variables"
   ],
   "note": "All reachable kernels and handles."
  },
  {
   "property": "C54",
   "status": "proved",
   "theorems": [
    "Verif.Bdd.C54_support"
   ],
   "note": "All reachable kernels and handles."
  },
  {
   "property": "C55",
   "status": "partial",
   "theorems": [
    "Verif.Dnnf.C55_pipeline_partial",
    "Verif.Dnnf.C55_prepared_partial",
    "Verif.Dnnf.C55_pipeline_false_wrong",
    "Verif.Dnnf.C55_pipeline_lost_wrong",
    "Verif.Dnnf.C55_compile_partial",
    "Verif.Dnnf.C55_false_wrong",
    "Verif.Dnnf.C55_lost_wrong"
   ],
   "note": "The whole of compile_dnnf (CNF, backbone simplification, subsumption, compilation). Proved for every run in which the solver of the compiler meets no conflict: a d-DNNF, sound, complete up to auxiliary variables of the CNF, for CNFs equivalent with the right count. The steps before the compilation are right in all runs. False in general: whole runs with conflicts give false for a satisfiable formula, or lose a model."
  },
  {
   "property": "C56",
   "status": "partial",
   "theorems": [
    "Verif.Sat.C56_add_no_panic_partial",
    "Verif.Sat.C56_load_no_panic_partial",
    "Verif.Sat.C56_sat_partial",
    "Verif.Sat.C56_unsat_partial",
    "Verif.Sat.C56_enumeration_partial",
    "Verif.Sat.C56_backbone_partial",
    "Verif.Sat.C56_optimal_partial"
   ],
   "note": "All three CNF methods, all call sequences of add, solve, save, load, enumerate, backbone and optimize mixed with other uses of the factory. As for C28: calls that end, clause minimization not switched off, no loading of states while two clauses are equal. Unsatisfiability is for formulas over variables that existed at the start."
  },
  {
   "property": "C57",
   "status": "proved",
   "theorems": [
    "Verif.Sat.C57_sat_no_panic",
    "Verif.Sat.C57_sat",
    "Verif.Sat.C57_tautology_no_panic",
    "Verif.Sat.C57_tautology"
   ],
   "note": "For calls that end (see C67), in any state of the factory reachable by these calls and other transformations; clause minimization as in the default configuration; formulas over variables that existed when the factory's caches were empty, and for is_sat arbitrary CNFs."
  },
  {
   "property": "C58",
   "status": "partial",
   "theorems": [
    "Verif.Sat.C58_no_panic_partial",
    "Verif.Sat.C58_simplified_partial",
    "Verif.Sat.C58_cnf_partial",
    "Verif.Sat.C58_overflow_counterexample"
   ],
   "note": "For calls that end (C67); formulas over variables that existed when the caches were empty, and arbitrary CNFs. The full statement is false: with pseudo-Boolean constraints outside the bounds of C09 restriction overflows and the result has models the formula has not (C58_overflow_counterexample, for every factory configuration)."
  },
  {
   "property": "C59",
   "status": "partial",
   "theorems": [
    "Verif.C59_dfs",
    "Verif.C59_bfs",
    "Verif.C59_occurrence",
    "Verif.C59_occurrence_unique",
    "Verif.C59_force_partial",
    "Verif.C59_force_endless",
    "Verif.C59_force_exact",
    "Verif.C59_force_auxiliary",
    "Verif.VarOrd.f64_nearest"
   ],
   "note": "dfs, bfs and occurrence orderings in full. FORCE: right whenever it ends; it does not end on a concrete formula (proved), and lists auxiliary variables for formulas with constraints."
  },
  {
   "property": "C60",
   "status": "partial",
   "theorems": [
    "Verif.Bdd.C60_bdd",
    "Verif.Bdd.C60_with_handler",
    "Verif.Bdd.C60_constraint_panics"
   ],
   "note": "Proved for formulas without constraints. False with constraints: the kernel has no room for auxiliary variables, x0+x1+x2+x3<=2 panics (C60_constraint_panics)."
  },
  {
   "property": "C61",
   "status": "partial",
   "theorems": [
    "Verif.MaxSat.C61_solve",
    "Verif.MaxSat.C61_model",
    "Verif.MaxSat.C61_no_panic",
    "Verif.MaxSat.C61_selector_name",
    "Verif.MaxSat.C61_added_late",
    "Verif.MaxSat.C61_inconclusive"
   ],
   "note": "User formulas must not contain selector names (C61_selector_name: false otherwise); for the first solve after adding formulas (C61_added_late, C61_inconclusive: false afterwards). The library's answer is a hypothesis."
  },
  {
   "property": "C62",
   "status": "partial",
   "theorems": [
    "Verif.SharpSat.C62_count_partial",
    "Verif.SharpSat.C62_counter",
    "Verif.SharpSat.C62_count_models_partial",
    "Verif.SharpSat.C62_verum_wrong"
   ],
   "note": "Right unless verum is among the formulas (C62_verum_wrong: count is then 1). The library's answer is a hypothesis."
  },
  {
   "property": "C63",
   "status": "partial",
   "theorems": [
    "Verif.Sat.C63_formula_on_solver_partial",
    "Verif.Sat.C63_up_zero_partial",
    "Verif.Sat.C63_known_variables_partial",
    "Verif.Sat.C63_reset_partial",
    "Verif.Sat.C63_loaded_wrong",
    "Verif.Sat.C63_reset_wrong",
    "Verif.Sat.onSolver_ok",
    "Verif.Sat.upZero_ok"
   ],
   "note": "Clause minimization must not be switched off (as in C28-C35). formula_on_solver is equivalent to what was added as long as no state is loaded; afterwards it is not (C63_loaded_wrong). up_zero_literals are implied, also after states are loaded. reset gives an empty solver if no states were saved; otherwise old states stay loadable (C63_reset_wrong)."
  },
  {
   "property": "C64",
   "status": "proved",
   "theorems": [
    "Verif.Queens.C64_n_queens",
    "Verif.Queens.C64_none_panics",
    "Verif.Queens.C64_satisfiable"
   ],
   "note": "For boards of 1 to 2^30 - 2 rows (list lengths below that are the range in which encodings are modelled); for no rows the generator panics, which is proved too. The model takes the numbers of the variable names v1, v2, ... as variables."
  },
  {
   "property": "C65",
   "status": "partial",
   "theorems": [
    "Verif.Files.C65_write_read_partial",
    "Verif.Files.C65_dimacs",
    "Verif.Files.C65_dimacs_satisfiable",
    "Verif.Files.C65_trailing_blank_panics",
    "Verif.Files.C65_invalid_panics"
   ],
   "note": "DIMACS files with one clause per line: complete. Missing for formula files: what C45 misses, that is implications nested to the left and names that are no identifiers. Violations proved: a blank after the closing 0 panics; an invalid formula panics although an io::Error is documented."
  },
  {
   "property": "C66",
   "status": "proved",
   "theorems": [
    "Verif.C66_blocking",
    "Verif.C66_blocking_variables",
    "Verif.C66_block_one",
    "Verif.C66_blocks_itself",
    "Verif.C66_from_literals",
    "Verif.C66_add",
    "Verif.C66_equality",
    "Verif.C66_model",
    "Verif.C66_to_model",
    "Verif.C66_compare",
    "Verif.C66_both_values"
   ],
   "note": "Hash sets are lists without duplicates in any order; names (from_names, to_string) are left out. C66_blocking_variables and C66_blocks_itself are about assignments in which no variable has both values; the code allows others, and C66_both_values shows what then happens."
  },
  {
   "property": "C67",
   "status": "partial",
   "theorems": [
    "Verif.Sat.C67_search",
    "Verif.Sat.C67_solve_partial",
    "Verif.Sat.C67_zero_budget",
    "Verif.Sat.C67_zero_budget_counterexample",
    "Verif.Sat.C67_sat_with_partial",
    "Verif.Sat.C67_enumeration_partial",
    "Verif.Sat.C67_count_partial",
    "Verif.Sat.C67_backbone_partial",
    "Verif.Sat.C67_optimize_partial",
    "Verif.Sat.C67_is_sat_partial",
    "Verif.Sat.C67_is_tautology_partial",
    "Verif.Sat.C67_backbone_simplification_partial"
   ],
   "note": "search ends for all states, budgets and configurations with clause minimization. solve and everything built on it ends with the right answer if the solver is incremental (the default) and restart_first is at least 1, or if some restart has a budget of 3^n conflicts. Missing: non-incremental solvers whose budgets stay below 3^n (with usize budgets: more than 40 variables), and ClauseMinimization::None. With restart_first = 0 it is false (C67_zero_budget_counterexample). The encoders of cardinality constraints inside optimize are those that end by C21-C24."
  },
  {
   "property": "C68",
   "status": "partial",
   "theorems": [
    "Verif.Rnd.C68_formula_partial",
    "Verif.Rnd.C68_kind",
    "Verif.Rnd.C68_no_panic",
    "Verif.Rnd.C68_weights",
    "Verif.Rnd.C68_two_operands_panics",
    "Verif.Rnd.C68_one_variable_diverges",
    "Verif.Rnd.C68_negation_diverges",
    "Verif.Rnd.C68_operands_wrong"
   ],
   "note": "Depth, variables, bounds of constraints and the kind asked for hold for all random numbers and any arithmetic; kinds of weight 0 do not occur, with exact arithmetic. False and proved so: a bound of 2 operands panics, conjunctions can exceed the bound by flattening, over one variable (default configuration) or with only literals and negations the search never ends."
  },
  {
   "property": "C69",
   "status": "partial",
   "theorems": [
    "Verif.Prime.C69_gte_partial",
    "Verif.Prime.C69_lte_partial",
    "Verif.Prime.C69_chance",
    "Verif.Prime.C69_grows",
    "Verif.Prime.C69_unlucky_wrong",
    "Verif.Prime.C69_large_wrong",
    "Verif.Prime.C69_small_wrong"
   ],
   "note": "For all random numbers the searches end, skip no prime and stay within [n, 2n] or [3, n] (n up to 2^30 or 2^31); an odd composite candidate is accepted by at most the 2^20-th part of the random sequences; tables of up to 2^30 nodes grow with every resize (there is a prime among the next 50000 numbers, by certificates). False and proved so: unlucky random numbers give 289, primes from 2^31 on are rejected, prime_gte(2) is 3, prime_lte panics below 3."
  },
  {
   "property": "C70",
   "status": "partial",
   "theorems": [
    "Verif.Bdd.C70_node_count",
    "Verif.Bdd.C70_profile",
    "Verif.Bdd.C70_terms",
    "Verif.Bdd.C70_profile_panics"
   ],
   "note": "node_count for all readable handles; profile and numbers of clauses and terms if every kernel variable has a name. False and proved so: variable_profile panics for every handle as soon as a kernel variable has no name."
  },
  {
   "property": "C71",
   "status": "partial",
   "theorems": [
    "Verif.Sat.Incr.C71_constraint",
    "Verif.Sat.Incr.C71_calls_partial",
    "Verif.Sat.Incr.C71_sat_partial",
    "Verif.Sat.Incr.C71_unsat_partial",
    "Verif.Sat.Incr.C71_exact_partial",
    "Verif.Sat.Incr.C71_stale_model_violated"
   ],
   "note": "For all sequences of legal calls on a solver after any other calls, all encoders, any number of constraints. Missing: configurations without clause minimization (C28 fails there), lower bounds above the number of variables (C25 fails there). False and proved so: model() after a bound was tightened returns the old model."
  },
  {
   "property": "C72",
   "status": "proved",
   "theorems": [
    "Verif.C72_linearizable",
    "Verif.C72_unique",
    "Verif.C72_usable",
    "Verif.C72_progress",
    "Verif.C72_tables"
   ],
   "note": "For all executions of any number of threads, at the level of the atomic steps of the vector, all keys and all assignments of keys to shards. Assumes what dashmap documents: a shard is a map behind a read-write lock that entry().or_insert_with() holds throughout."
  },
  {
   "property": "C73",
   "status": "partial",
   "theorems": [
    "Verif.C73_nodes",
    "Verif.C73_internal",
    "Verif.C73_operands",
    "Verif.C73_u64_partial"
   ],
   "note": "Exact in every cache state with counters as natural numbers; the u64 counters are exact below 2^64 (C73_u64_partial). Beyond that the claim is false: sub-formulas are shared, so small formulas reach 2^64 (see C52_overflow_counterexample)."
  },
  {
   "property": "C74",
   "status": "partial",
   "theorems": [
    "Verif.C74_amo",
    "Verif.C74_exo",
    "Verif.C74_amk_totalizer",
    "Verif.C74_alk_totalizer",
    "Verif.C74_exk_totalizer",
    "Verif.C74_amk_cardnet",
    "Verif.C74_alk_cardnet",
    "Verif.C74_exk_cardnet",
    "Verif.C74_modular_counterexample"
   ],
   "note": "Every at-most-one and exactly-one encoding, the totalizer and the cardinality networks for at most, at least and exactly k. UP.sound and UP.Conflict.sound (same file) tie the propagation to models. Partial because the claim is false for the modular totalizer, the default encoding of at most and at least k: C74_modular_counterexample (DESIGN.md, finding 37)."
  },
  {
   "property": "C75",
   "status": "partial",
   "theorems": [
    "Verif.C75_complete",
    "Verif.C75_binary_merge_partial",
    "Verif.C75_adder_partial",
    "Verif.C75_binary_merge_counterexample",
    "Verif.C75_adder_counterexample"
   ],
   "note": "Complete propagation for the sequential weight counter (the default) and for binary merge with its gac option, for every setting of its other options. False for binary merge without gac (counterexample; contradictions and powers of two are still found) and for adder networks (counterexample; contradictions are found once all literals are set)."
  },
  {
   "property": "C76",
   "status": "proved",
   "theorems": [
    "Verif.C76_decides",
    "Verif.C76_values",
    "Verif.C76_pg_open",
    "Verif.C76_on_solver",
    "Verif.C76_on_solver_single"
   ],
   "note": "C76_pg_open shows why Plaisted-Greenbaum is excluded from the second half: its variables are defined in one direction only and can stay open. On the solver: sequences of formulas with a shared variable cache, with and without negation normal form first; the clauses are those passed to the solver (Verif/F/PgSolver.lean)."
  },
  {
   "property": "C77",
   "status": "partial",
   "theorems": [
    "Verif.C77_tseitin",
    "Verif.C77_pg",
    "Verif.C77_full_pg_exponential"
   ],
   "note": "Proved for Tseitin and Plaisted-Greenbaum on formulas. The last sentence is false of the code: full Plaisted-Greenbaum on the solver joins the clauses of shared nodes without a new variable, and the clause it passes to the solver can have 2^n literals for a formula with 6n + 3 distinct subformulas (C77_full_pg_exponential, finding 39)."
  },
  {
   "property": "C78",
   "status": "proved",
   "theorems": [
    "Verif.C78_pure",
    "Verif.C78_ladder",
    "Verif.C78_product",
    "Verif.C78_nested",
    "Verif.C78_commander",
    "Verif.C78_binary",
    "Verif.C78_bimander",
    "Verif.C78_best"
   ],
   "note": "For parameters with which the encoders return (`C21_amo_bad_parameters`); roundings of floating point numbers are not modelled."
  },
  {
   "property": "C79",
   "status": "proved",
   "theorems": [
    "Verif.C79_amk",
    "Verif.C79_alk",
    "Verif.C79_exk"
   ],
   "note": "`adder_alk` does not take the bound into account (unlike `adder_amk`), so at-least constraints with small bounds are quadratic."
  },
  {
   "property": "C80",
   "status": "proved",
   "theorems": [
    "Verif.C80_swc",
    "Verif.C80_adder",
    "Verif.C80_adder_internal",
    "Verif.C80_best_exponential"
   ],
   "note": "Counts of clauses and new variables for the encoders called by encode_internal (exact for the counter), and for encode_internal itself with adder networks; family of constraints on three variables where Best is exponential and adder networks are linear."
  },
  {
   "property": "C81",
   "status": "proved",
   "theorems": [
    "Verif.C81_exk",
    "Verif.C81_amk_large",
    "Verif.C81_amk",
    "Verif.C81_alk",
    "Verif.C81_amk_quadratic"
   ],
   "note": "Upper bounds for the recursive sorters, exact counts for the counter (n >= 20 and n < 2^30, where the code chooses it over the direct sorter)."
  },
  {
   "property": "C82",
   "status": "proved",
   "theorems": [
    "Verif.C82_amk",
    "Verif.C82_alk"
   ],
   "note": "Upper bounds for CcEncoder::amk and alk with the default configuration."
  },
  {
   "property": "C83",
   "status": "proved",
   "theorems": [
    "Verif.Sat.C83_over",
    "Verif.Sat.C83_all",
    "Verif.Sat.C83_number"
   ],
   "note": "For the solver the function creates (default configuration: incremental, deep minimization, auxiliary variables kept out of models), all formulas within the limits of the encoders and all reachable states of the factory. Auxiliary variables must not be asked for, since they are kept out of models (see C33_auxiliary_counterexample)."
  },
  {
   "property": "C84",
   "status": "proved",
   "theorems": [
    "Verif.C84_encode",
    "Verif.C84_encode_constraint",
    "Verif.C84_normalize"
   ],
   "note": "All encoders of cardinality and pseudo-Boolean constraints, the dispatchers and the encoding caches. Sizes as in C26 (fewer than 2^30 operands, coefficient sums below 2^62) except for normalization, which has no hypotheses."
  },
  {
   "property": "C85",
   "status": "proved",
   "theorems": [
    "Verif.C85_variables",
    "Verif.C85_encoder",
    "Verif.C85_nnf"
   ],
   "note": "For nnf, factorization (CNF and DNF, with or without limits) and the CNF encoders (factorization, Tseitin, Plaisted-Greenbaum, advanced), any sequence of calls, formulas with constraints within the limits of the encoders included."
  },
  {
   "property": "C86",
   "status": "proved",
   "theorems": [
    "Verif.Sat.C86_add",
    "Verif.Sat.C86_add_all",
    "Verif.Sat.C86_add_proposition"
   ],
   "note": "For all three CNF methods, any sequence of calls of solver and factory before (solving, saving and loading states, enumerations, backbones, optimizations, resets, transformations), formulas within the limits of the encoders. As in C28, clause minimization is not switched off and states are loaded only while no clause to be removed has the literals of one to be kept."
  }
 ]
}
