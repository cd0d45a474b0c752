{"id": "C01", "title": "Formula handles decode to what was encoded", "statement": "Encoding a formula type and an index into a 64-bit handle and decoding it again returns the same type, index and cache flag; two different (type,index,flag) triples never share a handle.", "quantifier": "all formula types, all indices below 2^58, both cache flags", "why_tests_cant": "There are 2^58 indices per type; tests touch a handful.", "anchors": ["src/formulas/formula_cache/formula_encoding.rs: FormulaEncoding::encode, encode_type, formula_type, index, is_large"]}
{"id": "C02", "title": "A handle means the same formula forever", "statement": "After any sequence of factory calls, every handle returned earlier still denotes exactly the formula it denoted when it was returned (kind, operands, operand order).", "quantifier": "all finite sequences of factory calls on one factory, all previously returned handles", "why_tests_cant": "Quantifies over all later histories.", "anchors": ["src/formulas/formula_factory.rs: and, or, not, implication, equivalence, cc, pbc", "src/formulas/formula_cache/nary_formula_cache.rs", "src/formulas/formula_cache/not_cache.rs", "src/formulas/formula_cache/implication_cache.rs", "src/formulas/formula_cache/equivalence_cache.rs"]}
{"id": "C03", "title": "Equal handles iff same formula (hash-consing)", "statement": "In every reachable factory state two handles are equal exactly when they denote the same formula, where conjunctions/disjunctions are compared as sets of operands and equivalences as unordered pairs; so `==` on formulas is structural equality.", "quantifier": "all reachable factory states, all pairs of handles", "why_tests_cant": "Needs an invariant over all histories of cache insertions.", "anchors": ["src/formulas/formula_factory.rs", "src/formulas/formula_cache/nary_formula_cache.rs: get_or_insert", "src/formulas/formula_cache/hashable_formula_set.rs"]}
{"id": "C04", "title": "and/or compute conjunction/disjunction", "statement": "`f.and(ops)` evaluates to true under an assignment iff every operand does, `f.or(ops)` iff some operand does, for any list of operands including nested, duplicate, complementary and constant operands; the call never changes what other handles mean.", "quantifier": "all reachable states, all operand lists, all assignments", "why_tests_cant": "Unbounded operand lists, nesting, histories and assignments.", "anchors": ["src/formulas/formula_factory.rs: and, or, prepare_nary, filter_flatten, contains_complement"]}
{"id": "C05", "title": "and/or results are in flattened normal shape", "statement": "A conjunction returned by the factory has at least two operands, none of which is a conjunction, a constant, a repetition of another operand or the complement of another operand; dually for disjunctions.", "quantifier": "all reachable states, all And/Or handles in them", "why_tests_cant": "Invariant of every reachable state.", "anchors": ["src/formulas/formula_factory.rs: and, or, filter_flatten, contains_complement"]}
{"id": "C06", "title": "not/negate compute negation and never double-negate", "statement": "`f.not(x)` and `f.negate(x)` evaluate to the complement of x under every assignment; no Not node in the factory has a constant, literal or Not as operand; negating twice returns the original handle.", "quantifier": "all reachable states, all handles, all assignments", "why_tests_cant": "Unbounded inputs.", "anchors": ["src/formulas/formula_factory.rs: not, negate"]}
{"id": "C07", "title": "implication/equivalence compute their connective", "statement": "`f.implication(a,b)` and `f.equivalence(a,b)` evaluate as the connective for every assignment in spite of the constant/equal/complement simplifications, and equivalence is symmetric as a handle: f.equivalence(a,b) == f.equivalence(b,a).", "quantifier": "all reachable states, all operand pairs, all assignments", "why_tests_cant": "Unbounded inputs, order of earlier calls matters for the cache.", "anchors": ["src/formulas/formula_factory.rs: implication, equivalence", "src/formulas/formula_cache/equivalence_cache.rs"]}
{"id": "C08", "title": "Cardinality/PB constructors keep the constraint's meaning", "statement": "`f.cc`, `f.amo`, `f.exo`, `f.pbc` return a formula which evaluates to true iff the weighted sum of satisfied literals is in the stated relation to the right-hand side, including the trivial empty case and the silent conversion of a PB constraint into a cardinality constraint.", "quantifier": "all comparators, right-hand sides, literal and coefficient lists, assignments", "why_tests_cant": "All 64-bit right-hand sides and all lists.", "anchors": ["src/formulas/formula_factory.rs: cc, amo, exo, pbc, construct_cc_unsafe, evaluate_trivial_pb_constraint, is_lit_cc, is_cc"]}
{"id": "C09", "title": "Restriction is partial evaluation", "statement": "Restricting a formula by a partial assignment yields a formula that, under any total assignment, has the value of the original under that assignment overridden by the partial one; no restricted variable remains in it.", "quantifier": "all formulas (incl. CC/PBC), all partial assignments, all total assignments", "why_tests_cant": "Three unbounded quantifiers.", "anchors": ["src/operations/transformations/restriction.rs", "src/formulas/pbc_cc.rs: CardinalityConstraint::restrict, PbConstraint::restrict", "src/datastructures/assignment.rs: restrict_lit"]}
{"id": "C10", "title": "Substitution lemma", "statement": "Substituting variables by formulas yields a formula whose value under v equals the value of the original under the assignment mapping each substituted variable to the value of its image under v (simultaneous substitution).", "quantifier": "all formulas, all substitutions, all assignments", "why_tests_cant": "Unbounded.", "anchors": ["src/operations/transformations/substitution.rs", "src/formulas/formula_factory.rs: substitute_var"]}
{"id": "C11", "title": "NNF is equivalent and in NNF, for every cache history", "statement": "The negation normal form of any formula is equivalent to it, contains negations only at literals, no implication or equivalence (CC/PBC replaced by their encodings excepted), whatever was computed and cached before.", "quantifier": "all formulas, all reachable cache contents, all assignments", "why_tests_cant": "History of the cache is unbounded.", "anchors": ["src/operations/transformations/nnf/mod.rs: nnf_rec", "src/operations/predicates/nnf.rs"]}
{"id": "C12", "title": "Factorized CNF/DNF is equivalent and has normal-form shape", "statement": "CNF (DNF) by factorization returns a formula equivalent to the input that is a conjunction of clauses (disjunction of terms).", "quantifier": "all PB-free formulas, all assignments, all cache histories", "why_tests_cant": "Unbounded.", "anchors": ["src/operations/transformations/cnf/factorization.rs", "src/operations/transformations/dnf/factorization.rs"]}
{"id": "C13", "title": "A limited factorization either aborts or is exact", "statement": "With a handler that limits distributions or created clauses the factorization either reports an abort or returns exactly what the unlimited factorization returns; it reports an abort only after the limit has really been exceeded.", "quantifier": "all formulas, all limits", "why_tests_cant": "All limits and formulas.", "anchors": ["src/operations/transformations/cnf/factorization.rs", "src/handlers/factorization_handler.rs"]}
{"id": "C14", "title": "Tseitin CNF is a conservative extension", "statement": "The Tseitin CNF is satisfied by some extension of an assignment to fresh variables iff the assignment satisfies the original formula, and this extension is unique (so model counts over original variables are preserved).", "quantifier": "all formulas, all boundary settings, all assignments", "why_tests_cant": "Unbounded, depends on freshness of auxiliary variables over the history.", "anchors": ["src/operations/transformations/cnf/tseitin.rs"]}
{"id": "C15", "title": "Plaisted-Greenbaum CNF is equisatisfiable and projects to the original models", "statement": "Every model of the Plaisted-Greenbaum CNF restricted to the original variables satisfies the original formula, and every model of the original formula extends to one of the CNF.", "quantifier": "all formulas, all assignments", "why_tests_cant": "Unbounded.", "anchors": ["src/operations/transformations/cnf/plaisted_greenbaum_on_formula.rs", "src/operations/transformations/cnf/plaisted_greenbaum_on_solver.rs"]}
{"id": "C16", "title": "Normal-form predicates are exact", "statement": "is_cnf/is_dnf/is_nnf (with their caches) return true exactly when the formula has the syntactic form, in every reachable cache state.", "quantifier": "all formulas, all reachable cache states", "why_tests_cant": "Cached flags are written at construction time; correctness is a history invariant.", "anchors": ["src/operations/predicates/cnf.rs", "src/operations/predicates/dnf.rs", "src/operations/predicates/nnf.rs", "src/formulas/formula_factory.rs: and, or (is_cnf flag)"]}
{"id": "C17", "title": "Variables/literals/sub-node functions are exact", "statement": "variables(φ) and literals(φ) return exactly the occurring variables/literals; the truth value of φ depends on no other variable; the sub-node list contains every sub-formula exactly once, operands before parents, φ last.", "quantifier": "all formulas, all assignments", "why_tests_cant": "Unbounded.", "anchors": ["src/operations/functions/operands.rs", "src/operations/functions/literals.rs", "src/operations/functions/sub_node_function.rs"]}
{"id": "C18", "title": "Negating a CC/PBC yields its complement", "statement": "The negation of a cardinality or pseudo-Boolean constraint evaluates to the complement under every assignment.", "quantifier": "all comparators, right-hand sides, literal lists, assignments", "why_tests_cant": "Unbounded.", "anchors": ["src/formulas/pbc_cc.rs: CardinalityConstraint::negate, PbConstraint::negate"]}
{"id": "C19", "title": "PB normalization preserves meaning and reaches normal form", "statement": "normalize() of a PB constraint is equivalent to it, consists of <= constraints with positive coefficients over pairwise distinct variables, or constants.", "quantifier": "all comparators, coefficients (also negative, zero), repeated and complementary literals, right-hand sides, assignments", "why_tests_cant": "Unbounded integers and lists.", "anchors": ["src/formulas/pbc_cc.rs: PbConstraint::normalize, normalize_le, gcd"]}
{"id": "C20", "title": "Early PB evaluation from coefficient bounds is sound", "statement": "When restricting a PB constraint by a partial assignment decides it to true/false, every total extension evaluates it to that value.", "quantifier": "all PB constraints, all partial assignments, all extensions", "why_tests_cant": "Unbounded integers.", "anchors": ["src/formulas/pbc_cc.rs: evaluate_coeffs, PbConstraint::restrict"]}
{"id": "C21", "title": "At-most-one encodings are correct", "statement": "For each of the AMO encoders (pure, ladder, product, nested, commander, binary, bimander, best) and any variables, an assignment to the variables extends to the auxiliary variables so that all clauses hold iff at most one variable is true.", "quantifier": "all numbers of variables, all group sizes/bounds accepted by the encoder, all assignments", "why_tests_cant": "n and the parameters are unbounded.", "anchors": ["src/cardinality_constraints/cc_amo_pure.rs", "src/cardinality_constraints/cc_amo_ladder.rs", "src/cardinality_constraints/cc_amo_product.rs", "src/cardinality_constraints/cc_amo_nested.rs", "src/cardinality_constraints/cc_amo_commander.rs", "src/cardinality_constraints/cc_amo_binary.rs", "src/cardinality_constraints/cc_amo_bimander.rs", "src/cardinality_constraints/cc_encoder.rs: amo"]}
{"id": "C22", "title": "At-most-k / at-least-k / exactly-k totalizer encodings are correct", "statement": "An assignment to the problem variables extends to the auxiliary variables satisfying all clauses iff the number of true variables is <=k (>=k, =k).", "quantifier": "all n, k, assignments", "why_tests_cant": "n,k unbounded.", "anchors": ["src/cardinality_constraints/cc_totalizer.rs", "src/cardinality_constraints/cc_encoder.rs"]}
{"id": "C23", "title": "Modular totalizer encodings are correct", "statement": "Same as for the totalizer, for the modular totalizer used by default for at-most-k and at-least-k.", "quantifier": "all n, k, assignments", "why_tests_cant": "n,k unbounded; off-by-one in modulus arithmetic only shows up for special n,k.", "anchors": ["src/cardinality_constraints/cc_modular_totalizer.rs"]}
{"id": "C24", "title": "Cardinality network encodings are correct", "statement": "Same for cardinality networks, including sorting networks and odd-even mergers they are built from.", "quantifier": "all n, k, assignments", "why_tests_cant": "n,k unbounded.", "anchors": ["src/cardinality_constraints/cc_cardinality_networks.rs", "src/cardinality_constraints/cc_sorter.rs"]}
{"id": "C25", "title": "Incremental bound tightening is exact", "statement": "After encoding `<= k` (`>= k`) incrementally, adding the clauses returned for a new bound k' < k (k' > k) yields exactly the constraint with bound k'.", "quantifier": "all n, k, k', assignments", "why_tests_cant": "Unbounded.", "anchors": ["src/cardinality_constraints/cc_incremental_data.rs: new_upper_bound, new_lower_bound"]}
{"id": "C26", "title": "PB encodings are correct", "statement": "For each PB encoder (sequential weight counter, binary merge in all option combinations, adder networks) an assignment of the problem variables extends to the auxiliary variables satisfying all clauses iff the PB constraint holds.", "quantifier": "all normalized PB constraints, all assignments", "why_tests_cant": "Unbounded coefficients and lists.", "anchors": ["src/pseudo_booleans/pb_encoder.rs", "src/pseudo_booleans/pb_swc.rs", "src/pseudo_booleans/pb_binary_merge.rs", "src/pseudo_booleans/pb_adder_networks.rs"]}
{"id": "C27", "title": "Auxiliary variables are fresh", "statement": "Auxiliary variables handed out by a factory are pairwise distinct and distinct from every named variable and from every auxiliary variable handed out earlier, also with several threads.", "quantifier": "all histories and interleavings of requests", "why_tests_cant": "Schedules and histories are unbounded.", "anchors": ["src/formulas/formula_factory.rs: new_cnf_variable, new_cc_variable, new_pb_variable, parsed_variable"]}
{"id": "C28", "title": "SAT answers come with a real model", "statement": "If the solver reports SAT (with or without assumptions), the reported model satisfies every clause added so far and every assumption.", "quantifier": "all sequences of add/solve/save/load calls, all assumptions", "why_tests_cant": "All clause sets, all histories, all search orders.", "anchors": ["src/solver/sat/minisat2.rs: solve, search, propagate, add_clause", "src/solver/minisat_solver.rs"]}
{"id": "C29", "title": "UNSAT answers are right", "statement": "If the solver reports UNSAT, no assignment satisfies all clauses added so far together with the assumptions.", "quantifier": "all sequences of add/solve/save/load calls, all assumptions, all search orders", "why_tests_cant": "Soundness of clause learning and minimization over all conflict graphs.", "anchors": ["src/solver/sat/minisat2.rs: analyze, simplify_clause, lit_redundant, search, add_clause"]}
{"id": "C30", "title": "Learnt clauses are implied", "statement": "Every clause learnt by the solver (including after clause minimization) is a logical consequence of the clauses added so far; deleting learnt clauses or satisfied clauses never changes the set of models.", "quantifier": "all clause sets, all trails/implication graphs reachable", "why_tests_cant": "Unbounded conflict graphs.", "anchors": ["src/solver/sat/minisat2.rs: analyze, simplify_clause, lit_redundant, reduce_db, simplify"]}
{"id": "C31", "title": "Unit propagation is complete and sound", "statement": "After propagation without conflict no clause is unit or falsified under the current assignment; every propagated literal is implied by the clauses and the decisions; a reported conflict clause is falsified.", "quantifier": "all clause databases and watch states reachable, all trails", "why_tests_cant": "Watch-list invariants over all histories.", "anchors": ["src/solver/sat/minisat2.rs: propagate, attach_clause, detach_clause"]}
{"id": "C32", "title": "save_state/load_state restore the solver", "statement": "Loading a saved state makes the solver equivalent to what it was when the state was saved: the same clause set, hence the same satisfiability for all future additions; states are invalid after loading an older one.", "quantifier": "all histories between save and load", "why_tests_cant": "Histories unbounded.", "anchors": ["src/solver/minisat_solver.rs: save_state, load_state", "src/solver/sat/minisat2.rs: save_state, load_state"]}
{"id": "C33", "title": "Model enumeration lists every projected model exactly once", "statement": "Enumeration over given variables returns each assignment of these variables that extends to a model exactly once, and leaves the solver's set of models unchanged.", "quantifier": "all formulas, all projection sets", "why_tests_cant": "2^n models, loop correctness.", "anchors": ["src/solver/functions/model_enumeration.rs"]}
{"id": "C34", "title": "Backbone computation is exact", "statement": "The computed backbone contains a literal iff it is true in all models (for the requested polarity and variables).", "quantifier": "all formulas, variable sets and backbone types", "why_tests_cant": "Unbounded.", "anchors": ["src/solver/sat/minisat2.rs: compute_backbone", "src/backbones/mod.rs"]}
{"id": "C35", "title": "Optimization returns an optimal model", "statement": "Maximization/minimization returns a model of the clauses satisfying the largest/smallest number of target literals among all models, or reports unsatisfiability.", "quantifier": "all clause sets, all target literal lists", "why_tests_cant": "Loop over unboundedly many solver calls.", "anchors": ["src/solver/functions/optimization_function.rs"]}
{"id": "C36", "title": "BDD construction computes the formula's function", "statement": "The BDD built from a formula evaluates to the formula's value under every assignment, for every variable order, cache size and garbage-collection schedule.", "quantifier": "all formulas, variable orders, cache sizes, node table sizes, assignments", "why_tests_cant": "GC and cache states are unbounded.", "anchors": ["src/knowledge_compilation/bdd/bdd_main.rs: build_rec", "src/knowledge_compilation/bdd/bdd_kernel.rs: apply_rec, make_node, gbc"]}
{"id": "C37", "title": "BDDs are canonical", "statement": "Two BDDs in one kernel have the same index iff they represent the same Boolean function; in particular a formula is a tautology (contradiction) iff its BDD is the constant.", "quantifier": "all reachable kernel states, all pairs of BDDs", "why_tests_cant": "Invariant over all histories of the unique table.", "anchors": ["src/knowledge_compilation/bdd/bdd_kernel.rs: make_node"]}
{"id": "C38", "title": "BDD handles survive garbage collection", "statement": "A BDD returned to the user continues to represent the same function after any further kernel operations.", "quantifier": "all later operations and garbage collections", "why_tests_cant": "All schedules of garbage collections.", "anchors": ["src/knowledge_compilation/bdd/bdd_kernel.rs: gbc, add_ref, del_ref", "src/knowledge_compilation/bdd/bdd_main.rs: restrict, exists, for_all"]}
{"id": "C39", "title": "BDD restrict/exists/for_all/negate are right", "statement": "Restriction fixes variables, exists/for_all quantify them, negation complements — under every assignment.", "quantifier": "all BDDs, literal sets and assignments", "why_tests_cant": "Unbounded.", "anchors": ["src/knowledge_compilation/bdd/bdd_construction.rs"]}
{"id": "C40", "title": "BDD counting and enumeration are exact", "statement": "model_count equals the number of satisfying assignments over the kernel variables; enumeration over all variables yields each model exactly once; CNF/DNF read off the BDD are equivalent to it.", "quantifier": "all BDDs", "why_tests_cant": "Unbounded.", "anchors": ["src/knowledge_compilation/bdd/bdd_operations.rs", "src/knowledge_compilation/bdd/bdd_model_enumeration.rs", "src/knowledge_compilation/bdd/bdd_normalform.rs"]}
{"id": "C41", "title": "The variable-order heap always yields a maximum", "statement": "The solver's heap keeps its position table consistent, never loses or duplicates an element, and remove_min returns an element that no other element precedes.", "quantifier": "all sequences of insert/remove/decrease/build operations", "why_tests_cant": "Histories unbounded.", "anchors": ["src/collections/lng_heap.rs"]}
{"id": "C42", "title": "UBTree finds a subset iff one is stored", "statement": "first_subset(S) returns a stored set contained in S whenever one exists and nothing otherwise; all_sets returns exactly the stored sets.", "quantifier": "all sequences of insertions, all query sets", "why_tests_cant": "Unbounded.", "anchors": ["src/datastructures/ubtree.rs"]}
{"id": "C43", "title": "Subsumption removes only subsumed clauses", "statement": "CNF/DNF subsumption returns an equivalent formula in which no clause (term) subsumes another.", "quantifier": "all CNFs/DNFs", "why_tests_cant": "Unbounded.", "anchors": ["src/operations/transformations/subsumption.rs", "src/datastructures/ubtree.rs"]}
{"id": "C44", "title": "Append-only vector is linearizable and stable", "statement": "Concurrent pushes on the append-only vector return pairwise distinct indices 0..n, a published element can be read at its index by any thread forever and never moves.", "quantifier": "all interleavings of any number of threads, all lengths", "why_tests_cant": "Schedules are unbounded.", "anchors": ["src/collections/append_vec.rs"]}
{"id": "C45", "title": "Printed formulas parse back to equivalent formulas", "statement": "Parsing the printed form of a formula yields an equivalent formula.", "quantifier": "all formulas over parsable variable names", "why_tests_cant": "Unbounded nesting and precedence combinations.", "anchors": ["src/formulas/formula.rs: to_string, nary_to_string, precedence", "src/parser/pseudo_boolean_parser.rs", "src/parser/lng_pseudo_boolean_parser.pest"]}
{"id": "C46", "title": "Model counting is exact", "statement": "count_models(φ) equals the number of assignments of the requested variables satisfying φ; counting on a compiled DNNF multiplies over conjunctions and adds over disjunctions and is exact for decomposable, deterministic formulas.", "quantifier": "all formulas", "why_tests_cant": "Unbounded.", "anchors": ["src/operations/functions/model_count.rs", "src/knowledge_compilation/dnnf/dnnf_model_counting.rs"]}
{"id": "C47", "title": "Pure expansion and anonymization preserve meaning", "statement": "Pure expansion replaces AMO/EXO constraints by equivalent CNF; anonymization renames variables injectively, so satisfiability and model counts are unchanged.", "quantifier": "all formulas, all assignments", "why_tests_cant": "Unbounded.", "anchors": ["src/operations/transformations/pure_expansion.rs", "src/operations/transformations/anonymizer.rs"]}
{"id": "C48", "title": "Unsatisfiable cores are unsatisfiable subsets", "statement": "A reported unsat core is a subset of the added propositions and is itself unsatisfiable; a conflict over assumptions returned after an UNSAT answer is implied by the clauses.", "quantifier": "all clause sets, all proofs", "why_tests_cant": "All conflict graphs.", "anchors": ["src/solver/functions/unsat_core_function.rs", "src/solver/sat/minisat2.rs: analyze_final"]}
{"id": "C49", "title": "The restart schedule is the Luby sequence", "statement": "The restart limits follow y^luby(i) for the Luby sequence for every i.", "quantifier": "all i", "why_tests_cant": "Infinite sequence.", "anchors": ["src/solver/sat/minisat2.rs: luby"]}
{"id": "C50", "title": "Evaluation is the truth value", "statement": "evaluate(f, assignment) equals the truth value of f with all variables the assignment does not mention set to false.", "quantifier": "all formulas, all assignments without contradictory literals", "why_tests_cant": "Unbounded formulas and assignments.", "anchors": ["src/formulas/formula_factory.rs: evaluate", "src/datastructures/assignment.rs: evaluate_lit", "src/formulas/pbc_cc.rs: evaluate"]}
{"id": "C51", "title": "Containment searches terminate and are exact", "statement": "contains_var_name, contains_node and contains_pbc terminate on every formula and answer true exactly if the variable, node or a constraint occurs in it, in every reachable cache state.", "quantifier": "all formulas, all earlier calls", "why_tests_cant": "Work-list traversal over arbitrary shared graphs and all cache histories.", "anchors": ["src/operations/predicates/contains.rs", "src/operations/predicates/contains_pbc.rs"]}
{"id": "C52", "title": "Depth, number of atoms and variable profile are exact", "statement": "formula_depth is the length of the longest operand chain, number_of_atoms counts the atomic formulas at the ends of all paths, variable_profile counts each variable's occurrences, in every reachable cache state.", "quantifier": "all formulas, all earlier calls", "why_tests_cant": "Unbounded formulas and cache histories.", "anchors": ["src/operations/functions/formula_depth_function.rs", "src/operations/functions/sub_node_function.rs: number_of_atoms", "src/operations/functions/variable_profile_function.rs"]}
{"id": "C53", "title": "BDD model extraction is correct", "statement": "model, full_model and model_for_variables of a BDD return nothing exactly if the BDD is false everywhere; otherwise a consistent partial assignment all of whose extensions satisfy the BDD; full_model sets every registered variable and model_for_variables every given variable.", "quantifier": "all reachable kernels and handles, all variable sets, both default values", "why_tests_cant": "Depends on the whole node table, the variable order and garbage collection inside the recursion.", "anchors": ["src/knowledge_compilation/bdd/bdd_main.rs", "src/knowledge_compilation/bdd/bdd_operations.rs"]}
{"id": "C54", "title": "BDD support is exact", "statement": "support returns exactly the variables on which the value of the BDD depends.", "quantifier": "all reachable kernels and handles", "why_tests_cant": "Semantic dependency quantifies over all pairs of assignments.", "anchors": ["src/knowledge_compilation/bdd/bdd_main.rs: support", "src/knowledge_compilation/bdd/bdd_operations.rs: support"]}
{"id": "C55", "title": "Compilation to d-DNNF preserves the models", "statement": "DnnfCompiler applied to a simplified CNF (entailed literals are unit clauses, no clause subsumed) returns a deterministic decomposable negation normal form over the variables of the CNF that is equivalent to it, so that counting on it gives the number of models.", "quantifier": "all simplified CNFs, all dtrees, all literal and variable orders, all solver configurations", "why_tests_cant": "The component cache mixes results computed under different decisions and learnt clauses; it goes wrong only for rare interactions of a conflict, a learnt clause and a later cache hit.", "anchors": ["src/knowledge_compilation/dnnf/dnnf_compiler.rs", "src/knowledge_compilation/dnnf/dnnf_sat_solver.rs", "src/knowledge_compilation/dnnf/dtree_factory.rs", "src/knowledge_compilation/dnnf/dtree_generator.rs"]}
{"id": "C56", "title": "Formulas added to a solver are what it answers about", "statement": "After any sequence of calls on a MiniSat (add with any of the three CNF methods, sat, save_state, load_state, enumeration, backbone, optimization), mixed with other uses of the factory, adding a formula does not panic, a model found satisfies all formulas added and not yet undone, UNSAT means that no assignment satisfies them (with the assumptions), and enumeration, backbone and optimization answer for the models of these formulas.", "quantifier": "all call sequences, formulas, configurations and cache states", "why_tests_cant": "The variable cache of the on-solver transformation remembers polarities across formulas and must be forgotten exactly when clauses are removed; errors show only for formulas sharing subformulas in different polarities around save and load.", "anchors": ["src/solver/minisat_solver.rs: add, add_clause_set, add_all_original_variables, load_state", "src/operations/transformations/cnf/plaisted_greenbaum_on_solver.rs", "src/datastructures/encoding_result.rs: EncodingResultSatSolver"]}
{"id": "C57", "title": "is_sat and is_tautology are right, cached or not", "statement": "After any sequence of calls of is_sat, is_tautology, backbone_simplification and transformations on a factory, is_sat(f) does not panic and is true exactly if f has a satisfying assignment, and is_tautology(f) is true exactly if all assignments satisfy f, whether the answer comes from the cache shared by both or from the solver.", "quantifier": "all formulas, call sequences, cache states and configurations of the factory", "why_tests_cant": "The two predicates share one cache under different keys (the formula and its negation) and the result depends on auxiliary variables handed out by earlier calls.", "anchors": ["src/operations/predicates/sat.rs: is_sat, is_tautology"]}
{"id": "C58", "title": "Backbone simplification keeps the models", "statement": "backbone_simplification(f) does not panic; its result is equivalent to f, has no other variables, is falsum if f is unsatisfiable, f itself if no literal is forced, and otherwise the conjunction of exactly the literals that hold in all models of f and a formula without their variables.", "quantifier": "all formulas and states of the caches", "why_tests_cant": "It goes through CNF on the solver, backbone computation and restriction; an error in any of them shows only for particular formulas.", "anchors": ["src/operations/transformations/simplification/backbone_simplification.rs: backbone_simplification", "src/backbones/mod.rs: is_empty, complete_backbone, to_formula"]}
{"id": "C59", "title": "Variable orderings enumerate the variables", "statement": "Each variable ordering for BDDs ends without panic and lists every variable of the formula exactly once and nothing else: dfs by first occurrence, bfs by depth, min_to_max and max_to_min by number of occurrences (ties by first occurrence, independent of the hash map), and the FORCE ordering.", "quantifier": "all formulas, iteration orders of hash maps, states of the factory, CNF algorithms and roundings of floating point numbers", "why_tests_cant": "FORCE iterates a floating point computation until a fixed point is reached; whether it does depends on rounding of equal locations, which happens for rare formulas only.", "anchors": ["src/knowledge_compilation/bdd/orderings/dfs_ordering.rs: dfs_ordering", "src/knowledge_compilation/bdd/orderings/bfs_ordering.rs: bfs_ordering", "src/knowledge_compilation/bdd/orderings/occurrence_ordering.rs: sort_ordering", "src/knowledge_compilation/bdd/orderings/force_ordering.rs: force_ordering, force", "src/graphs/hypergraph.rs: compute_tentative_new_location", "src/graphs/hypergraph_generator.rs: hypergraph_from_cnf"]}
{"id": "C60", "title": "CNF by way of a BDD is equivalent", "statement": "Converting a formula with CnfAlgorithm::Bdd (or BddWithHandler) does not panic and, unless the handler aborts, gives an equivalent formula in CNF over variables of the formula; counters and caches of the factory stay as they are.", "quantifier": "all formulas, states of the factory, node table and cache sizes, growth policies and handlers", "why_tests_cant": "The kernel is created with exactly as many variables as the formula has, so the result depends on every variable being registered during construction and on no other one appearing; garbage collections and cache collisions only happen for particular sizes.", "anchors": ["src/operations/transformations/cnf/mod.rs: CnfAlgorithm::transform, CancellableCnfAlgorithm::transform", "src/knowledge_compilation/bdd/bdd_main.rs: from_formula, cnf", "src/knowledge_compilation/bdd/bdd_normalform.rs: normal_form"]}
{"id": "C61", "title": "MaxSAT translation preserves optima", "statement": "If the external MaxSAT library answers rightly for the weighted clauses it is given, then MaxSatSolver::solve reports Unsatisfiable exactly if no assignment satisfies all hard formulas, and otherwise the least sum of weights of violated soft formulas; every assignment that agrees with the reported model satisfies all hard formulas at that cost. Adding formulas never panics, and a soft formula is refused exactly if its weight is 0, or above 1 for an unweighted algorithm.", "quantifier": "all sequences of hard and soft formulas, states of the factory and its caches, CNF algorithms and right answers of the library", "why_tests_cant": "Soft formulas that are no clauses are coupled to selectors through two CNFs with auxiliary variables; a wrong polarity or a reused variable changes the optimum only for particular combinations of formulas.", "anchors": ["src/solver/maxsat_solver.rs: add_hard_formula, add_soft_formula, add_cnf, solve", "src/solver/maxsat_ffi.rs: add_soft_clause, add_hard_clause, convert_clause, add_var, search, status, create_model"]}
{"id": "C62", "title": "sharpSAT translation preserves the count", "statement": "If the external counter counts the clauses it is given rightly, then SharpSatSolver reports the number of assignments of the variables of all added formulas that satisfy them; add_cnf does not panic on formulas in CNF. Hence count_models with the algorithm SharpSat counts rightly.", "quantifier": "all lists of formulas in CNF", "why_tests_cant": "The shortcut for constants interacts with formulas added before and after; tests add one formula per solver.", "anchors": ["src/solver/sharpsat.rs: add_clause, add_cnf, solve", "src/operations/functions/model_count.rs: count_formula"]}
{"id": "C63", "title": "What the solver reports about its formulas is right", "statement": "formula_on_solver does not panic and is equivalent, up to auxiliary variables, to the formulas added; the literals of up_zero_literals are implied by the formulas; known_variables contains all variables of all formulas added; reset leaves a solver that holds nothing.", "quantifier": "all sequences of calls that add formulas, solve, save and load states and reset the solver, all CNF methods", "why_tests_cant": "The formula is read off clauses and level-0 assignments that are rearranged by propagation, simplification and backtracking; whether a level entry is stale depends on the whole history of calls.", "anchors": ["src/solver/minisat_solver.rs: formula_on_solver, up_zero_literals, known_variables, reset", "src/solver/sat/minisat2.rs: reset, up_zero_literals, complete_backtrack"]}
{"id": "C64", "title": "The n-queens formula describes the n-queens problem", "statement": "For n >= 1 the generator does not panic and its formula is satisfied exactly by the placements of n queens on an n x n board of which no two attack each other, up to auxiliary variables; in particular it is satisfiable iff the problem has a solution.", "quantifier": "all n with 0 < n and n + 1 < 2^30, all reachable factories, all assignments", "why_tests_cant": "Tests count models for a few small n; an index error in one diagonal could show only for other sizes.", "anchors": ["src/util/n_queens_generator.rs: generate_n_queens, generate_vars"]}
{"id": "C65", "title": "Files are read as what they say", "statement": "A formula written with write_formula is read back by read_formula as an equivalent formula; read_cnf_with_prefix reads a DIMACS file with one clause per line, comments, headers, blank lines, tabs and both kinds of line ends as exactly its clauses, without panic.", "quantifier": "all formulas of the factory without left-nested implications, all DIMACS files of that form, all prefixes, all assignments", "why_tests_cant": "Tests read a handful of fixed files; layouts of lines, separators and line ends and shapes of formulas are unbounded.", "anchors": ["src/io/readers/dimacs_reader.rs: read_cnf_with_prefix", "src/io/readers/formula_reader.rs: read_formula", "src/io/writers/formula_writer.rs: write_formula"]}
{"id": "C66", "title": "Assignments and models hold their literals, and blocking clauses block exactly one assignment", "statement": "Assignments and models made of literals contain exactly these, conversions between the two keep them, equality is equality of sets and agrees with hashing, and the blocking clause of an assignment is falsified exactly by its extensions (on the chosen variables).", "quantifier": "all lists of literals, all assignments and models, all variables, all orders of the hash sets", "why_tests_cant": "Tests check single small assignments; the order of hash sets differs from run to run.", "anchors": ["src/datastructures/assignment.rs: from_literals, add_literal, len, contains, blocking_clause, literals, hash, eq", "src/datastructures/model.rs: from_literals, literals, compare, From"]}
{"id": "C67", "title": "Solving ends", "statement": "Every search of the CDCL solver ends within 3^n rounds, and every call of solve ends with the right answer, after any sequence of calls; so do enumeration, counting, backbones, optimization, is_sat, is_tautology and backbone simplification.", "quantifier": "all call sequences, clauses, assumptions and selection orders; all configurations with clause minimization whose restart budgets satisfy a stated condition", "why_tests_cant": "A test that ends says nothing about other inputs, and a test cannot observe that a call never ends; the number of states is exponential.", "anchors": ["src/solver/minisat/sat/minisat2.rs:433-465 solve", "src/solver/minisat/sat/minisat2.rs: search, record, cancel_until, luby", "src/solver/functions: enumerate_models, compute_backbone, optimize", "src/operations/predicates/sat.rs"]}
{"id": "C68", "title": "Random formulas keep to their configuration", "statement": "A random formula of maximal depth d has at most this depth, contains only variables of the configuration and constraints within the configured bounds, and no sub-formula of a kind with weight 0; a random conjunction (disjunction, implication, equivalence, negation) is one; no call panics or loops for a sensible configuration.", "quantifier": "all configurations, depths and sequences of random numbers", "why_tests_cant": "The tests use one seed and a few configurations; the numbers of operands after flattening and configurations on which no result exists are not among them.", "anchors": ["src/util/formula_randomizer.rs:635-673", "src/util/formula_randomizer.rs:724-1136"]}
{"id": "C69", "title": "Table sizes come from a correct search for primes", "statement": "prime_gte(n) and prime_lte(n) end without a panic with the nearest prime not below (not above) n, up to a negligible probability of a composite number; the table of nodes of a BDD kernel therefore gets larger with every resize.", "quantifier": "all n, all sequences of random numbers", "why_tests_cant": "The test of primality is randomized: a run shows nothing about other random numbers, and the probability of accepting a composite number needs a count over all of them.", "anchors": ["src/knowledge_compilation/bdd/bdd_prime.rs:1-94", "src/knowledge_compilation/bdd/bdd_kernel.rs:113", "src/knowledge_compilation/bdd/bdd_kernel.rs:517-523"]}
{"id": "C70", "title": "The numbers a BDD reports about itself are right", "statement": "node_count is the number of functions that fixing the first variables of the ordering leaves and that depend on the next variable; variable_profile has the number of these for each variable; number_of_clauses_cnf and number_of_terms_dnf are the numbers of clauses and terms of the formulas that cnf and dnf return; no mark bit is left behind.", "quantifier": "all reachable kernels, all readable handles", "why_tests_cant": "The counts depend on sharing in the whole node table after any sequence of operations, garbage collections and resizes; the claim about subfunctions quantifies over all assignments.", "anchors": ["src/knowledge_compilation/bdd/bdd_kernel.rs:226-258", "src/knowledge_compilation/bdd/bdd_operations.rs:75-115", "src/knowledge_compilation/bdd/bdd_operations.rs:302-313", "src/knowledge_compilation/bdd/bdd_main.rs:88-126"]}
{"id": "C71", "title": "Cardinality constraints on a solver can be tightened between calls", "statement": "After any interleaving of add_incremental_cc, new_upper_bound_for_solver, new_lower_bound_for_solver, added clauses and solver calls, a SAT answer comes with a model of the clauses, of all constraints with their current bounds and of the assumptions; after an UNSAT answer there is none; no legal call panics; an assignment of the user's variables extends to a model of the solver's clauses exactly if it satisfies the clauses and the current bounds.", "quantifier": "all solver states reached by earlier calls, all sequences of legal calls, any number of constraints, all encoders", "why_tests_cant": "The auxiliary variables of several constraints must be choosable together for every later sequence of bounds; the solver keeps learnt clauses from before a bound was tightened.", "anchors": ["src/solver/minisat_solver.rs:264-283", "src/cardinality_constraints/cc_incremental_data.rs:54-153", "src/cardinality_constraints/cc_encoder.rs:85-97", "src/datastructures/encoding_result.rs:164-180"]}
{"id": "C72", "title": "Hash-consing tables can be shared by threads", "statement": "Every execution of get_or_insert and lookup by any number of threads is linearizable with respect to the sequential table: equal keys get equal handles and different keys different ones, whichever threads ask and whenever; a thread that received a handle from another thread's insertion can read the entry without panic and finds the key it asked for; no call deadlocks.", "quantifier": "all interleavings of any number of threads, all keys, all shard assignments", "why_tests_cant": "The window between the unlocked first check and the locked second one, and the visibility of an entry pushed by another thread, depend on interleavings and memory orders that a test does not control.", "anchors": ["src/formulas/formula_cache/simple_cache.rs:29-41", "src/formulas/formula_cache/var_cache.rs:28-45", "src/formulas/formula_cache/not_cache.rs:37-59", "src/formulas/formula_cache/equivalence_cache.rs:40-58", "src/formulas/formula_cache/nary_formula_cache.rs:56-79", "src/collections/append_vec.rs:100-180"]}
{"id": "C73", "title": "Node counts are exact", "statement": "number_of_nodes is the number of places in the tree of the formula (literals of constraints included), number_of_internal_nodes the number of different sub-formulas, number_of_operands the number of direct sub-formulas, in every reachable cache state.", "quantifier": "all formulas, all earlier calls", "why_tests_cant": "Unbounded formulas and cache histories; the counters only overflow for formulas with more than 2^64 places, which sharing makes small.", "anchors": ["src/operations/functions/sub_node_function.rs:154-244"]}
{"id": "C74", "title": "Cardinality encodings decide by unit propagation", "statement": "On the clauses of an at-most-one encoding, one variable true makes unit propagation set all others false. On the clauses of the k-encodings unit propagation runs into a contradiction as soon as the assumed literals exceed the bound, and sets all remaining variables as soon as they reach it.", "quantifier": "all variable lists, all bounds, all encoder configurations, all sets of assumed literals, all states of the encoding result", "why_tests_cant": "An encoding with this property and one without have the same models; tests of satisfiability never see the difference, only the running time of the solver does.", "anchors": ["src/cardinality_constraints/cc_amo_ladder.rs:6-20", "src/cardinality_constraints/cc_amo_product.rs:13-40", "src/cardinality_constraints/cc_amo_commander.rs:20-56", "src/cardinality_constraints/cc_amo_nested.rs:10-28", "src/cardinality_constraints/cc_amo_binary.rs:8-47", "src/cardinality_constraints/cc_amo_bimander.rs:8-84", "src/cardinality_constraints/cc_totalizer.rs:14-144"]}
{"id": "C75", "title": "Pseudo-Boolean encodings decide by unit propagation", "statement": "On the clauses of a pseudo-Boolean encoding unit propagation runs into a contradiction as soon as the coefficients of the assumed literals exceed the bound, and it sets every literal false for whose coefficient there is no more room.", "quantifier": "all lists of terms with positive coefficients, all bounds, all encoder configurations, all sets of assumed literals, all states of the encoding result", "why_tests_cant": "Encodings with and without this property have the same models; whether propagation suffices depends on every partial assignment of every constraint.", "anchors": ["src/pseudo_booleans/pb_swc.rs:6-36", "src/pseudo_booleans/pb_binary_merge.rs:17-234", "src/pseudo_booleans/pb_adder_networks.rs:6-157", "src/pseudo_booleans/pb_encoder.rs:54-83"]}
{"id": "C76", "title": "CNFs decide a formula by unit propagation", "statement": "For a formula without cardinality and pseudo-Boolean constraints, unit propagation on the clauses of its CNF (factorization, Tseitin, Plaisted-Greenbaum or advanced), from the values of the variables of the formula alone, runs into a contradiction exactly if the formula is false; without Plaisted-Greenbaum it derives the values of all new variables, and they are a model of the CNF. The same holds of the clauses Plaisted-Greenbaum on the solver adds for a sequence of formulas: propagation runs into a contradiction exactly if one of the formulas is false.", "quantifier": "all formulas without constraints, all assignments, all reachable states of factory and encoder (caches of earlier transformations), all bounds", "why_tests_cant": "Propagation has to reach a contradiction for every assignment of unboundedly many formulas, and the clauses are simplified, shared and restricted on the way.", "anchors": ["src/operations/transformations/cnf/tseitin.rs:10-88", "src/operations/transformations/cnf/plaisted_greenbaum_on_formula.rs:8-78", "src/operations/transformations/cnf/advanced.rs:10-33", "src/operations/transformations/cnf/mod.rs:42-69", "src/operations/transformations/cnf/plaisted_greenbaum_on_solver.rs:41-310"]}
{"id": "C77", "title": "CNFs with new variables have linear size", "statement": "For a formula that is no CNF, whose negation normal form is no CNF either and has at least as many atoms as the boundary, the Tseitin CNF has at most k + 1 clauses with 3k + 1 literals in total for each distinct node with k operands of the negation normal form, and Plaisted-Greenbaum at most k clauses of two literals for a conjunction and one clause of k + 1 literals for a disjunction; both make at most one new variable per distinct node. The same should hold of Plaisted-Greenbaum on the solver without negation normal form.", "quantifier": "all formulas, all boundaries, all reachable states of factory and encoder (caches of earlier transformations)", "why_tests_cant": "A bound on the size of the results for unboundedly many formulas with shared subformulas and for all earlier uses of the encoder state.", "anchors": ["src/operations/transformations/cnf/tseitin.rs:10-88", "src/operations/transformations/cnf/plaisted_greenbaum_on_formula.rs:8-78", "src/operations/transformations/cnf/plaisted_greenbaum_on_solver.rs:198-261"]}
{"id": "C78", "title": "The at-most-one encodings have the sizes they are chosen for", "statement": "On n variables the pure encoding writes n(n-1)/2 clauses and no new variable, the ladder 3n-4 clauses and n-1 new variables, the product encoding at most 14n and 2n + (b + 28)r clauses and 14r new variables for r at least the square root of n and recursion bound b, nested at most (g + 2)(n - 2)/2 clauses (3n - 6 for the smallest groups) and n - 3 new variables, commander at most (3k + 7)n/2 clauses and 2n new variables for groups of k, binary at most n log n clauses and log n new variables, bimander with m groups of at most g at most n(g-1)/2 + n log m clauses and log m new variables, and the default encoding is linear.", "quantifier": "all lists of variables, all parameters for which the encoders return, all states of the encoder", "why_tests_cant": "Bounds for all lengths and parameters; the recursive encoders introduce new lists of variables whose lengths depend on roundings on every level.", "anchors": ["src/cardinality_constraints/cc_amo_pure.rs:6-12", "src/cardinality_constraints/cc_amo_ladder.rs:6-20", "src/cardinality_constraints/cc_amo_product.rs:7-48", "src/cardinality_constraints/cc_amo_nested.rs:6-28", "src/cardinality_constraints/cc_amo_commander.rs:6-56", "src/cardinality_constraints/cc_amo_binary.rs:8-47", "src/cardinality_constraints/cc_amo_bimander.rs:8-84"]}
{"id": "C79", "title": "The sizes of the totalizer encodings", "statement": "On n variables with bound k and n <= 2^e, the totalizer for at most k writes at most n e + 3(k + 2)n/2 + n clauses (and never more than n(n-1)/2 + n e + n), that for at least k exactly n(n-1)/2 clauses, one per new variable and k units, however small k is, that for exactly k between n(n-1)/2 and n(n-1) + 2 n e + n clauses; each makes at most n e new variables.", "quantifier": "all lists of at least two variables, all bounds, all states of the encoder", "why_tests_cant": "The tree of the totalizer has unboundedly many shapes, and the bound k n is reached only by summing over all its levels.", "anchors": ["src/cardinality_constraints/cc_totalizer.rs:14-144"]}
{"id": "C80", "title": "Sizes of pseudo-Boolean encodings", "statement": "For n weighted literals with sum at most k the sequential weighted counter writes exactly c1 + (n-1)(2k+1) clauses over exactly n*k new variables, so its size is exponential in the number of digits of k, and PbAlgorithm::Best always takes it; adder networks write at most 20*n*b clauses over at most 2*n*b new variables, where b is the number of bits of k.", "quantifier": "all weighted literals, all right-hand sides, all states of the variable counters", "why_tests_cant": "A test measures single constraints; the bounds and the gap between the two algorithms hold for constraints of every size, including those whose counter encoding does not fit into memory.", "anchors": ["src/pseudo_booleans/pb_swc.rs:6-36", "src/pseudo_booleans/pb_adder_networks.rs:6-161", "src/pseudo_booleans/pb_encoder.rs:54-83"]}
{"id": "C81", "title": "The sizes of the cardinality networks", "statement": "On n variables with n <= 2^e, the cardinality network for exactly k, and that for at most k with k > n/2, make at most n e(e+1)/2 new variables with at most three clauses each and at most n further units. For at most k with k <= n/2 (n >= 20), and for every incremental at-most constraint, the code writes a sequential counter instead: exactly (k+1)(2n-k)/2 new variables and (k+1)(2n-k) - k clauses; likewise for at least k with n - k in the place of k.", "quantifier": "all lists of variables (at least 20 for the exact counts), all bounds, all states of the encoder", "why_tests_cant": "The recursion of sorters and mergers has unboundedly many shapes; that at-most constraints are quadratic where exactly constraints are not shows in the formulas for all n only.", "anchors": ["src/cardinality_constraints/cc_cardinality_networks.rs:8-69", "src/cardinality_constraints/cc_sorter.rs:14-279"]}
{"id": "C82", "title": "The size of the modular totalizer", "statement": "For at most k of n variables, k < r^2 and n <= 2^e, the default encoder (the modular totalizer with its trivial cases) writes at most 12 r n + 2 n clauses and makes at most n (e + 3) new variables: its size grows with the square root of the bound. The same holds for at least k with n - k in the place of k.", "quantifier": "all lists of variables, all bounds, all states of the encoder, incremental or not", "why_tests_cant": "The bound needs the sum over all nodes of trees of every size, those smaller and those larger than the modulus.", "anchors": ["src/cardinality_constraints/cc_modular_totalizer.rs:20-305", "src/cardinality_constraints/cc_encoder.rs:129-170"]}
{"id": "C83", "title": "Enumerating the models of a formula", "statement": "enumerate_models_for_formula(_with_config) on a formula without new auxiliary variables (or a CNF), in any state of the factory and its caches: without a limit on the number of models the call ends without panic; asked for some variables of the formula (not auxiliary ones, which are kept out of models), every reported model is the restriction of a model of the formula, and every model of the formula agrees with exactly one reported model on these variables. Asked for all models, every reported model gives a value to every variable of the formula that is not auxiliary, extends to a model of the formula, and every model of the formula agrees with exactly one of them on the variables reported, which are the variables of the formula that are not auxiliary.", "quantifier": "all formulas the factory can build, all histories of factory calls, all lists of variables and additional variables", "why_tests_cant": "The result depends on the encoding of the formula, on clauses learnt by the solver between models and on caches of the factory; tests compare counts for a few formulas.", "anchors": ["src/solver/functions/model_enumeration.rs:128-160", "src/solver/minisat_solver.rs:93-130", "src/solver/minisat_config.rs:74-96"]}
{"id": "C84", "title": "Encodings of constraints introduce no foreign variables", "statement": "The clauses returned by encode of a cardinality or pseudo-Boolean constraint, with any configuration of algorithms and whether computed or taken from a cache filled by any earlier encodings, are only about variables of this constraint and auxiliary variables made during the run. A cardinality constraint written to a solver only uses its own variables and auxiliary variables made by this call. Normalization of a pseudo-Boolean constraint introduces no variables, even on overflow.", "quantifier": "all lists of constraints, all configurations of algorithms and caches, all counters of auxiliary variables", "why_tests_cant": "A wrong index or a stale cache entry can tie an encoding to another constraint's variables without changing the models of a constraint encoded alone; tests encode constraints one at a time.", "anchors": ["src/cardinality_constraints/cc_encoder.rs:33-201", "src/pseudo_booleans/pb_encoder.rs:24-83", "src/formulas/pbc_cc.rs:260-270", "src/formulas/pbc_cc.rs:407-417", "src/formulas/pbc_cc.rs:497-536", "src/formulas/pbc_cc.rs:636-700"]}
{"id": "C85", "title": "Transformations introduce only auxiliary variables", "statement": "In any sequence of nnf, factorization and CNF encoder calls on one factory, with any configuration of caches and encoders and with formulas containing cardinality and pseudo-Boolean constraints, every named variable of a result is a variable of its input, and all auxiliary variables of a result exist in the factory, so that they are never created again.", "quantifier": "all formulas the factory can build, all sequences of calls, all encoder states and configurations", "why_tests_cant": "A foreign variable would come from a cache or an encoder state filled by an earlier call for another formula; tests use a new factory or few calls.", "anchors": ["src/operations/transformations/nnf/mod.rs:60-110", "src/operations/transformations/cnf/mod.rs:42-120", "src/operations/transformations/cnf/tseitin.rs:10-90", "src/operations/transformations/cnf/plaisted_greenbaum_on_formula.rs:8-85"]}
{"id": "C86", "title": "Adding a formula makes exactly its variables known to the solver", "statement": "In any state of a solver and its factory, after adding a formula (which may contain cardinality and pseudo-Boolean constraints) with any of the CNF methods, the named variables known to the solver are exactly those known before and those of the formula; adding it as a proposition makes no other named variables known. So models and enumerations never mention variables of formulas that were only in a cache.", "quantifier": "all formulas the factory can build, all sequences of calls, all CNF methods and configurations of the encoders", "why_tests_cant": "A foreign variable would come from a cache of the factory or of the solver filled for another formula; tests use few formulas and mostly new factories.", "anchors": ["src/solver/minisat_solver.rs:86-162", "src/solver/minisat_solver.rs:342-355", "src/operations/transformations/cnf/plaisted_greenbaum_on_solver.rs:1-300"]}
