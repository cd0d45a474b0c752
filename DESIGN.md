# Formal model of logicng-rs in Lean 4

The model lives in `lean/Verif/`. Each definition that models code carries a comment naming the file and lines in
`/repo` it models and any simplification. Property ids (C01 ...) refer to `properties.jsonl`; `MANIFEST.json` maps them to
theorem names. The property theorems stand in `lean/Verif/Props/`, with a concrete case beside each; everything else is
model, specification or helper lemma. `seeded/LOG.jsonl` records the wrong programs the theorems were tested against.

## Conventions

* A `&mut` argument becomes an argument and a result. Loops are folds, structural recursions or recursions with fuel.
* Panics are visible: `Option.none`, or `Out`/`Res` with a case `panic`. A theorem that a function is total therefore says that no
  `unwrap`, index or `assert!` fails. Where fuel is used, either it is proved to suffice or running out is a case of its own (`Res.diverge`).
* Machine integers are `Nat`/`Int` where the theorem carries a size hypothesis or the code cannot reach the bound; where the code
  truncates or wraps (handles, right-hand sides, hash values) the model does too.
* Hash maps are association lists or functions; iteration order that the code takes from a hash map is a parameter of the theorem.
* Floating-point numbers (activities of the solver) are an arbitrary linear order with arbitrary operations: they steer the search only.

## Layers

| directory | content |
|---|---|
| `F/` | handles (`Encoding`), the factory state machine (`Factory*`), formulas as trees and their meaning (`Formula`), constructors on trees (`Cons`), predicates and functions with caches (`Funcs`), restriction, substitution, NNF, factorization, Tseitin, Plaisted-Greenbaum, pure expansion, anonymization, normalization and encoding of constraints, subsumption |
| `Enc/` | at-most-one, totalizer, modular totalizer, sorters, cardinality networks, incremental bounds, which variables the clauses are about (`Clean`), adder, sequential weight counter, binary merge |
| `DS/` | heap, UBTree, append-only vector (with threads), Luby sequence |
| `Bdd/` | kernel with node table, hash chains, garbage collection, caches, reference counts; construction; operations; counting; enumeration |
| `Sat/` | CDCL solver: clause store, watches, propagation, conflict analysis, minimization, clause deletion, restarts, assumptions, save/load; `MiniSat` with names; enumeration; backbones; encodings written to the solver; optimization |
| `Props/` | the property theorems |

## Specifications

Each theorem is stated against definitions that do not use the functions of the model:
`Formula.eval` (meaning of a formula), `Den s h f` (a handle unpacks to a tree), `Encodes s s' C` (clauses restrict a model to property `C` up to
fresh variables), `Models`/`Sats`/`litT` (clause sets), `Spec`/`NSpec` (what the user of the solver expects it to contain), `Forced` (backbone),
`Kernel.value` (follow the branches of a BDD), `lubySpec`, sets of lists for UBTree and heap.

## Properties

| id | modelled | proof | status |
|---|---|---|---|
| C01 | bit layout of `FormulaEncoding` | arithmetic of div/mod | proved below the bit bounds, with witnesses that these are needed |
| C02 | factory caches | monotone extension over call sequences | proved |
| C03-C07 | factory constructors on handles | state invariant + refinement to constructors on trees | proved while no table exceeds 2^26 entries; beyond that false, with witnesses |
| C08 | `cc`, `pbc`, `amo`, `exo` | integer arithmetic | proved but for `pbc` with rhs >= 2^32 (code truncates, witness) |
| C09, C10 | restrict, substitute | induction over formulas | proved while sums stay in machine range; witnesses beyond |
| C11-C13 | NNF, factorization with handlers and caches | invariant of all caches over call sequences | proved |
| C14, C15 | Tseitin, Plaisted-Greenbaum (on formulas and on the solver), `CnfEncoder` | definitional extension, freshness invariant; for the solver variant the clauses added so far define the polarities flagged in the cache, except those in progress | proved; `CnfAlgorithm::Bdd` is not covered |
| C16, C17, C50-C52 | predicates and functions with caches | induction, cache invariant | proved (C16 `is_cnf` while tables stay below 2^26, false beyond: `C16_large_counterexample`; C50 while sums stay in range, false beyond; C52 while counts stay below 2^64) |
| C18-C20 | constraint objects | integer arithmetic | proved in machine range, witnesses beyond |
| C21-C24 | at-most-one and cardinality encoders, dispatch | soundness and completeness of clauses | proved |
| C25 | incremental bounds | as above, over sequences of bounds | upper bounds proved; lower bounds above n are wrong in the code (witness) |
| C26 | pseudo-Boolean encoders and entry points | as above | proved |
| C27 | auxiliary counters | invariant over call sequences | proved |
| C28-C32 | CDCL solver | invariant of the whole state (watches, trail, reasons, levels, heap, implied clauses) | proved for calls that end, without `ClauseMinimization::None` and without loading states while two clauses are equal (both wrong in the code, witnesses) |
| C33, C34 | enumeration, backbones on the solver | refinement on top of C28/C29 | as C28; auxiliary variables as projection variables excluded (witness) |
| C35 | optimization on the solver, with selectors and incremental cardinality constraints | loop invariant on top of C25 and C28 | as C28; selectors must be unused (witness) |
| C36-C40, C53, C54 | BDD package | node-table invariant, decision trees as specification | proved but for: constraints below negations (C36, witness), results of quantification are not referenced (C38, witness) |
| C41, C42 | heap, UBTree | invariants | proved but for `remove` (C41) and the empty set (C42), witnesses |
| C43 | subsumption | semantic equivalence | proved |
| C44 | append-only vector | transition system with release/acquire views, any number of threads | proved |
| C45 | printer; the grammar as parsing functions on characters, rule by rule; construction of the formula | follow sets for each level of the grammar; induction over formulas | partial: false for implications nested to the left and for some auxiliary names |
| C46 | `model_count.rs` on top of pure expansion, the CNF encoders, restriction and BDDs; counting on d-DNNFs; the variable ordering is a parameter, or FORCE (C59) | auxiliary variables of the Advanced/Tseitin CNF are determined; bijections between sets of models | partial: false for verum over non-empty variables, panics on constraints other than AMO/EXO, and with BDDs does not end on some formulas (finding 25); with sharpSAT see C62 |
| C55 | `dnnf_compiler.rs`, `dnnf_sat_solver.rs`, dtree construction and queries, on the solver model; the steps before it in `compile_dnnf` on the models of C58, C57 and subsumption; orders of literals and names are parameters | invariant of the search without conflicts, residual formula of a subtree as specification, induction over the recursion; runs evaluated in the kernel for the counterexamples | partial: right for all runs without a conflict, false in general (witnesses for the compiler and for whole runs of `compile_dnnf`) |
| C56 | `MiniSat::add` with all three CNF methods and constraints, the variable cache, `load_state`, `add_proposition`, together with the factory and its caches | invariant that couples the clauses on the solver (C28-C35), the factory's caches (C14) and the variable cache (C15) | as C28 |
| C57 | `is_sat`, `is_tautology` with their cache, each call with a new solver in the current factory | invariant on the caches; C56 for one formula | proved for calls that end |
| C58 | `backbone_simplification` with its cache | C34 through C56, and C09 for the restriction; the clauses on the solver fix the backbone of the counterexample | partial: as C09, for calls that end; false outside the bounds of C09 (witness) |
| C59 | the four orderings and FORCE with its hypergraph; floating point numbers are rationals, every operation followed by a rounding function (any function, or IEEE 754 to nearest, `f64_nearest`) | first occurrences of a list; levels of the queue; sorting; invariant of the hypergraph | proved except for FORCE, which may not end: `C59_force_endless` |
| C60 | `CnfAlgorithm::Bdd` as composition of the BDD model | C36 and C40, and that construction registers exactly the formula's variables | proved without constraints, panics with them: `C60_constraint_panics` |
| C61 | `maxsat_solver.rs`, `maxsat_ffi.rs`: translation to weighted clauses, selectors, status and model; the library OpenWBO is an argument | invariant over sequences of calls that couples clauses, CNFs and selectors through C14; a right answer for the clauses is one for the formulas | proved for formulas without selector names (witness) and until the first `solve` |
| C62 | `sharpsat.rs`: translation to clauses; the library is an argument | bijection between assignments of numbers and of variables | proved for formulas other than verum; false with verum (witness) |
| C63 | `formula_on_solver`, `up_zero_literals`, `known_variables`, `reset` of `minisat_solver.rs` | invariant: without `load_state` a variable of level 0 is assigned (`Sat/Zero.lean`); clauses and level-0 literals are equivalent to what was added | partial: clause minimization on; `formula_on_solver` is wrong after `load_state` (witness), `reset` keeps old states valid (witness); for `up_zero_literals` soundness, and that they are the trail, but not that propagation is complete |
| C64 | `generate_n_queens` of `util/n_queens_generator.rs`, on top of `mkCc` and `nnf` | the six families of constraints say that no two queens attack each other; equivalence by `nnf_ok` (C40 family) | proved for `0 < n`, `n + 1 < 2^30`; for `n = 0` the code panics (witness) |
| C65 | `read_cnf_with_prefix`, `read_formula`, `write_formula` on the contents of files; lines and splitting as in the standard library and `regex` | the text of a formula has no line ends, so C45 applies line by line; DIMACS files as a grammar of their own, split back into words | partial: formula files as far as C45 goes; DIMACS files with one clause per line proved, blanks after the closing `0` panic (proved) |
| C66 | `Assignment` and `Model` without names (`datastructures/assignment.rs`, `model.rs`) | sets as lists without duplicates in any order; membership lemmas | proved; an assignment with both values for a variable can make an unsatisfiable formula true (witness) |
| C67 | `search`, `solve` and the functions built on it, with a number of rounds as fuel | the trail as a ternary number strictly grows in every round of `search`, so `3^n` rounds suffice; incremental mode: every conflict adds a clause or unit that is new, and there are at most `4^n + n`; results do not depend on fuel once it suffices (`Conv`) | partial: condition `Ends` on the budgets of restarts; false for budgets 0 (`C67_zero_budget_counterexample`) |
| C68 | `FormulaRandomizer`, random numbers as an arbitrary stream, `f32` as a type with arbitrary operations (exact rationals for the weights), recursion with fuel | rules for results of the generator, one induction over the recursion for every property that all steps keep | partial: depth, variables, bounds, kinds; false: bound on operands of conjunctions, some configurations never yield a result |
| C69 | `bdd_prime.rs`, random numbers arbitrary for each candidate and attempt, overflow as panic | what the loop of `is_witness` computes, by induction over the bits; Fermat and roots of 1 in a field for primes; numbers that pass for a composite number lie in a proper subgroup of the units (Rabin), so at most half of them; Bertrand for the end of the search; that a table grows: a chain of 21877 primes at most 50000 apart, each with a Pocklington certificate checked by the kernel (`Bdd/PrimeGap.lean`) | partial: a composite number may be accepted (chance at most 2^-20 for each), primes from 2^31 on are rejected |
| C70 | `mark_count`, `unmark`, `node_count`, `var_profile`, `variable_profile`, on the kernel of C37 with the mark bits as a function | nodes newly marked by a traversal, the distinct subtrees below the root; a reduced ordered tree has one subtree for each function left after fixing the first variables that depends on the next one; the paths exclude one another, so that the clauses (terms) are distinct and not complementary and none is dropped | partial: `variable_profile` panics if a kernel variable has no name |
| C71 | `add_incremental_cc`, `new_upper_bound_for_solver`, `new_lower_bound_for_solver` on the solver of C33–C35, with the field `result` and `model` | invariant over calls: every assignment that respects the current bounds can be changed on auxiliary variables to satisfy all clauses, and at once the clauses of every tighter bound it respects | partial: no clause minimization (C28) and lower bounds above the number of variables (C25) excluded; `model` returns an outdated model after a bound was tightened |
| C72 | `get_or_insert`, `lookup` of the formula caches on a `DashMap` (shards with read-write locks) and the append-only vector of C44, any number of threads | invariant relating map, locks, views and vector to a sequential table; effects of calls replayed on `Cache.getOrInsert`/`Cache.find` of the factory model | proved; the locks of `dashmap` are assumed |
| C73 | `number_of_nodes`, `number_of_internal_nodes`, `number_of_operands`; the `u64` counters and the memory asked for by Plaisted-Greenbaum | places of the tree as paths, cache invariant; counters modulo 2^64 | proved below 2^64; counterexamples beyond |
| C74 | the clauses of the cardinality encodings (models of C21 to C24) | `UP`: what unit propagation derives, as an inductive predicate; any set closed under propagation, induction over the encoders, the totalizer as a tree of adders; for the cardinality networks what mergers and sorters propagate, by cases on the parity of the counts | proved for all at-most-one encodings, the totalizer and the cardinality networks; false for the modular totalizer (finding 37) |
| C75 | the clauses of the pseudo-Boolean encodings (models of C26, `encodeInternal`) | `UP` as in C74; sequential weight counter: prefix and suffix weights; binary merge: what the bit loop propagates from the carries on, per guarded block; adder networks: all literals of all clauses are decided once the inputs are, so the decided values are a model | proved for the sequential weight counter and binary merge with `gac`; false for binary merge without `gac` and for adder networks (finding 38), what remains is proved |
| C76 | the clauses of the CNF algorithms (models of C14, C15) | `UP` as in C74; a set of literals closed under propagation is described by the truth values of the clauses (`SC`, F/Propagate.lean), so that `or`, flattening, sharing and the restriction by the top literal do not matter; induction over the definitions, carried in the invariants of the Tseitin and Plaisted-Greenbaum states; on the solver (F/PgSolverUp.lean) an invariant of the variable cache by polarity | proved; new variables of Plaisted-Greenbaum can stay open (`C76_pg_open`) |
| C77 | the clauses of Tseitin and Plaisted-Greenbaum (models of C14, C15) | every clause of the cached CNF of a node is one of the clauses of its nodes, whose literals are read off the variable map (`TsSz`, `PgSz`); the restriction by the top literal and the factory do not make clauses longer or more (`msum_restrict`); new variables by a potential that counts nodes without variable | proved for both on formulas; false of full Plaisted-Greenbaum on the solver (finding 39) |
| C78 | the at-most-one encoders (model of C21) | `Adds` counts clauses and new variables; induction over the recursion with the inequalities of the grid (`grid`), the additive measure n - 2 for nested, ⌈n/k⌉ ≤ 2n/3 for commander | proved |
| C79 | the totalizer (model of C24) | sizes of subtrees (`TotSz`): pairs of inputs are separated by exactly one node, outputs of inner nodes sum up to n log n, and with bound K = k + 2 the pairs are at most 3Kn/2 because nodes above size K cost K²/2 each; exact count for at-least | proved |
| C80 | the encoders of C26 but binary merge | exact count of each row of the counter; every adder uses up one literal of the buckets, so the number of adders is bounded by the number of one bits | proved |
| C81 | cardinality networks (model of C24) | every comparator output is new and costs three clauses; merging halves the longer input, sorting halves the input; exact sums for the counter | proved |
| C82 | modular totalizer (model of C24) | nodes below the modulus have no upper outputs and cost (a+1)(b+1), nodes above cost a constant times the square of the modulus and halve; potential `ModBnd` carried through the recursion | proved |
| C83 | `enumerate_models_for_formula(_with_config)` as adding the formula to a new solver (C56) followed by enumeration (C33, C67) | models of the clauses and of the formula correspond (C56), all variables of the formula are on the solver (C63), enumeration is exact on the solver (C33) and ends (C67), clauses contain only variables of the formula and auxiliary ones (C84, and an invariant of the caches of the factory) | proved |
| C84 | the encoders, dispatchers, normalization and caches of C21-C26 | a predicate on variables that holds for the operands and all new auxiliary variables is kept by every encoder (Enc/Clean.lean, Enc/Clean2.lean, Enc/PbClean.lean) and by the caches (F/EncVars.lean); well-formedness (C26) bounds the numbers of the auxiliary variables | proved |
| C85 | the transformations of C11-C15 in any sequence of calls | the variables of every entry of a cache or of an encoder state are bounded by those of its formula, as part of the invariant of the factory (`TrOk.aux`, `TsDef.aux`, `PgDef.aux`, `VarsInv`) | proved |
| C86 | `add`, `add_all` and `add_proposition` in any state reached by solver and factory calls (C56) | variables of clauses by C84 and C85; the cache of the solver contains only auxiliary variables (induction over the calls) | proved |
| C47 | pure expansion, anonymizer | induction over formulas; invariant of the renaming over call sequences | proved |
| C48 | conflict over assumptions; `add_proposition`, the proof log of the solver, `drup_trim.rs`, `unsat_core_function.rs` | solver invariant; trimmer: invariant that falsified literals follow by unit propagation from marked clauses, for arbitrary proofs; syntactic invariant of the log; propositions coupled to clauses through the auxiliary variables (C56) | partial: right for propositions, false if formulas share auxiliary variables with propositions; may panic |
| C49 | `luby` | equality with the recursive definition | proved |

## Not modelled

* Tables: growth of hash maps, allocation failure, `Drop`, iterators of the append-only vector.
* Factory: concurrent use except for the append-only vector (C44) and the hash-consing tables (C72); the documentation rules out concurrent use of a whole factory.
* Solver: floating-point arithmetic; clause-store aliasing beyond what `Rc` identity gives.
* `CnfAlgorithm::Bdd` as part of other algorithms (on its own it is C60), graphical output, errors of the operating system with files.
* External libraries: OpenWBO and sharpSAT (their answers are arguments of the model), their error codes and statistics.
* Any bound of memory or stack.

## Trusted base

The Lean 4.33.0 kernel; the axioms `propext`, `Classical.choice`, `Quot.sound` (no others; checked with `#print axioms`); and the reading of
the Rust code that turned it into the model. No own axioms, no `sorry`, no `native_decide`, no `bv_decide`. Concrete witnesses use `decide` and
`decide +kernel`, which the kernel evaluates.

## Findings: where the code does not do what the property says

A theorem name means that the witness is proved about the model.

1. `filter_flatten`/`contains_complement` compare handles truncated to 32 bits (`C04_large_counterexample`); `is_large` is local to a call (`C05_large_counterexample`) and stays set for operands that are dropped, so the same conjunction gets two handles (`C03_large_counterexample`); negating an equation can drop `>` (`C18_large_counterexample`), which also spoils implications and equivalences (`C07_large_counterexample`).
2. `rhs as u32` truncates right-hand sides of pseudo-Boolean constraints (`C08_rhs_truncated`, `C09_truncated_counterexample`, `C10_truncated_counterexample`).
3. Indices from 2^58 lose bits (`C01_index_overflow_collides`); auxiliary names with a larger number make `parse::<u64>().unwrap()` panic.
4. `to_string` prints `(a => b) => c` and `a => (b => c)` alike, and parsing gives the latter (`C45_left_implication`); auxiliary variables of type `TMP`, and all of them if the identifier given to `with_id` has other characters than digits and capital letters, are parsed as user variables (`C45_foreign_auxiliary`).
5. `contains_node(~a, a)` is false (`C51_contains_node`).
6. Counters of auxiliary variables are not advanced when a user parses a reserved name.
7. `i64` overflow in restriction, normalization and evaluation (`C19_overflow_counterexample`, `C20_overflow_counterexample`); `AuxVarType::from_str("TMP")` gives `PB`.
8. `ClauseMinimization::None` is unsound: literals are not removed from `seen` (`C29_none_counterexample`).
9. `detach_clause` compares clauses by content: with two equal clauses, one of which is older than a saved state, loading that state keeps the wrong one attached and later answers are wrong (`C32_twins_counterexample`).
10. `restart_first = 0` makes `solve` loop (`C67_zero_budget_counterexample`); `MiniSat::reset` keeps `valid_states`, so that an old state can be loaded into the empty solver (`C63_reset_wrong`); a selection order naming variables removed by `load_state` panics.
11. `LT 0` underflows in the cardinality encoder; parameters of at-most-one encoders for which they do not end (`C21_amo_bad_parameters`); repeated variables panic in cardinality networks (`C24_repeated_variable_panics`).
12. A lower bound above n is not enforced by incremental totalizers (`C25_lower_bound_above_n_violated`).
13. `negate` twice does not give back an equation (`C06_negate_negate_counterexample`); equivalences of constraints depend on operand order (`C07_symmetry_counterexample`).
14. Assignments with both phases of a variable (`C50_both_phases`, `C39_both_phases`); substituting a formula into a constraint panics (`C10_panic`).
15. BDD results of `restrict`, `exists`, `for_all` are unreferenced (`C38_unreferenced_result`); projected enumeration repeats results (`C40_projection_duplicates`); normal forms panic on unregistered variables (`C40_normal_form_panics`); negated constraints (`C36_negated_constraint`); `model_count` multiplies by 2 for each unregistered variable.
16. Heap `remove` only percolates down (`C41_remove_counterexample`); UBTree drops the empty set (`C42_empty_set`).
17. Model enumeration projected to auxiliary variables reports the same model repeatedly (`C33_auxiliary_counterexample`); `count_models(max)` may return `max + 1` (example beside `C33_count_partial`).
18. `formula_on_solver` after `load_state`: `complete_backtrack` does not reset `level`, so literals `~v` appear for variables that are no longer assigned (`C63_loaded_wrong`).
19. Counting models of verum over non-empty variables returns 1 in `count_models_with_vars` and `count_models_conjunction_with_vars` (`C46_verum_wrong`); formulas with other constraints than AMO and EXO panic (`C46_constraint_panics`).
20. Optimization takes variables `@SEL_OPT0`, `@SEL_OPT1`, ... without looking whether they are in use (`C35_selector_counterexample`); on a solver that is not incremental it leaves its clauses behind, which usually makes the solver unsatisfiable (`C35_nonincremental_counterexample`).
21. Compilation to DNNF is wrong once a conflict has happened: a literal propagated by a learnt clause depends on decisions outside the subtree, but the component cache does not know them. A satisfiable CNF of ten variables (144 models) is compiled to `false` (`C55_false_wrong`), one of eight variables loses a model and is counted as 47 instead of 40 (`C55_lost_wrong`), one of six variables is counted as 13 instead of 11 (`C46_dnnf_wrong`). Whole runs of `compile_dnnf`: `C55_pipeline_false_wrong`, `C55_pipeline_lost_wrong`.
22. Unsatisfiable cores may have models: if a formula is added with `add` and shares a subformula with a proposition added before (methods `PgOnSolver` and `FullPgOnSolver`), the definition of the auxiliary variable counts as part of the proposition, but the proposition does not imply it (`C48_mixed_core`).
23. `compute_unsat_core` panics if the clauses were found to be unsatisfiable in a search under assumptions (or in `load_state` or a backbone computation): the empty clause is missing in the proof (`C48_no_core`). It also panics after `sat_with` without assumptions if an earlier search had some, because `last_computation_with_assumptions` is not reset (`C48_stale_assumptions`). A core can list a proposition several times, `dedup` compares neighbours only (`C48_repeated_core`).
24. A clause with a repeated literal is recorded as given but stored without the repetition and without a line in the proof; if it is deleted later, the trimmer does not find it and panics (read in the code; formulas never produce such clauses, only direct calls of `add_clause`).
25. `force_ordering` does not end on `(a | b) & (a | c | d) & (c | e | f) & (b | f) & (a | c | e) & (f | g) & (c | d | g) & (b | c | e)` (`C59_force_endless`): three locations are equal as rational numbers but not after rounding, in two orderings that alternate. Counting models with BDDs does not end on it either (`C46_bdd_endless`). With exact arithmetic the first iteration is the last (`C59_force_exact`). For formulas with constraints the ordering contains auxiliary variables (`C59_force_auxiliary`).
26. `CnfAlgorithm::Bdd` panics on formulas with constraints whose encoding needs auxiliary variables, e.g. `x0 + x1 + x2 + x3 <= 2` (`C60_constraint_panics`).
27. The MaxSAT solver takes variables `@SEL_SOFT_0`, `@SEL_SOFT_1`, ... without looking whether they are in use (`C61_selector_name`). Formulas added after `solve` are silently ignored (`C61_added_late`). A search without result discards the clauses, so the next `solve` works on an empty problem (`C61_inconclusive`). A problem without variables has an optimum but asking for the model gives `InvalidExternalResponse` (in `C61_model`). A refused soft formula leaves the definition of its selector behind, which does no harm.
28. `SharpSatSolver::add_cnf` with verum makes the count 1, whatever else was or will be added, even falsum (`C62_verum_wrong`).
29. `generate_n_queens` with `n = 0` panics (`n - 1` underflows, or row 0 is read without overflow checks; `C64_none_panics`).
30. `read_cnf` panics if a blank follows the closing `0` of a clause (`C65_trailing_blank_panics`) or a clause takes two lines (example in `Props/Files.lean`), which DIMACS allows. `read_formula` panics on a line that cannot be parsed (`C65_invalid_panics`); documented is an `io::Error`.
31. `Assignment` accepts both values for one variable; `evaluate` then makes both literals true, and an unsatisfiable formula can be true (`C66_both_values`).
32. `FormulaRandomizer`: `maximum_operands_and(2)` makes every random conjunction panic (the range `2..max` excludes the maximum, `C68_two_operands_panics`); flattening lets conjunctions exceed the maximum (`C68_operands_wrong`: 16 operands with maximum 5); with one variable in the default configuration every random conjunction, disjunction, implication and equivalence is searched for ever by unbounded recursion (`C68_one_variable_diverges`), also negations of depth 2 if only literals and negations have weights (`C68_negation_diverges`).
33. `bdd_prime.rs`: `number_of_bits` looks at 31 bits only, so that for numbers from 2^31 on the exponent is cut and primes are rejected (`C69_large_wrong`: a kernel with that many nodes would search practically for ever); `prime_gte(2)` is 3 and `prime_lte` panics for 0, 1 and 2 (`C69_small_wrong`, not reached from the kernel, which asks for at least 3); with unlucky random numbers a composite size results (`C69_unlucky_wrong`, harmless for the tables).
34. `Bdd::variable_profile` unwraps the variable of every index of the kernel: with a kernel made for more variables than occur so far it panics for every handle (`C70_profile_panics`), as `cnf` and `dnf` do (`C40_normal_form_panics`).
35. `add_incremental_cc`, `new_upper_bound_for_solver` and `new_lower_bound_for_solver` do not set `result` to `Undef` as `add` does: `model` then returns the model found before, which may violate the new bound, instead of panicking as documented (`C71_stale_model_violated`).
36. `number_of_atoms` and `number_of_nodes` sum up the tree of a formula in a `u64`, but sub-formulas are shared: `(g & a) | (g & b)` repeated 62 times has 192 different sub-formulas and 2^64 atoms together with `a` and `b`; the function returns 0 (`C52_overflow_counterexample`; with overflow checks it panics). The result decides between factorization and Tseitin or Plaisted-Greenbaum. `compute_transformation` of Plaisted-Greenbaum reserves memory for `number_of_atoms + 1` handles, for every n-ary node: already `shared` with 2^61 atoms (180 different sub-formulas) makes `Vec::with_capacity` panic (`C15_memory_counterexample`).
37. The default encoding of "at most k" and "at least k", the modular totalizer, does not decide by unit propagation: for "at most 2" of 5 variables, all five set and three of them true, propagation derives nothing but the literal of a unit clause and finds no contradiction (`C74_modular_counterexample`). Neither does it set the remaining variables when the bound is reached. The solver has to branch on the auxiliary carries. Totalizer and cardinality networks do not have this weakness.
38. Binary merge without its `gac` option does not set all forced literals (3a + b ≤ 3 and b: a stays open, `C75_binary_merge_counterexample`), and adder networks do not even see contradictions before all literals are set (3a + 3b + c + d ≤ 5 with a and b true, `C75_adder_counterexample`). Also, with `gac` and `binary_merge_no_support_for_single_bit` the final complete constraint lacks the last term if its coefficient is no power of two, because the loop of src/pseudo_booleans/pb_binary_merge.rs:33-87 does not put back the last element; this is harmless, that term has clauses of its own (`C75_complete`).
39. Full Plaisted-Greenbaum on the solver (`perform_nnf` off) is not linear: for a disjunction with positive and a conjunction with negative polarity src/operations/transformations/cnf/plaisted_greenbaum_on_solver.rs:226-243 joins the literals of the operands without a new variable ("Speed-Up: Skip pg var"). With shared subformulas below negations the clause doubles on every level: `d(n+1) = ~(~d(n) & p) | ~(~d(n) & q)` has 6n + 9 distinct subformulas, and the clause for it has at least 2^(n+1) literals (`C77_full_pg_exponential`; the solver drops the duplicates only afterwards). Also Plaisted-Greenbaum on formulas, whose result is linear (`C77_pg`), visits shared nodes once per occurrence: src/operations/transformations/cnf/plaisted_greenbaum_on_formula.rs:26-39 goes into the operands of nodes it has cached already (running time is not modelled).
40. Finding 2 on truncated right-hand sides reaches the simplifiers: backbone simplification of `a & (-2^32 a + b = 0 | x | y)` restricts the constraint to `b = 2^32`, which the factory stores as the cardinality constraint `b = 0`, so that the result is true for `a` alone where the formula is false (`C58_overflow_counterexample`, for every factory configuration).
41. `PbAlgorithm::Best` is not a choice: src/pseudo_booleans/pb_encoder.rs:75 always takes the weighted counter, whose size is proportional to the right-hand side. `2^m u + 2^m v + 2^m w <= 2^m` takes 3·2^m new variables, and at most 6(m + 1) with adder networks (`C80_best_exponential`).
42. The option `CardinalityNetwork` does not give cardinality networks for at-most constraints with k <= n/2, nor for incremental ones: src/cardinality_constraints/cc_sorter.rs:31-37 takes a sequential counter, with 3k² + 2k clauses for at most k of 2k variables, where the recursive sorter for exactly k stays within n·e(e+1)/2 variables (`C81_amk_quadratic`).
