# Formal model of dyna-pi: design and trusted base

Everything here is about the source tree in `/repo` (timvieira/dyna-pi at the pinned commit).
The Python code was read as text; nothing was run.

* `properties.jsonl` lists the properties, in English.
* `lean/Verif/X.lean` models a part of the code, `lean/Verif/XThm.lean` has the specification, the proofs and, in a
  section `Examples` or `Violations`, concrete cases that meet the hypotheses and refutations of unconditional claims.
* `MANIFEST.json` maps properties to theorems; theorem `Cnn_...` belongs to property `Cnn`.
* `seeded/LOG.jsonl` records wrong programs (edits of model definitions) that were tried against the theorems.

## Trusted base

* Lean 4.33.0's kernel, and the axioms listed below.  No `sorry`, no own axioms, no `native_decide`/`bv_decide`.
  Closed runs of the model in examples and witnesses are computed with `decide` or `decide +kernel`, which use the kernel only.
* The reading of the Python source as the Lean definitions under `lean/Verif/`.  Each definition cites the file and
  lines it models.  This correspondence is by inspection, not mechanised.
* CPython semantics assumed: dicts and sets behave as finite maps and sets with the equality the code defines, sets are
  iterated in an arbitrary order; a generator runs as a coroutine with its consumer, and closing or dropping it runs its
  pending `finally`-like code at once (reference counting).
* The packages the code imports (`semirings`, `arsenal`, `z3`, `lark`, `numpy`) are not in the repository.  Semirings
  are Lean's; `z3` is trusted to return a satisfying assignment when it says sat; `lark` is trusted to parse the grammar it is given.

### Axioms of each theorem

Obtained with `#print axioms` (`Lean.collectAxioms`) for all 542 theorems listed in MANIFEST.json.

* `propext` only: `C81_leaf`, `C81_lists`, `C81_roots`, `C30_builtin_raises`, `C32_value`, `C20_digit_prefix`, `C20_local`, `C56_variable_raises`, `C44_comparison_raises`, `C18_late_functor`, `C18_shadowed`, `C18_unseen_functor`, `C18_wild_append`.
* `propext`, `Quot.sound`: `C62_product`, `C81_aligned`, `C71_size`, `C32_dimension_height`, `C32_height_size`, `C20_new`, `C20_total`, `C03_no_trace`, `C03_no_traceN`, `C03_once`, `C92_lift`, `C36_variable_raises`, `C56_idempotent`, `C56_normal`, `C56_returns`, `C56_unchanged`, `C77_fresh_drops`, `C77_hg`, `C77_records`, `C77_wellformed`, `C44_prefix`, `C44_table`, `C18_no_error`, `C19_empty_body`, `C48_order_dependent`, `C72_cache`, `C73_cut`, `C51_multiplicity_lost`, `C06_shared_incomplete`, `C06_shared_unsound`.
* `propext`, `Quot.sound`, `Classical.choice`: all 499 others.

No theorem depends on anything else (in particular not on `sorryAx` or `Lean.ofReduceBool`).

## Modelling conventions

* Terms: `Tm` = variable (a number standing for object identity) | constant | application `fargs`
  (functor first, as `Term.fargs` in `dyna/term.py`).  Constants are integers or strings; other Python
  payloads (floats, arbitrary objects) only enter through an abstract semiring `W` (and rationals in C43).
* Python object identity of variables is the variable's number; `Var.value` is a store `Nat → Option Tm`.
  Newly created variables are numbered from an allocation mark.
* Exceptions are values (`Sig.exc n`).  Generators are modelled either by running the consumer at each yield
  (continuation passing, whenever bindings are visible) or by the list of what they yield.
* Loops that are not structurally recursive take fuel, and a theorem shows that enough fuel always exists (`..._terminates`,
  `..._returns`, `..._total`), or they are relations between states when the code's order is unspecified (set iteration, heap
  ties, agenda pops), so that the theorem holds for every order.
* Semirings: Mathlib `CommSemiring`/`Semiring`; where variables of a rule body range over all ground terms, commutative semirings
  with infinite sums (`CSemi`, `OSemi` in `Sem.lean`; instances: extended nonnegative reals, truth values).  Floats and
  their rounding are not modelled, except as an arbitrary rounding function in C43.
* The meaning of programs (`Sem.lean`: instances, contributions, step operator `T`, solutions `Sol`, naive rounds) is
  defined without reference to any evaluation strategy or function of the repository.

## Property by property

| id | modelled (model file) | how proved | left out, or why only under conditions |
|----|----------|------------|-----------|
| C01-C04 | `unify`, `unifyN`, `deref`, `occurs_check`, `is_ground` over an explicit store, the loop body as a continuation (Heap) | induction on fuel with the invariant that the store is acyclic; termination by (unbound variables, size) | Python lists as arguments |
| C05 | `Subst.mgu`, `Subst.__call__` (Subst) | the set of unifiers is invariant | |
| C06 | `Subst.cover`, `covers`, `same` (TermOps) | induction on terms | terms sharing variables: refuted (C06_shared_...) |
| C07-C09 | `canonicalize`, `fresh`, `intersect` (TermOps) | first-occurrence numbering; renaming away from the store | |
| C10 | `lt` (Order) | lexicographic order | variables of equal name: C10_same_name |
| C11-C14 | `generalizer`, `NoDupsSet`, `MostGeneralSet`, `DisjointEstimate` (TermSets) | invariants over histories | the unconditional claims of C11 and C13 are refuted (C11_unsound, C13_overlap) |
| C15-C17 | `Product._covers`, `_match_comm`, `Rule.same`, `Program.__eq__`, `align` (RuleEq) | enumeration = all alignments; greedy matching is exact for an equivalence | numeric comparison of programs (`metric`) |
| C18, C20 | `f2r`, `syms`, `_add_rule`, `gen_functor` (ProgIndex) | invariant over histories | programs with variable heads: refuted (C18_shadowed, ...); prefixes ending in a digit: C20_digit_prefix |
| C19 | `update`, `_update_bucket`, `_make_buckets`, `constant_folding_rhs`, `pop` (ProgUpdate, SemUpdate) | bucket invariant | C19_empty_body |
| C21 | `BucketQueue` (BucketQueue) | refinement to a finite map | |
| C22, C41 | `kleene`, `kleene_linsolve`, `transitive_closure` (Kleene, Closure) | pivot invariant | numpy object arrays are functions on `Fin n` |
| C23, C24, C29, C47 | `execute/solver.py`, `base.py` (Solver) | invariant `data + T(chart) = chart + change + dropped` for any pop order | builtins other than `=` and comparisons; time limits |
| C25 | `Chart`, `query_mode` (Chart) | index invariant | C25_variable_functor |
| C26-C28 | `fc`, `step`, `seminaive`, `agenda`, lookup in chart programs (Query, Naive) | induction on rounds | nonground charts, delayed builtins |
| C30-C32 | `derivations.py`: `Derivation`, `naive`, `seminaive`, `agenda` (Deriv) | induction on trees, fairness of the queue | C30_builtin_raises |
| C33 | `Unfold`, `lookup` (Unfold) | the resolvents contribute what the rule contributes with the subgoal's values replaced by their definitions | variable heads, `is`, `$not_matches`, `$lift` |
| C34 | `Fold` with both checks, `folds_by` (Fold) | unfolding back (C33) and C16/C17 | C34_partial_safety_insufficient |
| C35 | `Define`, `hook`, `binarize` (Hook) | conservative extension (Conserv) | negative positions |
| C36 | `linearize` (Linearize) | loop invariant; each step is a definition plus a fold | C36_variable_raises, C36_two_matches |
| C37 | `prune_very_fast`, `prune_fast` (Prune) | nodes of useful derivations are kept (C42) | `_prune_specialize`, `_prune_dead`: see C67 |
| C38 | `LinearRuleElimination` (Elim) | derivative of the step operator | C38_shared_variables, C38_elim_raises |
| C39 | `execute/solver2.py`, `base.py` (Solver2) | the invariant of C23 for ground instances of items with variables | C39_counts_twice |
| C40 | `tarjan`, `condensation` (Tarjan) | DFS invariants | |
| C42 | `Hypergraph.reachability` (Hyper) | worklist invariants | |
| C43 | `Builtins._dispatch`, `is_ready` (Builtin) | case analysis over operators and modes | compound arguments, NaN and overflow, `_indirect_is`; eight refutations |
| C44 | `pp_term`, `pp_infix`, `pp_list`, `add_ops` (Pretty) | derivability in the stratified grammar, unique reading | lexing and quoting; eight refutations |
| C45, C46 | `truncate_term`, `flatten_op`, `join_f` (TermTools) | induction | |
| C48 | `ConstraintPropagation` (Propagate) | invariant: same solutions; least closed set without equalities | three refutations |
| C49 | `measure.py`, `compute_measure` of `Define`, `Unfold`, `Fold` (Measure) | graded semantics: derivation sizes as a second semiring (Graded, GradedSem, UnfoldLift) | measures of other transformations; three refutations |
| C50 | `instance_cache`, `FrozenBag` (Memo) | history invariant, also for nested calls | C50_stale |
| C51 | `snap_unifications` (SnapEq) | most general unifier | C51_multiplicity_lost |
| C52 | `constant_folding` (CFold) | step operator | C52_tolerance |
| C53 | `Rewrites.__call__`, `covers`, `intersect` (Rewrites) | C48 | `anti_unifier`, `disjoin`; three refutations |
| C54, C55 | `Slash.__init__`, `LCT.__init__`, `not_matches3`, nodes of `CoarseGraph` (Slash) | the rules of the result as equations between the values of `x`, `$other(x)` and `y/x` (SlashRun); spine decomposition, for LCT flipped (SlashAlg); bounds by graded weights (GradedSem) | positions at constants or builtins, `transform`, `compute_measure`; C54_occurs_check, C54_partly_input |
| C56 | `normalize_unification2` (Norm) | the new equations determine the new variables, by induction on terms; the sum over them is a single summand | C56_variable_raises |
| C57 | `magic_templates` with `reorder` (Magic), `prune_fast` (Prune) | derivability as an inductive predicate (Horn), tied to naive evaluation with truth values; the subgoals of a rule are derived in the order of the body | `is_leaf` is arbitrary; C57_partly_input, C57_output_condition |
| C58 | `_useful` (Magic) | derivation trees; grafting a derivation into a tree | C58_name_clash |
| C59 | `kleene_linsolve`, `booleanize`, the loop of `agenda` (LinSolve) | the Boolean agenda is a fixpoint (C28), so the support is closed; each yield adds its monomial to the equation of its head; then C22 | rules without builtins (C59_builtin_unknown), ground instances |
| C60 | `newton`, `_newton`, assignment of a stream with a delayed element (Newton) | each lookup stream emits rules whose right-hand sides add up to the derivative at the next chart (recursive case) and to the remainder (base case); product rule identity by induction on the body; then C59 per iteration | rules without builtins (C60_builtin_lost); emission of nonground constant rules |
| C61 | `TypeAnalyzer` (`_run_basic`, `_run_generalizing`, `step`, `_relax`, `intersect`), `to_type_program`, `Program.step` and `lookup_vals` on simple types, `MostGeneralSet.add` with `covers` (TypeAn) | loop invariant of the agenda with the set of popped types: every type of the chart lies below a popped or a waiting one, every popped or waiting type is covered by the chart, and the chart is closed under rule instances over the popped types | `rewrites(.)`, `covers`, `disjoin` and `Program.same` are parameters with stated assumptions; no rule may have the functor of a type parameter (C61_shadowed) |
| C62 | `CoarseGraph`: constructor, `possibly_cyclic`, `possibly_expansive`, `scc_decomposition`, `split_input_dependent` (Coarse) | a ground item that is an instance of two terms of the program has the same node through both (C13); then C41 (closure), C40 (components); induction on the number of nodes below for the rounds; invariant of expansion: at most one item on the list reaches the start | canonical variables do not occur in the rules (for the components); a rule of a subprogram is the rule itself, not a renamed copy; `solve_input_independent` not modelled |
| C63 | `anti_unifier`, `disjoin`, `intersect` (AntiUnify), with `generalizer` (TermSets) and `mgu` (Subst) | the matching substitutions of the generalizer leave the variables of the arguments alone, so a solution of a type extends to the equations; constraints over the variables of the head that hold one by one hold together; invariant and length of the set for `disjoin` | propagation, `covers` and `rewrites` are parameters that lose nothing (C48, C53; `C63_rewrites`); functors are constants |
| C64 | `scc_solver` (SccSolver) on the models of the ground solver (Solver), `tarjan` (Tarjan) and `canonicalize` (TermOps) | the chart of pass 1 is the set of derivable items; `deps` lists the subgoals of derivable instances, so the components are those of the dependency relation (C40); buckets only grow along the agenda; the chart of pass 2 and that of a full run are each below a solution made from both (C24) | `magic=False`; pops take a least priority (C21); `lookup` without its functor index (C18) |
| C65 | `type_bound`, `stype_bound`, `SizeBounds`, `TypeAnalyzer.size` (Runtime), on the model of the type analysis (TypeAn) | induction over an order of the constraints (covering argument on cardinalities); the fold of minima equals the least cost of an order; the query is unified with the types and the solutions factor through the unifier (C05); C61 for `size` and `intersect` | symbolic expressions are evaluated in the naturals with infinity |
| C66 | `Runtime` (Runtime) | induction over the subgoals that are left: every item found belongs to a type that the lookup yields, and the constraints that are carried along hold for all valuations that agree with the items found; counting by types | flat types apart from the rule; `Subst.__call__` leaves a `frozenset` unchanged, as in the code |
| C67 | `Program.prune`, `_prune_specialize`, `_prune_dead`, `usefulness_analysis` (PruneTypes), on the models of the type analysis (TypeAn), `DisjointEst` (AntiUnify) and `_useful` (Magic) | the join adds up, over the solutions of head and subgoals, one copy of the rule (C67_step); all derivable items are covered by the chart (C61) and by the patterns (C63); useful items are closed under the subgoals of their rules; rounds agree by induction; conversely, every kept rule has an instance that the join has matched (C67_dead_removes) | the data agrees with the input type; patterns disjoint or idempotent addition (C67_overlap) |
| C68 | `Abbreviate`, `freebies`, `Program.lookup` on types, `is_disjoint` (Abbreviate), on the models of `rewrites` (Rewrites) and of the type analysis (TypeAn) | every instance of a rule whose head and subgoals have types gives exactly one choice of types and one instance of one new rule, with the same value (C68_step); the chart covers all items that can have a value (C68_types, by C61); rounds interleave by induction (C68_values, C68_limit) | types without `$free`; range-restricted rules; variables of constraints occur in the head |
| C69 | `groundings`, `instantiate` (Instantiate), on the lookups of Query | the yields of a body are in bijection with the satisfying ground substitutions (C69_exact, from the yields of Query); the sum over all instances of a rule is the sum over the firing ones (C69_step); least solutions coincide (C69_agenda, C69_rounds); ends for bodies in left-to-right order (C69_total) | range-restricted rules; ground charts |
| C70 | `sld` (Sld) on `lookup`, with copies of rules from a mark in the destructive store | induction on the fuel, for every consumer of the generator: the yields are sound, have distinct shapes, and cover every derivation when the generator has ended (C70_prefix, C70_instances, C70_exact, C70_value); rank of functors (C70_total); C70_left_recursion, C70_lazy | constant functors in heads and subgoals |
| C71 | `Unfold.transform` (DUnfold) on the `Unfold` of C33, with `def2new`, `index` | the instances of each added rule are those of the resolvent (`Resolves`, from the unification theorem); strong induction on trees for the four parts of C71_bijection; C71_value, C71_size; C71_duplicates, C71_lost | defs = parent; user subgoals |
| C72 | `AgendaBasedSearch` (Search): `__init__`, `_run_agenda`, `check_measure` with its cache, `_update`; random choices are a list of choices | one invariant (`Inv`) kept by `update`, `resume` and each round; C72_fair by induction on the choices with the queue split at the state; C72_starves, C72_cache are witnesses | moves, costs, measure are parameters |
| C73 | `Search.go`, `objective`, `BeamSearch.run`, `Graph2.rule_index`, `update_todo` (Search) | `First` for the log; induction on the evaluated list and on the rounds; levels as permutations of the beam for C73_exhaustive | actions, costs, oracle are parameters |
| C74 | `RuleAnalyzer_`, `degree`, `degrees`, `CostDegrees`, `eurekas`, `_drive_eureka` (Degree) on `hook` (Hook) | the scan loop against positions of occurrences; tuple order by induction; variables of the two new rules; chains by C35 and a load `2^(vars+factors+1)-1` that splits; C74_comment_differs is a witness | |
| C75 | `newton` (Newton), `Derivation.dimension` (Deriv) | spec `Dim` by rules on trees; lower bound by induction on trees along the Newton steps; upper bound by residuation in the linearized system (C59's least solution); C75_constants is a witness | |
| C76 | `fold_proposals`, `partial_megafolds`, `reversible_megafolds`, `prune_r_S`, `memoize1`, `fold_r_S`, `_drive_reversible_folds` (FoldSearch) | counting of functors along `covers`; invariant of the rules that unfolding adds; cancellation of bags of rules modulo variants; invariant of the table of `memoize1`; two witnesses | |
| C77 | `ProgramGraph.__init__`, `add`, `add_parents`, `tidy`, `hg` (ProgGraph) | invariant of the traversal (what was met is done or in progress); the loop of `tidy` against an inductive "built from the ground up", with a decreasing count of missing edges; one witness | |
| C78 | `unfold_x`, `_unfold_x` (UnfoldX) on top of Unfold and Prune | values: C33 and C37 composed along the run, with most general unifiers of named terms shown to be named; end: a weight that each step lowers and that equal programs share; one witness | pattern is an atom that is neither builtin nor input functor |
| C79 | `run_builtins`, `_run_builtins` (RunB) on top of `lookup` (Unfold) and `update` (ProgUpdate) | an invariant of the enumeration of a body from any bindings; sums over solutions of the equations as sums over the unbound variables; three turns reach a fixed point; two witnesses | no `is`, `$not_matches`, `$lift`; rules compared up to renaming and body order |
| C80 | the constructor of `Derivation`, `reorder_subgoals`, `Rule.folds_by` with its records (Reorder) on top of `Product.covers` (RuleEq) | from C15: the assignments found are exactly the valid ones; sorting the items of the alignment gives the inverse permutation; uniqueness forces it to be an involution | children are abstract; the rule and the derivation share no variables |
| C81 | `Program.Transform`, `transforms` (DTransform); programs are identity, class under `==`, and parent | induction on the histories; walks are compared by what they become at the root | the mapping of each step, `align` and `target.d` are parameters; for the counterexample the step is `DUnfold.tr` and the fold is `Fold.fold` |
| C82 | `Unfold.untransform`, `Unfold.undo`, `Fold.transform`, `bookkeeping` (DFold) on top of DUnfold and Reorder | induction on the size of the derivation of the old program; the recorded places by C15 | `par2def` and the alignment of equal programs are parameters; the routing is that of C81; the constructor is that of C80 and left out; folds that are not partially safe are left out |
| C83 | `Slash.transform`, `_transform_node`, `Program.d`, `guess_rule_id` (DSlash) on top of Slash and Reorder; which rules the constructor of `Slash` makes (DSlashRun) | induction on derivations; an inverse mapping, defined in the specification, for the one-to-one part | derivations with leaves for input facts (185-204) are left out; `LCT.transform` is C86 |
| C84 | `Slash.compute_measure`, `derivation_measure` (SlashMeasure) on top of Slash, DSlash and Measure | the weights of C83 in the integers under addition, once for each end of the interval; the lost value by an invariant on rounds of evaluation | `LCT.compute_measure` is C87 |
| C85 | `drive`, `_drive_folds`, `_drive_unfold`, `_drive_eureka`, `check_measure` of `search.py`, `Program.lineage`, `is_item` (SearchMoves) on top of Search, Measure, Hook | names generated later do not occur in earlier programs of the lineage, so that the definitions that a move uses are complete for its subgoal; by induction on the moves each program of the lineage is reached in the sense of C49; C35 for the definitions; C72 for the loop; the children of a state by cases on the move for `C85_moves` | slash, lct and reversible folds (off by default); candidates are parameters |
| C86 | `LCT.transform`, `transform_spine`, the lookup in `rso` (DLct) on top of Slash with the flag `lct`, DSlash and Reorder; which rules the constructor of `LCT` makes (DLctRun) | induction on derivations, for the mapping and for the rest of a spine together; each rule of the new program classified by its ground instances; an inverse mapping, by the same induction, for `C86_round_trip` | derivations with leaves for input facts (158-159) |
| C87 | `LCT.compute_measure`, the same function as for `Slash` (SlashMeasure), on the rules of `LCT` | the rule numbers kept by `C86_round_trip`, in the integers under addition; the lost value by an invariant on rounds of evaluation | - |
| C88 | `eurekas`, `folds_seq`, `unfolds_seq`, `unfolds_first` of `programs.py` (Collect) on top of SearchMoves | membership by cases on the method, the oldest program by the order of the lineage; values by C85; by induction on the unfoldings all measures stay positive and lineages nested, so that the constraints hold | candidates are parameters; the renaming of the definitions when they are the program itself |
| C89 | `race` (Race); durations of the programs in each round are given | induction on the programs of a round from the end, then on rounds; the price by the sum of the geometric series | clock, signals and exceptions raised by a run |
| C90 | `slashes`, `lct`, `_slashes`, `__slashes` of `programs.py` (SlashAll) on top of Slash | induction on the rules for the choices; C54 and C55 for the values | positions that select a constant or a builtin, as in C54 |
| C91 | `user_query` of `execute/base.py` (UserQuery) on top of Solver and CFold | what `join` yields for one subgoal; folding of ground facts with different heads; C24 for the least solution | queries that are constants or builtins; parsing |
| C92 | `Rule.lift`, `lift_semiring`, `_coerce_semirings` (LiftSemi) | homomorphisms commute with the step operator; induction on rounds; cases on the two semirings | `lift` of the semirings (another package) is a parameter |
| C93 | `unit_measure`, `safe_by_unit`, `safe_by_smt` of `program.py` (UnitMeasure) on top of SearchMoves and Measure | simulation: the measure that is not symbolic is the symbolic one for the values 1; C85 for the values | — |
| C94 | `is_range_restricted` and `_solver_for` of `program.py` (SolverFor) on top of Solver | induction on the body: an exception of a join is one of its consumer at a match of the whole body; invariant of reachable states (C23) | a constructor passed by the caller |
| C95 | the choice of solvers in `scc_solver` (MagicRange) on top of Magic | by the kinds of rules of the magic program; `reorder` is a permutation | — |

## What is modelled, file by file

| file | modelled | not modelled |
|------|----------|--------------|
| `term.py` | `Var`, `Term`, `unify`, `Subst`, `Product` (covers, `_match_comm`, `snap_unifications`), `canonicalize`, `fresh`, `FreshCache`, `generalizer`, `lt`, the three term sets, `flatten_op`, `join_f`, the result streams, `gen_functor` | pickling, printing, `BuiltinConstraint` objects, delayed streams |
| `rule.py` | `Rule`, `same`, `signature`, `folds_by`, `RuleAnalyzer_` (Degree) | pretty-printing helpers, `slash`-related helpers |
| `program.py` | construction and update, index, lookup, equality, `step`/`fc`/`seminaive`/`agenda`/`newton`, `hook`/`define`/`binarize`/`linearize`/`elim`/`fold`/`unfold`/`unfold_x`, `run_builtins`, constant folding, pruning entry points, `normalize_unification2`, `magic_templates`, `_useful`, `scc_solver`, `groundings`, `instantiate`, `Transform` | parsing entry points, `metric`, `user_query`, graph drawing, `scc_solver(magic=True)` |
| `propagate.py`, `builtin.py`, `derivations.py` | as in C48, C43, C26/C30-C32/C70/C80 | `Derivation` printing, `untransform` |
| `pretty.py`, `syntax.py` | operator terms and rules | lexer, comments, declarations |
| `execute/*.py` | `solver.py`, `solver2.py`, `base.py`, `linear.py` | nonground instances in `linear.py` |
| `transform/*.py` | `unfold.py`, `fold.py`, `measure.py`, `rule_elimination.py`, the constructors of `slash.py`, `lct.py` | `transform` on derivations (except those of Unfold, its undoing fold, Slash and LCT) |
| `analyze/*.py` | `rewrites.py`, `dead.py`, `types.py` (analysis, truncation, `intersect`, `size`, `runtime`, `is_disjoint`), `abbreviate.py`, `runtime.py`, `coarse_graph.py` | `types.py` (printing), sympy in `runtime.py` |
| `util/*.py` | `bucket_queue.py`, `graphs.py` (`tarjan`, closure, hypergraphs), `instance_cache`, `FrozenBag` | display helpers |
| `search/search.py` | agenda, queue, `_run_agenda`, `_update`, caching of `check_measure` (Search) ; the moves of `drive`: `_drive_folds`, `_drive_unfold`, `_drive_eureka` (SearchMoves) | `_drive_slash`, `_drive_lct`, `_drive_reversible_folds`, `to_collection`, statistics |
| `search/old.py` | `Search.go`, `objective`, `BeamSearch.run`, `Graph2.rule_index`, `update_todo` (Search) | `actions`, `transition`, `MacroFold`, `Graph1`, logs |
| `programs.py` | `eurekas` (Degree, Collect), `folds_seq`, `unfolds_seq`, `unfolds_first` (Collect), `slashes`, `lct` (SlashAll), `race` (Race), `ProgramGraph` (ProgGraph) | the other methods of collections; the rendering of the graph |

## Behaviour found to differ from what the code or its comments claim

Every item is a theorem about the model (the name is given), not only an observation.

* `covers` on terms with shared variables (C06_shared_unsound, C06_shared_incomplete); `generalizer` is no generalization of non-unifiable
  terms (C11_unsound); `DisjointEstimate` can hold overlapping patterns (C13_overlap).
* `Rule.same` with colliding hashes (C16_collision) and with a variable as a subgoal (C16_bare_variable).
* `f2r` with variable-headed rules (C18_shadowed, C18_unseen_functor, C18_late_functor, C18_wild_append).
* `update` after a rule with an empty body raises (C19_empty_body); `gen_functor` with a prefix ending in a digit (C20_digit_prefix).
* a chart query with a variable functor finds nothing (C25_variable_functor); `fc` with no rounds raises (C26_no_rounds);
  tolerances lose values (C28_tolerance_loses, C52_tolerance).
* `Unfold.transform` takes the derivations by two equal rules to the same one (C71_duplicates), and fails its own check if the unfold lost a
  variable (C71_lost).
* `check_measure` is cached by program equality, which ignores where a program comes from, while the check depends on it: the verdict of
  the first of several equal programs is used for all (C72_cache). With `p_greedy = 1` the search can starve a state (C72_starves). Beam search spends
  two evaluations on the initial program (C73_budget).
* the comment of `RuleAnalyzer_` says that nothing can be eliminated if one factor has all local variables; the code tests each variable by itself,
  and then proposes eliminations that raise the cost (C74_comment_differs).
* `Derivation.dimension` counts constants in a body as branches, so it is not the number of iterations that `newton` needs for a derivation
  (C75_constants).
* `fold_proposals` and `prune_r_S` drop valid folds if a subgoal is a variable: `fn(X)` is the variable itself and its `term_signature` is
  `None` (C76_variable_overlooked, C76_candidate_overlooked).
* `ProgramGraph.add_parents` stops at a fresh copy, so `tidy` drops folds whose definitions were given as a fresh copy of a program
  that is not otherwise in the history (C77_fresh_drops).
* `unfold_x` promises to unfold "until all of the `x` items are gone", but stops as soon as unfolding the first one gives an equal
  program, even if other rules still have `x` subgoals (C78_stops_early).
* `run_builtins` loses multiplicities: a rule such as `goal += (X = Y).` becomes `goal += 1.`, unlike `unfold`, which multiplies by
  infinity when variables are lost (C79_multiplicity_lost, C79_rules).
* `run_builtins` drops every rule with a subgoal `$free(X)` or `$bound(X)`: `is_builtin` counts them as builtins but `lookup` has no
  case for them (C79_free_dropped).
* `reorder_subgoals` applies the inverse of the permutation that is needed: derivations whose children are permuted by a cycle of
  three or more places cannot be built (C80_unique, C80_rotated), nor those for which several alignments exist (C80_ambiguous).
* `Transform` finds its way by `==`: if a program is equal to one of its ancestors, its derivations are handed to the mapping of the wrong
  step (C81_equal_programs).
* `Unfold.untransform` does not undo `Unfold.transform` if the body of the definition can be found in the unfolded rule at two places
  (C82_swapped).
* `Slash.transform` raises on some derivations (C83_defined, with an example for each): `D_oo` is called with more than one argument if an
  item matches `x` and none below it does (slash.py:217); `D_ro` leaves out `$not_matches`, so that no rule is found for an item whose
  coarse nodes all overlap `x`; and an item not kept apart can belong to a rule whose head is.
* folding after `slash` can lose values though every safety check passes (C84_unsound): `z/z` has a derivation of measure zero, but `min_size`
  (measure.py:113-119) counts it as one.  With `a += l * x.  x += u.` slashed at `x`, the rule `a/x += l * x/x` can be folded into
  `a/x += a/x * x/x`.
* the agenda-based search raises on programs with builtins (C85_builtin_raises): `safe_inline` (program.py:521-526) accepts builtins, `_drive_unfold` pushes
  the program in which the builtin is unfolded, and `check_measure` cannot compute its measure (C49_builtin_raises).
* `LCT.transform` fails on most derivations (C86_defined).  `self.rso` (lct.py:110) is keyed by fresh copies of the nodes, and looked up with the nodes themselves
  (163): `KeyError` unless the nodes at both ends of a spine have no variables (C86_nonground).  A node made by a rule without position that is no end of a spine
  (147-149) needs a rule `x :- other(x)`, which does not exist for instances of the slashed term, by default all items (C86_no_position).  For a rule with a position
  whose head is no instance of the slashed term (152-153) the new rule has `other(...)` at the position, the derivation built has not.
* `LCT.transform` is not one to one (C86_not_injective): `d(None)` takes the first rule that covers the item and the children.
* after the left-corner transformation, too, `fold` accepts folds that lose values (C87_unsound): `z/z` has size zero but `min_size` counts it as one.  And with
  overlapping rules `LCT.transform` does not keep the measure of derivations (C87_not_kept).
* `folds_seq` of a collection does not check the measure: applied twice it can define two items by each other, which loses their values (C88_folds_unchecked).  The caller has to
  filter the collection by the measure.
* `race` on an empty collection never returns (C89_never).
* `_drive_lct` of the search calls `ref.lct(x, {...})` (search.py:370), but `LCT` takes the positions first (lct.py:8-15), so that its assertion fails; this move is off by
  default (read off the text, not part of the model).
* `user_query` leaves out items of small value: the answers pass through `constant_folding`, which drops each rule whose constant is within 1e-7 of zero (program.py:1449).
  UserQueryThm has a program with two edges of probability 1/10000 each, for which the path over both, of probability 1/100000000, is in the chart and missing from the answer.
* `is_range_restricted` counts variables of builtins as bound, so `_solver_for` chooses solver 1 for `p(X) += (X = Y)` and `p(X) += (X < 3)`, and solver 1 raises on both (`C94_builtin_raises`).
* a comment in `scc_solver` (program.py:978-979) says that the magic program is range-restricted; it is not if a demanded subgoal has a variable of its own (`C95_solver2`, `C95_not_always`); then pass 1 uses solver 2.
* semi-naive and agenda enumeration of derivations raise on builtins (C30_builtin_raises); top-down enumeration yields nothing on left
  recursion (C70_left_recursion).
* partial safety does not preserve values (C34_partial_safety_insufficient); `linearize` raises on variable subgoals (C36_variable_raises) and
  does not keep one item from matching two subgoals (C36_two_matches), so that the nonground solver counts twice (C39_counts_twice).
* slashing loses values when a subgoal is an instance of its own head (C54_occurs_check) or an item is both input and defined (C54_partly_input).
* magic templates lose outputs when an input declaration overlaps with a rule (C57_partly_input) or the condition of an output is defined by rules (C57_output_condition);
  `_useful` does not choose a new functor (C58_name_clash); flattening raises on variable subgoals (C56_variable_raises).
* the linear solver takes builtins for unknowns (C59_builtin_unknown);
* the Newton solver loses the derivations of rules with one subgoal and a constraint (C60_builtin_lost), and `newton(T=0)` runs without a limit (C60_zero);
* the type analysis misses items if a rule has the functor of a type parameter, because such a subgoal is delayed but not looked up (C61_shadowed);
* `split_input_dependent` compares nodes, whose variables are canonical, with the heads of the inputs, so with a nonground input a rule that depends on it is classified as independent (C62_split_wrong); `possibly_expansive` raises `KeyError` on subgoals that are builtins (C62_builtin_raises), and the constructor does on `f(1,X). f(3,4). f(X,2).` (C62_overlap);
* the anti-unifier of `r` and `s` is not equivalent to `r` when `r` covers `s`, as a comment says, if a constraint of `r` has a variable that is not in the head (C63_remark);
* `scc_solver` loses data that is computed by rules over items that are not declared as inputs (C64_data_lost);
* an output declaration that overlaps an input loses its dependencies in `scc_solver` (C64_overlap_lost);
* the running-time bound is too small for types that are not flat: the types are not renamed when they are looked up, so two subgoals with the same type share variables, and a contradiction between them drops the combination (C66_shared);
* the running-time bound of a rule with a constant, or with a subgoal that has no type, is 1 (C66_constant, C66_untyped);
* `prune()` can change a value: `DisjointEst` may keep patterns that overlap, and the rule is then copied once per pattern: in `f(1,Y) += a(Y). f(3,4) += b. f(X,2) += e(X).` the value of `f(3,4)` doubles (C67_overlap).
* rule elimination with shared variables (C38_shared_variables), and raising after `linearize` (C38_elim_raises).
* arithmetic (C43_abs_negative, C43_div_zero, C43_raises, C43_string_unready, C43_int_unready, C43_not_unready, C43_identity_string, C43_float_division).
* printing (C44_equal_priority, C44_comma_argument, C44_comparison_raises, C44_for, C44_list_item, C44_prefix, C44_rule_unary, C44_rule_semicolon).
* propagation (C48_order_dependent, C48_compound_equality, C48_ks_checked) and simple types (C53_ks, C53_equality, C53_fundep).
* the measure check accepts steps whose side conditions fail (C49_foreign_definition, C49_incomplete_definition, C49_equal_rules), and raises on builtins (C49_builtin_raises).
* memoized methods go stale when declarations change (C50_stale); `snap_unifications` loses multiplicities (C51_multiplicity_lost).
