{"id": "C01", "title": "Unification is sound", "statement": "While control is inside the body of `for _ in unify(x, y):` the two terms denote the same term: following variable bindings, x and y are structurally equal (both resolve to one and the same tree).", "quantifier": "all pairs of terms x, y (any functors, constants, repeated and shared variables) and all acyclic variable stores the loop is entered in", "why_tests_cant": "The space of term pairs and of prior bindings is infinite; a test samples a few shapes, never all sharing patterns between x, y and the bindings already made.", "anchors": ["dyna/term.py:unify", "dyna/term.py:unifyN", "dyna/term.py:deref"]}
{"id": "C02", "title": "Unification is complete and most general", "statement": "`unify(x, y)` enters its loop body exactly once if x and y have a common instance and not at all otherwise; when it does, every common instance of x and y (every assignment of terms to variables that respects the bindings already in force and makes x and y equal) is an instance of the state seen in the loop body.", "quantifier": "all term pairs, all acyclic stores, all candidate common instances", "why_tests_cant": "Both directions quantify over all substitutions; no finite test refutes the existence of another unifier or a more general one.", "anchors": ["dyna/term.py:unify", "dyna/term.py:unifyN", "dyna/term.py:occurs_check", "dyna/term.py:unifies"]}
{"id": "C03", "title": "Unification leaves no trace", "statement": "When a `for _ in unify(x, y):` loop ends - normally, by break/return (generator closed) or because the loop body raised - every variable is bound exactly as it was before the loop; and the loop body runs at most once.", "quantifier": "all term pairs, all stores, all loop bodies (each possibly doing arbitrary properly nested unifications) and all three ways of leaving the loop", "why_tests_cant": "The exit points multiply with the nesting of backtracking generators; tests exercise only a handful of exits.", "anchors": ["dyna/term.py:unify", "dyna/term.py:unifyN"]}
{"id": "C04", "title": "Unification terminates and never creates cyclic bindings", "statement": "From an acyclic store unify always terminates and every store it ever exposes is acyclic, so dereferencing, printing and groundness checks terminate on every reachable state.", "quantifier": "all term pairs and all acyclic stores, all intermediate states", "why_tests_cant": "Non-termination and cycles appear only for special sharing patterns through chains of bindings; absence needs an invariant.", "anchors": ["dyna/term.py:unify", "dyna/term.py:occurs_check", "dyna/term.py:deref"]}
{"id": "C05", "title": "Substitution mgu agrees with unification", "statement": "`Subst().mgu(x, y)` returns a failure value exactly when x and y have no common instance; otherwise applying the result to x and to y gives the same term, and every unifier of x and y factors through it.", "quantifier": "all pairs of terms without bound variables, all unifiers", "why_tests_cant": "Quantifies over all substitutions and all term pairs.", "anchors": ["dyna/term.py:Subst.mgu", "dyna/term.py:Subst.__call__", "dyna/term.py:Subst.occur_check", "dyna/term.py:Subst.follow"]}
{"id": "C06", "title": "covers decides the instance relation", "statement": "For terms with no variables in common, `covers(x, y)` is true iff y is an instance of x, and the substitution computed by `Subst().cover(x, y)` maps x exactly to y. (For terms that share variables the answer can be wrong; a witness is proved.)", "quantifier": "all pairs of variable-disjoint terms, all substitutions", "why_tests_cant": "The 'iff' ranges over all substitutions; tests cannot show that none exists nor cover all repeated-variable patterns.", "anchors": ["dyna/term.py:covers", "dyna/term.py:Subst.cover", "dyna/term.py:same"]}
{"id": "C07", "title": "canonicalize is a canonical form for renaming", "statement": "`canonicalize(x) == canonicalize(y)` iff x and y are equal up to a one-to-one renaming of variables; canonicalize(x) is itself such a renaming of x and canonicalizing twice changes nothing.", "quantifier": "all pairs of terms", "why_tests_cant": "The equivalence is over all variable renamings of unboundedly large terms.", "anchors": ["dyna/term.py:canonicalize", "dyna/term.py:_canonicalize"]}
{"id": "C08", "title": "fresh makes a disjoint copy", "statement": "`fresh(x)` is x with its unbound variables replaced one-to-one by variables that occur nowhere else in the program state, with all bindings resolved; x itself is not changed, and variables shared inside x stay shared in the copy.", "quantifier": "all terms, all acyclic stores, all sets of previously allocated variables", "why_tests_cant": "Freshness and sharing must hold for every term shape and every allocation history.", "anchors": ["dyna/term.py:fresh", "dyna/term.py:Fresh"]}
{"id": "C09", "title": "intersect is the greatest common instance", "statement": "The term returned by `intersect(x, y)` has as its instances exactly the common instances of x and y (None iff there are none), for variable-disjoint x and y.", "quantifier": "all pairs of variable-disjoint terms, all instances", "why_tests_cant": "Equality of two infinite sets of instances.", "anchors": ["dyna/term.py:intersect", "dyna/term.py:unify", "dyna/term.py:fresh"]}
{"id": "C10", "title": "The term order is a strict order", "statement": "The ordering used to sort programs and to compare terms (`lt` on terms) is irreflexive, asymmetric and transitive, and total up to equality on ground terms, so sorting the same multiset of rules always prints the same listing.", "quantifier": "all triples of ground terms", "why_tests_cant": "Transitivity and totality are universally quantified over triples of unbounded terms.", "anchors": ["dyna/term.py:lt", "dyna/term.py:Term.__lt__"]}
{"id": "C11", "title": "generalizer returns a common generalization", "statement": "`generalizer(x, y)` covers both x and y. (False in general: it reuses one variable for different mismatching pairs, a witness is proved; true for unifiable terms with disjoint variables, which is how the estimator calls it.)", "quantifier": "all pairs of variable-disjoint terms", "why_tests_cant": "Needs all term pairs; the failing inputs need two different mismatches, rarely sampled.", "anchors": ["dyna/term.py:generalizer", "dyna/term.py:DisjointEstimate.add"]}
{"id": "C12", "title": "MostGeneralSet keeps exactly the maximal patterns", "statement": "After any sequence of additions, every added pattern is covered by some stored pattern, every stored pattern was added, and no stored pattern covers a different stored one.", "quantifier": "all sequences of added terms", "why_tests_cant": "Invariant over unbounded histories; order of insertion matters.", "anchors": ["dyna/term.py:MostGeneralSet.add", "dyna/term.py:MostGeneralSet.root"]}
{"id": "C13", "title": "DisjointEstimate covers everything added", "statement": "After any sequence of additions every added term is an instance of some stored pattern. Stored patterns are meant to be pairwise non-unifiable (so that `root` is unique); that half is violated by a reachable history, which is proved.", "quantifier": "all histories of additions", "why_tests_cant": "The overlap arises only after particular merge sequences; coverage needs an invariant over all histories.", "anchors": ["dyna/term.py:DisjointEstimate.add", "dyna/term.py:DisjointEstimate.root"]}
{"id": "C14", "title": "NoDupsSet stores one representative per renaming class", "statement": "After any sequence of additions, membership of x holds iff a renaming of x was added, and no two stored terms are renamings of each other.", "quantifier": "all histories of additions", "why_tests_cant": "Invariant over unbounded histories.", "anchors": ["dyna/term.py:NoDupsSet", "dyna/term.py:canonicalize"]}
{"id": "C15", "title": "Body covering enumerates exactly the alignments", "statement": "Every result of `xs.covers(ys)` is a substitution, an injective alignment of the subgoals of xs into ys under which each subgoal maps exactly to its partner, and the list of unused subgoals of ys; and every injective alignment for which a common matching substitution exists is produced, exactly once.", "quantifier": "all pairs of variable-disjoint subgoal lists, all injective alignments", "why_tests_cant": "Completeness quantifies over all alignments and substitutions; order and duplicates multiply.", "anchors": ["dyna/term.py:Product.covers", "dyna/term.py:Product._covers"]}
{"id": "C16", "title": "Rule equality is equality up to renaming and reordering", "statement": "`r.same(s)` is true iff one is obtained from the other by a one-to-one renaming of variables and a permutation of the subgoals; hence it is reflexive, symmetric and transitive.", "quantifier": "all pairs and triples of rules with term heads and with term or constant subgoals", "why_tests_cant": "Quantifies over all permutations and renamings; the hash filter must never reject an equal pair.", "anchors": ["dyna/rule.py:Rule.same", "dyna/rule.py:Rule.signature", "dyna/term.py:Product._match_comm", "dyna/util/util.py:FrozenBag"]}
{"id": "C17", "title": "Program equality is multiset equality of rules", "statement": "`p == q` for programs is true iff there is a one-to-one correspondence between the rules of p and of q pairing equal rules (greedy matching never misses one), independent of rule order; and align returns such a correspondence.", "quantifier": "all pairs of finite rule lists and every equivalence used to compare rules", "why_tests_cant": "Greedy matching correctness is a statement over all orders of both lists.", "anchors": ["dyna/program.py:Program.__eq__", "dyna/program.py:Program._symbolic_equal", "dyna/program.py:Program._bucket_equal", "dyna/program.py:Program._check_bucket", "dyna/program.py:Program.align"]}
{"id": "C18", "title": "Rule lookup by functor misses nothing", "statement": "After any history of appends, the list of rules consulted for a query contains, in program order and once each, every rule whose head could unify with the query. (The lazily built index violates this for programs with a variable-headed rule; witnesses are proved, and the property is proved for programs without one.)", "quantifier": "all histories of program construction and mutation, all queries", "why_tests_cant": "The failure depends on when the cache is built relative to mutations.", "anchors": ["dyna/program.py:Program.f2r", "dyna/program.py:Program._add_rule", "dyna/program.py:Program._invalidate_caches", "dyna/program.py:Program.lookup"]}
{"id": "C19", "title": "Updating a program with a constant rule accumulates", "statement": "Adding a rule with a constant body to a program changes the total weight of that head (summed over the program's constant rules with a renaming of that head) by exactly the added constant and of no other head, whether it is merged into an existing rule or appended; nonconstant rules are unchanged and in the same order.", "quantifier": "all programs, all sequences of updates, every commutative semiring", "why_tests_cant": "Order-dependent merging over unbounded histories.", "anchors": ["dyna/program.py:Program.update", "dyna/program.py:Program._update_bucket", "dyna/program.py:Program._make_buckets", "dyna/program.py:Program.constant_folding_rhs", "dyna/program.py:Program.get_const_rhs"]}
{"id": "C20", "title": "Generated functors are new", "statement": "Functor names produced by gen_functor never coincide with each other or with any functor in the program's rules, even across different programs sharing the generator.", "quantifier": "all programs and all histories of calls between resets", "why_tests_cant": "Uniqueness over unbounded histories.", "anchors": ["dyna/program.py:Program.gen_functor", "dyna/program.py:Program._gen_functor", "dyna/term.py:gen_functor", "dyna/term.py:gen"]}
{"id": "C21", "title": "BucketQueue is a priority queue", "statement": "After any sequence of assignments, deletions, pops and lookups the queue contains exactly the items assigned and not since removed, each with its latest priority; a pop returns an item of minimum priority (and that priority) and removes only it; popping never loops forever; the empty queue pops None.", "quantifier": "all operation sequences over all items and integer priorities, negative ones included, every choice of element within a bucket", "why_tests_cant": "Histories are unbounded and the lower-bound pointer interacts with decreasing priorities.", "anchors": ["dyna/util/bucket_queue.py:BucketQueue"]}
{"id": "C22", "title": "Matrix closure solves its equation", "statement": "`kleene(A, semiring)` returns B with B = I + A*B and B = I + B*A, and with reflexive=False a B with B = A + A*B, provided star satisfies star(a) = 1 + a*star(a) (resp. star(a)*a); in a star-ordered semiring it is the least solution; hence the linear solver's B@v satisfies x = A x + v.", "quantifier": "all matrix sizes, all matrices, all (not necessarily commutative) semirings with a star", "why_tests_cant": "Universal over sizes and semirings; floating point tests sample one semiring.", "anchors": ["dyna/execute/linear.py:kleene", "dyna/execute/linear.py:kleene_linsolve"]}
{"id": "C23", "title": "The agenda solver computes a fixpoint", "statement": "When the ground solver's agenda runs empty, the chart satisfies every equation of the program: each item's value equals the loaded data plus the sum over all instances of rules with that head of the product of the chart values of the body.", "quantifier": "all programs (any number of rules, recursive or not, repeated subgoals), all data, every commutative semiring, every order in which the agenda pops", "why_tests_cant": "Double counting errors show up only for specific interleavings and repeated subgoals; schedules are unbounded.", "anchors": ["dyna/execute/solver.py:Solver._forward_chaining", "dyna/execute/solver.py:Solver.update", "dyna/execute/solver.py:Solver.drive_rules", "dyna/execute/base.py:BaseSolver.join", "dyna/execute/base.py:BaseSolver.init_rule"]}
{"id": "C24", "title": "The agenda solver computes the least solution, whatever the schedule", "statement": "In an ordered semiring, at every moment of a run each chart value is bounded by its value in every solution of the program's equations, so a completed run yields the least solution; two completed runs with different priorities or agenda types give identical charts.", "quantifier": "all programs, all data, all pairs of schedules, all solutions of the equations", "why_tests_cant": "Schedules and solutions are infinite in number.", "anchors": ["dyna/execute/solver.py:Solver._forward_chaining", "dyna/util/bucket_queue.py:BucketQueue.popitem"]}
{"id": "C25", "title": "Chart indexes return what a scan would", "statement": "Querying the chart through its lazily built mode indexes yields exactly the stored items that match the query, each once with its current value, after any interleaving of insertions, value updates and queries in other modes.", "quantifier": "all histories of chart writes and queries", "why_tests_cant": "Index maintenance errors depend on the order of index creation and insertion.", "anchors": ["dyna/execute/solver.py:Chart", "dyna/execute/solver.py:query_mode"]}
{"id": "C26", "title": "Forward chaining sums derivations by height", "statement": "After t rounds of forward chaining from the empty valuation, the value of an item is exactly the sum, over all derivation trees of the item with height at most t, of the product of their leaves.", "quantifier": "all programs and round counts t, every commutative semiring", "why_tests_cant": "Equality of unbounded sums over tree sets, for all t.", "anchors": ["dyna/program.py:Program.fc", "dyna/program.py:Program.step", "dyna/derivations.py:Derivation.value", "dyna/derivations.py:Derivation.height"]}
{"id": "C27", "title": "Semi-naive evaluation equals naive evaluation", "statement": "After t semi-naive rounds the accumulated valuation equals the valuation after t naive rounds, for every t, also when a rule uses the same relation several times.", "quantifier": "all programs, all t, every commutative semiring", "why_tests_cant": "The telescoping of new/delta/old products must hold for arbitrary body length and repeats.", "anchors": ["dyna/program.py:Program.seminaive", "dyna/program.py:Program.seminaive_update"]}
{"id": "C28", "title": "Program.agenda reaches a fixpoint", "statement": "If the agenda method on programs terminates (with exact comparison), its result is a fixpoint of the program's step operator.", "quantifier": "all programs, all commutative semirings, all pop orders", "why_tests_cant": "Two copies of the valuation (old/new) are updated at different times; equality needs an invariant.", "anchors": ["dyna/program.py:Program.agenda"]}
{"id": "C29", "title": "Loading data incrementally equals loading it at once", "statement": "Calling the solver several times with successive data sets gives, once quiescent, a chart satisfying the same equations as one call with all data combined.", "quantifier": "all splits of all data sets into any number of calls, with any runs between them", "why_tests_cant": "Histories of calls are unbounded.", "anchors": ["dyna/execute/base.py:BaseSolver.__call__", "dyna/execute/base.py:BaseSolver.load_data", "dyna/execute/base.py:BaseSolver.init_rule"]}
{"id": "C30", "title": "Bottom-up derivation enumerators agree and are exact", "statement": "The T-round naive and semi-naive enumerators list exactly the derivation trees of height at most T, each exactly once.", "quantifier": "all ground-instance programs, all T", "why_tests_cant": "Exactness (no duplicates, none missing) over all trees.", "anchors": ["dyna/derivations.py:naive", "dyna/derivations.py:seminaive", "dyna/derivations.py:step_derivations", "dyna/derivations.py:seminaive_update"]}
{"id": "C31", "title": "Agenda derivation enumeration lists each derivation once", "statement": "The agenda-based enumerator never yields the same derivation twice, yields only derivations, and every derivation is eventually yielded.", "quantifier": "all programs, all run lengths", "why_tests_cant": "Fairness and duplicate-freedom over infinite runs.", "anchors": ["dyna/derivations.py:agenda"]}
{"id": "C32", "title": "Derivation measures are consistent", "statement": "For every derivation d: dimension(d) <= height(d), height(d) <= size(d), and the value of a derivation is the product of its leaves in order.", "quantifier": "all derivation trees of any branching", "why_tests_cant": "Universal over unbounded trees.", "anchors": ["dyna/derivations.py:Derivation.dimension", "dyna/derivations.py:Derivation.height", "dyna/derivations.py:Derivation.size", "dyna/derivations.py:Derivation.value"]}
{"id": "C33", "title": "Unfolding preserves solutions", "statement": "Replacing a rule by its resolvents at one subgoal (unfold) leaves every solution of the program's equations a solution; with nonnegative-like safety (derivation counting) the least solution is unchanged.", "quantifier": "all programs, rules, subgoal positions, all commutative semirings, all valuations", "why_tests_cant": "Semantic equivalence over all valuations and programs.", "anchors": ["dyna/transform/unfold.py:Unfold", "dyna/program.py:Program.unfold", "dyna/program.py:Program.lookup"]}
{"id": "C34", "title": "Folding is the inverse of unfolding", "statement": "A fold accepted by the reversibility check preserves the solutions of the program: every solution of the parent's equations together with the definitions solves the folded program's.", "quantifier": "all folds accepted by the check", "why_tests_cant": "Semantic equivalence over all valuations.", "anchors": ["dyna/transform/fold.py:Fold", "dyna/rule.py:Rule.folds_by"]}
{"id": "C35", "title": "Defining and hooking is conservative", "statement": "Introducing a rule for a new functor and using it in place of some subgoals (define, hook, binarize) changes the value of no item whose functor was already in the program; binarize ends with at most two subgoals per rule.", "quantifier": "all programs, all rules and subgoal subsets, all solutions", "why_tests_cant": "Conservativity is over all valuations.", "anchors": ["dyna/program.py:Program.hook", "dyna/program.py:Program.binarize", "dyna/program.py:Define"]}
{"id": "C36", "title": "Linearization preserves values and removes self-joins", "statement": "linearize returns a program with the same values for original items in which no instance of a rule has two subgoals that are the same item (the first of them user-defined and, with a driver, possibly an instance of the driver); a program with this property is returned unchanged.", "quantifier": "all programs, all ground instances", "why_tests_cant": "Universal over instances.", "anchors": ["dyna/program.py:Program.linearize"]}
{"id": "C37", "title": "Pruning preserves outputs", "statement": "Removing rules by functor-level reachability (prune_very_fast) or by the unification-based coarsening (prune_fast) does not change the value of any output item in any round of naive evaluation, for all data on the declared inputs; functor-level pruning keeps exactly the rules whose head and subgoals are reached from the outputs through derivable functors; both always return.", "quantifier": "all programs, input and output declarations, all data on inputs", "why_tests_cant": "Preservation is over all data sets and iteration counts.", "anchors": ["dyna/analyze/dead.py:_hg_prune_very_fast", "dyna/analyze/dead.py:ProgramCoarsening", "dyna/analyze/dead.py:prune_fast", "dyna/util/graphs.py:Hypergraph.reachability"]}
{"id": "C38", "title": "Rule elimination preserves the other items", "statement": "Eliminating a rule from a program in which every body has at most one subgoal sharing an instance with its head gives a program of which every solution, with what the eliminated rule adds, is a solution of the original; the least solutions agree on all items that are not instances of the eliminated head; if the rule does not use its own head every solution of the original arises. Rules that feed an output or are used twice are refused. Rules sharing variables with the eliminated one are handled wrongly.", "quantifier": "all programs, rules to eliminate, inputs, commutative semirings with infinite sums", "why_tests_cant": "Semantic equivalence over all valuations; self-recursive rules are the delicate case.", "anchors": ["dyna/transform/rule_elimination.py:LinearRuleElimination"]}
{"id": "C39", "title": "Nonground solver does not double count", "statement": "When the nonground solver ends, its chart - every item standing for all its ground instances - solves the equations of the program and is below every other solution, provided no ground instance of a rule has two subgoals matched by one popped item. (Without that proviso it is violated: a nonground item that matches two subgoals is counted twice, even in a program that linearize leaves unchanged; witness proved.)", "quantifier": "all programs, data and runs (any order of popping), nonground charts, any complete commutative semiring", "why_tests_cant": "All programs and pop orders; the failing pattern needs a nonground item matching two subgoals.", "anchors": ["dyna/execute/solver2.py:Solver.drive_rule", "dyna/program.py:Program.linearize"]}
{"id": "C40", "title": "Strongly connected components are correct", "statement": "The component function partitions the graph's nodes; two nodes share a component iff each reaches the other; components are emitted in dependency order (everything a component reaches comes earlier).", "quantifier": "all finite directed graphs and iteration orders", "why_tests_cant": "All graphs; classic low-link errors hide in rare topologies.", "anchors": ["dyna/util/graphs.py:tarjan", "dyna/util/graphs.py:Graph.condensation"]}
{"id": "C41", "title": "Transitive closure is reachability", "statement": "The graph's transitive closure contains edge (x, y) iff there is a non-empty path from x to y; the reflexive variant adds exactly the self edges.", "quantifier": "all finite graphs", "why_tests_cant": "All graphs and path lengths.", "anchors": ["dyna/util/graphs.py:Graph.transitive_closure", "dyna/execute/linear.py:kleene"]}
{"id": "C42", "title": "Hypergraph reachability over-approximates usefulness", "statement": "Every node that takes part in some derivation of an output from the inputs is in the returned set, and bottom-up reachability returns exactly the derivable nodes.", "quantifier": "all finite hypergraphs, inputs, outputs, agenda orders", "why_tests_cant": "All hypergraphs and derivations.", "anchors": ["dyna/util/graphs.py:Hypergraph.reachability", "dyna/util/graphs.py:Hypergraph.add_edge"]}
{"id": "C43", "title": "Arithmetic builtins: every solution exactly once", "statement": "In every mode where `is/2` produces answers, an assignment of values to the variables respects exactly one answer if it satisfies the relation asked for, and none otherwise (numbers, comparisons, truth values, strings, ranges, the endless enumeration of ints); two known numbers suffice for an answer unless it divides by zero; a ready query stays ready when variables are bound to numbers. (Violations proved: abs of a negative number, division by zero, TypeError instead of delay, float rounding of integer quotients, is_ready that never returns.)", "quantifier": "all operators, operands, modes and sharings of variables", "why_tests_cant": "Infinite integer domain.", "anchors": ["dyna/builtin.py:Builtins._dispatch", "dyna/builtin.py:Builtins.is_ready"]}
{"id": "C44", "title": "Printing and parsing operator terms round-trip", "statement": "The expression grammar is unambiguous, and printing a term or a rule with minimal parentheses and reading it back gives the same term or rule, for terms in which (a) an operand of equal priority that is printed bare has an operator declared no later than the outer one, (b) prefix operators nest in declaration order, (c) arguments and list items are of higher priority than the comma and the bar, (d) `for` does not occur; for rules, no subgoal is itself a product, and a single subgoal is no conjunction or aggregation. Without these conditions it is violated, with a witness for each.", "quantifier": "all operator terms over the declared operator table", "why_tests_cant": "All nestings of operators; tests cover only common ones.", "anchors": ["dyna/pretty.py:PrettyPrinter.pp_infix", "dyna/syntax.py:add_ops", "dyna/syntax.py:BinOp.render", "dyna/pretty.py:PrettyPrinter.pp_term", "dyna/syntax.py:DynaTransformer.rule"]}
{"id": "C45", "title": "Type truncation only generalizes", "statement": "truncate_term at any depth returns a term that covers its argument and whose depth is bounded, leaves terms within the limit alone, and over a finite signature has finitely many results up to renaming, so type analysis cannot lose facts by truncation.", "quantifier": "all terms and depths", "why_tests_cant": "All terms.", "anchors": ["dyna/analyze/types.py:truncate_term"]}
{"id": "C46", "title": "flatten_op and join_f list leaves and combinations exactly", "statement": "flatten_op lists the leaves of the operator tree denoted by its argument from left to right, so every way of parenthesizing the same operands flattens to the same list; join_f over side-effect-free generators yields every combination of one result per operand exactly once, in lexicographic order, concatenated.", "quantifier": "all operator trees, stores and operators; all operand lists and generators", "why_tests_cant": "All trees.", "anchors": ["dyna/term.py:flatten_op", "dyna/term.py:join_f"]}
{"id": "C47", "title": "A pruned update leaves no trace", "statement": "If the priority function discards an update, the solver's observable state (chart, change buffer, agenda, interner) is exactly as before; the final chart is the solution of the program with the pruned items' equations removed.", "quantifier": "all programs, priority functions and schedules", "why_tests_cant": "Unbounded histories; partial state updates are invisible to tests on final values.", "anchors": ["dyna/execute/solver.py:Solver.update", "dyna/execute/solver2.py:Solver.update"]}
{"id": "C48", "title": "Constraint propagation preserves solutions", "statement": "At every moment of a run of constraint propagation the chart has exactly the solutions of the input; if propagation returns None there is no solution (except where an equality relates two different compound terms that are not both ground, which is wrongly taken for a contradiction); on completion the bindings are exactly the equalities of the chart, and the constraints marked as checked, other than ks and ws, follow from the bindings. Without equalities the returned chart is exactly the set of consequences of the input and does not depend on the order in which constraints are processed; with equalities it does depend on that order.", "quantifier": "all constraint sets, all rule sets, all processing orders", "why_tests_cant": "Orders are factorially many.", "anchors": ["dyna/propagate.py:ConstraintPropagation", "dyna/propagate.py:ConstraintPropagation.__call__"]}
{"id": "C49", "title": "The fold/unfold measure check is sound", "statement": "If the measure check accepts a program made from a reference program by any sequence of define, unfold and fold steps (for some values of the unknown sizes, with measures shared through the cache in any way), then naive evaluation of the program has the same upper bounds for every item, from any data, as naive evaluation of the reference program with the definitions. Side conditions: definitions used by a step are complete for the subgoal and all of them end up in the program, and no two rules of a parent are equal. Without each of these the check accepts steps that change values (witnesses proved).", "quantifier": "all reference programs, step sequences, sizes, caching orders, data, ordered semirings with countable sums", "why_tests_cant": "Histories, programs and data are unbounded; the unsound acceptances need two routes to equal rules.", "anchors": ["dyna/transform/measure.py:Interval", "dyna/transform/measure.py:Measure", "dyna/transform/fold.py:Fold.compute_measure", "dyna/transform/unfold.py:Unfold.compute_measure"]}
{"id": "C50", "title": "Memoized program methods are transparent", "statement": "After any history of memoized calls and rule mutations, a method decorated with instance_cache returns what the undecorated method would return on the program as it is at that moment, and calls share a cache entry iff they differ only in keyword order; FrozenBag compares equal iff the element multisets are equal. (Violated for methods that read the input/output declarations: set_input_types/set_output_types do not clear the cache; witness proved.)", "quantifier": "all histories of calls and mutations, all nested calls, all argument lists, all element lists", "why_tests_cant": "Unbounded histories and multisets.", "anchors": ["dyna/util/util.py:instance_cache", "dyna/util/util.py:FrozenBag", "dyna/program.py:Program._invalidate_caches", "dyna/program.py:Program.set_output_types"]}
{"id": "C51", "title": "Unification constraints can be solved away", "statement": "Replacing equality subgoals of a rule by their most general unifier (snap_unifications) leaves the set of ground instances of the rule with all equalities true unchanged, drops the rule exactly when there are none, and is one-to-one on instances when the variables are determined by those outside the equalities. (Without that condition multiplicities are lost; witness proved.)", "quantifier": "all rules and all ground instances", "why_tests_cant": "All ground instances.", "anchors": ["dyna/term.py:Product.snap_unifications", "dyna/program.py:Program.snap_unifications"]}
{"id": "C52", "title": "Constant folding preserves values", "statement": "Multiplying out the constants in a rule body and summing constant rules with the same head leaves the program's step operator unchanged for every valuation.", "quantifier": "all programs, valuations, commutative semirings", "why_tests_cant": "All valuations and rule orders.", "anchors": ["dyna/program.py:Program.constant_folding", "dyna/program.py:Program.constant_folding_rhs"]}
{"id": "C53", "title": "Simplification and comparison of simple types", "statement": "Simplifying a simple type by constraint propagation loses no item, and adds none when the recorded bindings are in solved form and no ks/ws constraint is dropped; a type simplified to None is empty; if covers(r, s) holds, every item of s is an item of r (under the same conditions); intersect(r, s) contains everything common to r and s, and None means they are disjoint. Without the conditions these fail: ks constraints are dropped, of several bindings of a variable only the last counts, and a binding X = X makes the substitution recurse forever.", "quantifier": "all simple types, rewrite rules, interpretations of the constraints and iteration orders of Python's sets", "why_tests_cant": "Tests compare a few dozen pairs of types; subsumption quantifies over all ground items and all set iteration orders.", "anchors": ["dyna/analyze/rewrites.py:Rewrites.__call__", "dyna/analyze/rewrites.py:Rewrites.covers", "dyna/analyze/rewrites.py:Rewrites.intersect"]}
{"id": "C54", "title": "The slash transformation preserves values", "statement": "If the constructor of the slash transformation returns, then on every item of the original program naive evaluation of the slashed program has the same upper bounds (hence the same value in the limit) as naive evaluation of the original program, and every solution of the slashed program's equations restricts to a solution of the original equations. This needs: no functor both defined by rules and declared as input, pairwise disjoint node patterns, and heads that unify with the selected subgoals whenever they have a common ground instance (heads and subgoals of one rule share variables). Without the first or the third condition values are lost.", "quantifier": "all programs, input declarations, slashed items, positions, data, omega-continuous semirings, runs that return", "why_tests_cant": "Tests compare a few transformed programs on finite data; the claim is about all programs and infinitely many derivations, including cyclic ones.", "anchors": ["dyna/transform/slash.py:Slash.__init__", "dyna/transform/slash.py:Slash._other", "dyna/transform/slash.py:Slash._is_useful_other", "dyna/builtin.py:not_matches3"]}
{"id": "C55", "title": "The left-corner transformation preserves values", "statement": "Under the conditions of C54, if the constructor of the left-corner transformation returns, then on every item of the original program naive evaluation of the transformed program has the same upper bounds (hence the same value in the limit) as naive evaluation of the original program.", "quantifier": "all programs, input declarations, items, positions, data, omega-continuous semirings, runs that return", "why_tests_cant": "As for C54; the left-corner rules reverse the spine of every derivation, which tests sample only for a few grammars.", "anchors": ["dyna/transform/lct.py:LCT.__init__", "dyna/transform/lct.py:LCT._other", "dyna/transform/lct.py:LCT._is_useful_other"]}
{"id": "C56", "title": "Flattening of rules keeps the meaning and reaches the normal form", "statement": "If every head and subgoal of a program is a term with a functor then normalize_unification2 returns a program in which every head is f(V1,...,Vn), and every subgoal that is a term is f(V1,...,Vn), V = V', V = c or V = f(V1,...,Vn). For all values of the items in which a = b has the value one if a and b are equal and zero otherwise, the new program has the same step operator as the old one; hence the same solutions, and, if = is given by the data, the same values under naive evaluation. Normalizing a second time returns the same rules.", "quantifier": "all programs, omega-continuous semirings, values of items, states of the variable counter", "why_tests_cant": "Tests flatten a few programs and compare the shape of the rules; that summing over the new variables changes no value, for any nesting of terms, any semiring and any data, needs induction on terms.", "anchors": ["dyna/program.py:Program.normalize_unification2"]}
{"id": "C57", "title": "Magic templates keep the derivable outputs and derive only what is demanded", "statement": "Let no rule define an instance of a subgoal that is a builtin or unifies with an input declaration. If magic_templates returns, then for all data for inputs and builtins and every instance of a declared output whose conditions hold in the data, the transformed and pruned program derives the instance iff the original program does. Before pruning: the new program derives no new items, derives every demanded derivable item, derives only demanded items, and demands only items that a top-down computation of the outputs can ask for. It returns if the generated name is new and no head, input or output is a builtin.", "quantifier": "all programs, declarations, data (finite or infinite), choices of is_leaf, iteration orders of the pruning, states of the counters", "why_tests_cant": "Tests compare answers of a few programs on small data; the theorem covers all derivations (induction on them), all body orders the heuristic can produce, and infinite data such as comparisons.", "anchors": ["dyna/program.py:Program.magic_templates"]}
{"id": "C58", "title": "$useful marks exactly the items that occur in derivations of outputs", "statement": "If the functor $useful occurs neither in the program nor in its outputs nor in the data, then in the program made by _useful the item $useful(z), z not a builtin, is derivable iff z occurs in some derivation tree of a declared output whose conditions are derivable; all other items are derivable iff they were.", "quantifier": "all programs, declared outputs, data, items", "why_tests_cant": "The claim is an equivalence over all derivation trees; tests look at a few items of a few programs.", "anchors": ["dyna/program.py:Program._useful"]}
{"id": "C59", "title": "kleene_linsolve solves the program, and finds the least solution", "statement": "Let the rules be range-restricted and without builtins. If kleene_linsolve returns (no assertion fails and all instances are ground), then the value it gives to each item equals the sum over all ground instances of all rules of the product of their bodies at these values, provided star satisfies star(a) = 1 + a*star(a) at the pivots. If values are ordered with 0 as least element and star(a)*b is the least solution of x = b + a*x, then it is the least valuation closed under the rules. (Items outside of the estimated support have the value 0.)", "quantifier": "all programs, commutative semirings, star operations, sizes of the support", "why_tests_cant": "Tests compare with another solver on a few small acyclic programs within a tolerance; the theorem covers all cyclic systems, the estimate of the support, accumulation of repeated coefficients and exactness.", "anchors": ["dyna/execute/linear.py:kleene_linsolve", "dyna/program.py:Program.booleanize", "dyna/program.py:Program.solve_linear"]}
{"id": "C60", "title": "newton takes exact Newton steps, and ends in the least solution", "statement": "Let the rules be range-restricted and without builtins, and let star satisfy star(a) = 1 + a*star(a) at the pivots of the linear programs. Every chart that newton(T) returns is reached from the empty chart by Newton steps: with rhs(u) = u + E, the change D of a step satisfies D = E + (derivative of the right-hand sides at u in direction D). There are T steps, or at most T and the last did not change the chart. Without a limit the returned chart is a solution (where addition cancels, and in ordered semirings with least element 0). In ordered semirings the chart is above the T-th round of forward chaining; if moreover star(a)*b is the least solution of x = b + a*x, it is below every valuation closed under the rules, so a chart returned without a limit is the least solution. T=0 is treated as no limit.", "quantifier": "all programs, commutative semirings, star operations, limits T, numbers of iterations", "why_tests_cant": "Tests run newton on a few scalar systems and compare approximately with another solver; the theorem covers the linearization of every rule (recursive and base case) with variables, the bookkeeping of chart, change and next chart over all iterations, and exactness.", "anchors": ["dyna/program.py:Program.newton", "dyna/program.py:Program._newton", "dyna/program.py:Program.__setitem__"]}
{"id": "C61", "title": "type analysis covers every item that can be derived", "statement": "Let the abstract forward chaining of TypeAnalyzer (_run_basic, or _run_generalizing with a disjoin that loses nothing) end with some chart of simple types, where rewrites(.) and rewrites.covers are sound for an interpretation of the type parameters. Then every item that the program and the input type can derive under this interpretation belongs to a simple type of the chart. In every semiring, each item with a value different from zero in some round of evaluation, from input data that the input type describes, belongs to a type of the chart. intersect(Q) covers what belongs both to Q and to the chart. This needs that no rule has a head with the functor of a type parameter: otherwise items are missed.", "quantifier": "all programs, input types, interpretations of the parameters, sound rewrites, depth limits, semirings", "why_tests_cant": "Tests compare the inferred types of a few programs with expected types written by hand; the claim is about every instance of every type for every interpretation, through an agenda algorithm that removes covered types from the chart while it is being driven.", "anchors": ["dyna/analyze/types.py:TypeAnalyzer._run_basic", "dyna/analyze/types.py:TypeAnalyzer._run_generalizing", "dyna/analyze/types.py:TypeAnalyzer._relax", "dyna/analyze/types.py:to_type_program", "dyna/analyze/types.py:TypeAnalyzer.intersect", "dyna/program.py:Program.lookup_vals"]}
{"id": "C62", "title": "coarse graph: acyclic, expansive, components", "statement": "If the coarse graph of a program can be built, every instance of a head, input or nonbuiltin subgoal belongs to exactly one node, an item that depends on another gives an edge between their nodes, and the hypergraph has exactly one edge per input and per rule. If possibly_cyclic() is False, no item depends on itself, and in every semiring the rounds of naive evaluation are constant once there are more rounds than nodes, and are then the only solution. If possibly_expansive() is False, no item can be expanded into two copies of itself. Both return True only if the nodes warrant it. Every subprogram of scc_decomposition() has the same equations as the program on the items of its component, components are disjoint, dependencies lie in the component or in an input and an earlier component, and every output head is in some component. split_input_dependent() loses no rule; its first part is independent of the data if the node of each input is the input itself, and otherwise need not be.", "quantifier": "all programs, inputs, outputs, data, semirings, iteration orders", "why_tests_cant": "Tests build the graph of a few programs and compare it with a graph written by hand; the claims are about all ground instances of the rules and about every semiring.", "anchors": ["dyna/analyze/coarse_graph.py:CoarseGraph.__init__", "dyna/analyze/coarse_graph.py:CoarseGraph.split_input_dependent", "dyna/analyze/coarse_graph.py:CoarseGraph.scc_decomposition", "dyna/analyze/coarse_graph.py:CoarseGraph.possibly_cyclic", "dyna/analyze/coarse_graph.py:CoarseGraph.possibly_expansive", "dyna/term.py:DisjointEstimate.root"]}
{"id": "C63", "title": "anti_unifier covers both types; disjoin loses nothing and ends with disjoint types", "statement": "If the heads of two simple types have a common instance, every item of either type belongs to the type that anti_unifier returns. disjoin(p), whatever the iteration order of sets, returns after at most as many rounds as there are types; every type of p is contained in a type of the result, there are no more types than in p, and no two of them have an item in common. With this disjoin the generalizing type analysis is sound.", "quantifier": "all simple types and charts, all sound rewrites, all iteration orders", "why_tests_cant": "The test of anti_unifier compares results for a few pairs of types with types written by hand (and is marked experimental); containment and disjointness are about all ground items, and the order in which pairs are joined depends on hashing.", "anchors": ["dyna/analyze/rewrites.py:Rewrites.anti_unifier", "dyna/analyze/rewrites.py:Rewrites.disjoin", "dyna/analyze/rewrites.py:Rewrites.intersect", "dyna/analyze/types.py:TypeAnalyzer._run_generalizing", "dyna/term.py:generalizer"]}
{"id": "C64", "title": "scc_solver keeps exactly what the outputs need, in dependency order, with the right values", "statement": "After pass 1 of scc_solver (magic=False), the derivable items that pass 2 keeps are exactly the inputs and the items on which an output depends through derivable instances of rules. No subgoal of such an instance is in a later bucket than its head; with ground outputs two items share a bucket exactly if each depends on the other; once nothing is pending below a bucket, nothing below it changes again. The final chart satisfies the equation of every kept item, and in an ordered semiring kept items have the values of an ordinary run on the whole program.", "quantifier": "all range-restricted programs, data, outputs, orders of enumeration and pop orders within a bucket", "why_tests_cant": "Tests compare a few outputs of a few programs; that nothing needed is dropped and that components converge in order is a statement about all derivable instances, and a wrong bucket only costs time.", "anchors": ["dyna/program.py:Program.scc_solver", "dyna/util/graphs.py:tarjan", "dyna/util/bucket_queue.py:BucketQueue", "dyna/execute/base.py:BaseSolver"]}
{"id": "C65", "title": "Size bounds from types are upper bounds, and the best ones among orders of the constraints", "statement": "If every symbol bounds the number of true constraints with its functor, then stype_bound(S, s, V, body) bounds the number of ground items of the simple type s when the variables in V are given; type_bound bounds the number of items of a query type that the chart allows; size() bounds the number of items that the program can derive. stype_bound is the least cost of an order of the constraints, where a constraint is a test if its variables are known, builtins cannot be enumerated, and a head that stays unknown costs infinity.", "quantifier": "all charts, types, sets of given variables and their values, all sizes including infinity", "why_tests_cant": "The tests of runtime.py only print the bounds (\"missing assertions\"); that a symbolic minimum bounds a count for all interpretations is not something a run shows.", "anchors": ["dyna/analyze/runtime.py:type_bound", "dyna/analyze/runtime.py:SizeBounds._stype_bound", "dyna/analyze/runtime.py:SizeBounds.lookup_bounds", "dyna/analyze/types.py:TypeAnalyzer.size"]}
{"id": "C66", "title": "The running-time bound of a rule bounds its instances and the states of some plan", "statement": "If the types of the chart are flat, share no variables with the rule and cover the items of its subgoals, then Runtime(S)(r) bounds the number of instances of r, and there is a plan that looks up every subgoal once and passes through at most that many states (items found so far). The bound is the least over all orders of the subgoals that may depend on the types found so far; fast mode never gives less; the bound of a program bounds the instances of all its rules. With types that are not flat, with constants, and with subgoals without a type the bound can be too small.", "quantifier": "all charts, rules, sizes, rewriting rules that are sound for the constraints", "why_tests_cant": "The tests only print the bounds; that a bound covers all data that agrees with the types is a statement about infinitely many inputs.", "anchors": ["dyna/analyze/runtime.py:Runtime._suffixtime", "dyna/analyze/runtime.py:Runtime.lookup", "dyna/analyze/runtime.py:Runtime.__call__", "dyna/term.py:Subst.__call__"]}
{"id": "C67", "title": "prune() with the type analysis keeps the values of the outputs", "statement": "prune(), when it returns, keeps in every round of naive evaluation the values of all items that match a declared output (useful analysis), and of all items (bottom_up_only=True), provided that the data agrees with the input type and the patterns that _prune_specialize collects are disjoint or addition is idempotent. prune(specialize=False) keeps them without a condition on the patterns. It keeps only rules with an instance whose head and subgoals all match a type of the chart or a constraint. One step of the specialized program counts every instance of a rule once per choice of patterns that its head and subgoals match; there is a program for which the patterns overlap and prune() doubles a value.", "quantifier": "all programs, input types, data that agrees with them, all semirings with countable sums, numbers of rounds", "why_tests_cant": "The tests compare solutions of a few programs on a few inputs; none of them has overlapping patterns. That the pruned program agrees on all data that agrees with the types, and that counting is right in every semiring, is a statement over infinitely many inputs.", "anchors": ["dyna/program.py:1802-1817", "dyna/analyze/dead.py:181-196", "dyna/program.py:1955-1967"]}
{"id": "C68", "title": "The abbreviation transform keeps the values of all items", "statement": "If Abbreviate(program, types) returns, then the types of the chart are disjoint, and the abbreviation i(vars) of an item by its type has the value of the item: after n rounds of naive evaluation its value lies between the values that the item has after n-2 and n+1 rounds of the original program, and the same holds for every original item that is no input. So both programs have the same upper bounds, hence the same limits. This needs only that the chart covers the items that can have a value, which the type analysis guarantees.", "quantifier": "all programs, charts, data that agrees with the input type, all ordered semirings with countable sums, numbers of rounds", "why_tests_cant": "The tests compare the solutions of a few abbreviated programs on small inputs. That no type combination loses or doubles an instance of a rule, in every semiring, is a statement over all programs and data.", "anchors": ["dyna/analyze/abbreviate.py:20-129", "dyna/program.py:1273-1375", "dyna/analyze/types.py:236-250"]}
{"id": "C69", "title": "Groundings are exactly the firing instances, and instantiating keeps the values", "statement": "groundings(chart) yields exactly the ground instances of the rules whose bodies hold in the chart, with the index of the rule and the values of the body, no instance of a rule twice, in the order of the rules. On valuations that vanish outside the chart, the step operators of the program and of instantiate(chart) agree; so the chart that agenda ends with is a fixpoint of the instantiated program, fc computes the same for both after any number of rounds, agenda on the instantiated program gives the same chart, and instantiating again changes nothing. If the bodies can be evaluated from left to right, instantiate ends.", "quantifier": "all range-restricted programs, charts, commutative semirings (ordered with least element 0 for the comparison of rounds and agendas), valuations, items", "why_tests_cant": "The tests instantiate a few grammars on short sentences and look at values. That no firing instance is missed or listed twice under destructive unification is a statement over all programs and charts.", "anchors": ["dyna/program.py:1178-1196", "dyna/program.py:1230-1243", "dyna/program.py:1277-1375"]}
{"id": "C70", "title": "Top-down search enumerates the derivations of a query, each once", "statement": "What sld(p, x) has yielded at any time are derivations of instances of x, no two with the same rules at the same places. When it ends, every derivation of an instance of x is an instance of exactly one of the yielded trees; if the rules bind their variables, the yielded trees are exactly the derivations of the instances of x, each once, and summing the products of their leaves gives the value of each instance from some round of the step operator on. It ends on programs without recursion whose bodies can be evaluated from left to right. It yields nothing on left recursion, and it is lazy: the first n of infinitely many derivations can be taken.", "quantifier": "all programs whose heads and subgoals have a constant functor, queries, semirings, stopping points", "why_tests_cant": "The tests compare sld with the bottom-up enumerators on small acyclic grammars. That destructive bindings and reused rule copies never lose, duplicate or mix up derivations is a statement over all programs, queries and stopping points.", "anchors": ["dyna/derivations.py:428-452", "dyna/program.py:1277-1375", "dyna/term.py:377-409", "dyna/term.py:878-901"]}
{"id": "C71", "title": "The derivation mapping of an unfold is a value-preserving bijection", "statement": "Let a program have pairwise different rules, let the unfolded subgoal be no builtin, and let its definitions have no head variable that is missing from their body. Then Unfold(p, i, j).transform never fails, takes each derivation of p to a derivation of the unfolded program for the same item with the same leaf values in the same order, takes different derivations to different ones, and reaches every derivation of the unfolded program. No derivation grows. With equal rules it is not injective, and if a variable is lost the image is not a derivation of the new program.", "quantifier": "all programs, rule and subgoal numbers, derivations (also non-ground), values", "why_tests_cant": "The tests map the derivations of a few small programs. A bijection between two infinite sets of trees cannot be tested, nor that no other program confuses two derivations.", "anchors": ["dyna/transform/unfold.py:83-95", "dyna/transform/unfold.py:53-76", "dyna/derivations.py:24-47", "dyna/derivations.py:78-88"]}
{"id": "C72", "title": "The agenda-based program search is sound, complete when it ends, and fair", "statement": "Whatever the random choices, the search never raises an exception of its own, pops every pushed state at most once, and keeps as its best program the cheapest of the root and the programs yielded so far. Only programs are yielded that moves generate from the root and that equal a generated program that passes check_measure. If equal programs get the same verdict and the agenda runs empty, exactly the generated programs that pass were yielded and the result is the cheapest of all. A state is popped by the time the oldest state was popped as often as there are states before it. Purely greedy search (p_greedy=1) can starve a state for ever; and if equal programs get different verdicts, the cache of check_measure makes the search yield a program that fails and miss a cheaper one that passes.", "quantifier": "all roots, move functions, priorities, costs, checks and sequences of random choices, of any length", "why_tests_cant": "The tests run the search for some steps with one seed on a few programs and look at the best cost. Neither all interleavings nor runs that end can be sampled, and starvation shows only in an infinite run.", "anchors": ["dyna/search/search.py:67-113", "dyna/search/search.py:131-168", "dyna/search/search.py:170-189", "dyna/program.py:543-550"]}
{"id": "C73", "title": "Beam search returns the first cheapest program within its budget", "statement": "For all actions, costs, budgets and beam sizes, beam search ends after at most reps rounds, evaluates at most max(1, reps) programs and exactly so many if it stops for lack of evaluations, evaluates the initial program twice, and returns the first program of the least cost among those evaluated, all of which actions reach from the initial program. The beam keeps the beam_size cheapest candidates, ties going to those found first. If no level is wider than the beam and the beam runs empty, all reachable programs were evaluated. The to-do list of Graph2 always holds rules of the current program: those that are new or were still to do, except the one just handled, so that rule_index never fails.", "quantifier": "all action functions, costs, oracles, budgets, beam sizes, initial states; all sequences of programs for the to-do list", "why_tests_cant": "A test runs a few budgets and beam sizes on one program; it cannot show that each candidate is counted, that the loop always ends, or that no sequence of transformations makes the to-do list stale.", "anchors": ["dyna/search/old.py:55-64", "dyna/search/old.py:89-126", "dyna/search/old.py:184-197", "dyna/search/old.py:494-500", "dyna/search/old.py:556-565"]}
{"id": "C74", "title": "Variable elimination keeps values, never raises the degree and cannot go on forever", "statement": "The analyzer of a rule lists for each variable exactly the body elements that mention it, and lets a variable be eliminated exactly if it is not in the head and some body element has variables but not this one. A program's degrees are its rules' numbers of variables in descending order, and comparing two costs compares the numbers of rules at the largest degree at which they differ. Hooking the factors of an eliminable variable yields a rule without that variable plus a definition over the variables that share a factor with it: the values of all old items stay, the degree does not grow, and the cost drops exactly if some variable of the rule shares no factor with the eliminated one. eurekas() adds exactly these programs and, on unused names, never raises; every run of _drive_eureka alone is finite, with a bound computed from the rules, and stays within chains of eliminations.", "quantifier": "all programs, rules, variables, iteration orders of sets, commutative semirings with infinite sums, and all chains of eliminations of any length", "why_tests_cant": "Chains of eliminations and the infinitely many possible values of the items cannot be enumerated, and whether the process ends for every program is not observable from runs.", "anchors": ["dyna/rule.py:226-257", "dyna/program.py:30-32", "dyna/program.py:326-337", "dyna/program.py:1595-1632", "dyna/programs.py:39-48", "dyna/search/search.py:301-340"]}
{"id": "C75", "title": "Newton's iterations count derivations by dimension", "statement": "After T iterations newton(T) has counted every derivation whose dimension (Strahler number, with only subgoals as branches) is less than T: its value is below the value of its item; a run that ends at a fixpoint has counted all derivations. With idempotent addition nothing else is counted: the value of each item is the supremum of the values of exactly these derivations. Every derivation whose Derivation.dimension is less than T is among them, and where constants occur only as whole bodies the two dimensions agree; in general they do not, since the code also counts constants as branches.", "quantifier": "all programs without builtins, ordered commutative semirings, limits T, runs and derivations of any size", "why_tests_cant": "Items have infinitely many derivations, and whether each of a given dimension has been counted is not visible in the computed values.", "anchors": ["dyna/program.py:1095-1140", "dyna/derivations.py:109-118"]}
{"id": "C76", "title": "The search for folds loses nothing", "statement": "If no subgoal is a variable: the proposals of fold_proposals are, up to renaming and reordering, exactly the rules that folding a rule of the program by a definition gives, without those to be skipped, and no two are variants; its early test on functors drops nothing; and every set of rules that passes safe_by_rev for a proposed rule lies within the candidates of prune_r_S. For each proposal reversible_megafolds terminates and yields one fold that passes the check if any set of rules passes, else none; it checks no set twice, and _drive_reversible_folds finds the same fold. partial_megafolds yields one fold for each proposal for which partially_safe accepts some set, and every accepted set gives an equal program. With variables as subgoals both filters drop valid folds.", "quantifier": "all programs, definitions, proposals, semirings, iteration orders of sets, and sets of rules of any size", "why_tests_cant": "That no fold is lost speaks about all subsets of the rules and all rules that could be proposed; tests check that particular folds are found.", "anchors": ["dyna/program.py:1641-1730", "dyna/transform/fold.py:188-265", "dyna/rule.py:65-67", "dyna/term.py:904-931", "dyna/search/search.py:222-242"]}
{"id": "C77", "title": "The program graph records the history, and tidy keeps its justified part", "statement": "The graph of a collection of programs has exactly the edges of the programs in the histories of its members, each history followed up to the first fresh copy on each path; the identities remembered by add_parents lose nothing. For every graph and every list of nodes held to be correct, tidy terminates and returns exactly the edges into correct nodes whose dependencies can be built from the ground up with such edges, even if the graph has cycles. If every fresh copy is of a program that is also reached otherwise, the graph has the whole history and tidying with all nodes correct changes nothing; otherwise history is lost and tidy drops programs whose whole history is correct.", "quantifier": "all histories of programs, all collections, all graphs (with cycles), all lists of correct nodes", "why_tests_cant": "Termination and exactness of tidy on graphs of any size and shape, cycles included, is a statement about a least fixpoint over all graphs; the tests draw particular graphs.", "anchors": ["dyna/programs.py:233-301"]}
{"id": "C78", "title": "unfold_x keeps output values, removes the subgoals and ends", "statement": "Whatever unfold_x(x) returns, every output item has the same least upper bound of values over all rounds of bottom-up evaluation as before, although each step unfolds and prunes. If the definitions of x items have no subgoal that could be an x item, then unfold_x returns, after a number of unfoldings bounded by the sum over rules of (N+1)^n (N rules for the functor of x, n subgoals to unfold), and no subgoal of the result could be an x item. Each step unfolds the first such subgoal; one that can match an input raises. Without that condition it can stop early, with x subgoals left in other rules, when unfolding the first one gives an equal program.", "quantifier": "all programs, patterns, semirings with infinite sums and an order, data, rule comparisons that identify only variants", "why_tests_cant": "The docstring only warns that the loop may not terminate; a bound for all programs, and that repeated unfolding and pruning never changes an output, needs an argument over arbitrarily many steps.", "anchors": ["dyna/program.py:1552-1570"]}
{"id": "C79", "title": "run_builtins keeps values and leaves only builtins that cannot be run", "statement": "run_builtins returns, after at most three turns of its loop for each rule. Each rule becomes at most one rule, with the same constant factor, whose head and subgoals are instances of the rule's head and of its subgoals other than equations. The result has no equations, and every comparison left has a variable. If addition is idempotent or each rule's variables are determined by its head and other subgoals where the equations hold, the result has the same solutions and the same limit of bottom-up evaluation. Otherwise the rule's contribution is exactly infinitely many times that of what it becomes: `goal += (X = Y).` becomes `goal += 1.` A rule with a subgoal `$free(X)` or `$bound(X)` disappears.", "quantifier": "all programs with equations and comparisons, all semirings with infinite sums, all data, all rule comparisons up to renaming", "why_tests_cant": "Whether the repeat-until-equal loop ends, and whether solving equations and dropping decided comparisons keeps the value for every program and every data set, are statements about infinitely many programs; tests compare a few outputs.", "anchors": ["dyna/program.py:1478-1506", "dyna/program.py:1259-1266", "dyna/program.py:1313-1339", "dyna/builtin.py:79-95"]}
{"id": "C80", "title": "Derivations are built soundly, but not from every order of the children", "statement": "Building a Derivation ends. If it succeeds, its children are those given, in some order, and in that order they are an instance of the rule; children that already fit stay as they are. If ground children can be assigned to the subgoals in exactly one way and the item fits, building succeeds just if that assignment is its own inverse, and then puts them in the rule's order; otherwise it raises, since reorder_subgoals applies the inverse permutation. So, for every rule of three or more subgoals no two of which have a common instance, every ground instance of it with its first child moved to the end is refused. If the children can be assigned in two ways that give different items, building raises, even if only one of them is the given item.", "quantifier": "all rules, items, lists of children, set iteration orders", "why_tests_cant": "The tests never build a derivation whose children are permuted by a cycle of length three or more; which permutations work, for rules of any length, is a statement about all permutations.", "anchors": ["dyna/derivations.py:24-40", "dyna/derivations.py:455-488", "dyna/rule.py:105-175"]}
{"id": "C81", "title": "Mapping derivations between programs does not depend on the path, unless two programs are equal", "statement": "Take programs with a common root, together with all programs they were made from, no two of them equal under ==, such that the derivation mapping of each transformation is one-to-one and undone by its reverse mapping. Then Transform ends, maps every derivation of the source to one of the target, is one-to-one and onto, and gives what any walk through the network of mappings gives; in particular mapping to a third program on the way changes nothing, mapping there and back is the identity, and whatever each step keeps is kept. Between programs with unequal roots it raises. If two of the programs are equal but not the same object, this fails: after unfolding a rule and folding it back, mapping a derivation of the result to its own parent raises, because the result is taken for the equal grandparent.", "quantifier": "all networks of programs of any shape and depth, derivations, per-step mappings", "why_tests_cant": "The tests map single derivations along one path. The source marks the method with a subtle bug; under which condition it is right is a statement about all networks and all walks through them.", "anchors": ["dyna/program.py:2148-2190", "dyna/program.py:2027-2032", "dyna/program.py:2193-2204"]}
{"id": "C82", "title": "Undoing the derivation mapping of an unfolding gives the derivation back, unless the definition can be found at two places", "statement": "Unfold.untransform goes through the fold that undoes the unfolding. If the records of that fold say which definition each added rule came from and at which places the body of the definition stands, then untransform ends on every ground derivation of the new program, gives a derivation of the old program, and is the inverse of transform in both directions, to any depth and also if the definition is the unfolded rule itself. The records of the places are right if the body of the definition has an instance in the added rule at these places only. Otherwise they can be wrong: for goal += a * x with x += a, mapping a derivation forth and back exchanges the two derivations of a, so that the product has another order.", "quantifier": "all programs as in C71, ground derivations of any size, set iteration orders", "why_tests_cant": "The tests map a few derivations of programs whose definitions are recognised uniquely. The code calls its splitting guess work; when the guess is right, for all derivations, is what is stated.", "anchors": ["dyna/transform/fold.py:53-140", "dyna/transform/unfold.py:78-81", "dyna/transform/unfold.py:118-120"]}
{"id": "C83", "title": "The slash transformation maps derivations one to one, keeping item and rules, on exactly the derivations described", "statement": "Where Slash.transform succeeds on a derivation of the program, the result is a derivation of the slashed program, of the same item, with the same constants, and with the rules made from the rules of the old derivation, each as often; the rules for the base case and for putting the parts together do not count. The old derivation can be read off the new one, so different derivations have different images. The mapping succeeds on a derivation exactly if at each of its nodes: an instance of x made by a rule with a position has an instance of x further down along the positions; an item to be kept apart, with no instance of x at or below it, is covered by a node of the coarse graph that has no common instance with x; an item not to be kept apart is made by a rule whose head is not kept apart either. Otherwise it raises: the three cases are a call with too many arguments, a missing rule, and a head that does not match.", "quantifier": "all programs and positions accepted by the transformation, all ground derivations of any size with builtins as leaves, any commutative monoid, any iteration order", "why_tests_cant": "The tests map the derivations of a few programs. That no two derivations of any program are mapped to one, and for which derivations the call fails, is about infinitely many trees.", "anchors": ["dyna/transform/slash.py:146-227", "dyna/program.py:783-808"]}
{"id": "C84", "title": "The measure of the slash transformation keeps the measure of each derivation, but its zero-size items break the fold condition", "statement": "Every rule of the slashed program gets a measure. The image of a derivation under Slash.transform has the same measure as the derivation, for both ends of the interval. For each instance z of x the item z/z has a derivation of measure zero. Since min_size counts every item as at least one, the safety condition of fold is not enough in a slashed program: there is a fold that the unit measure and the symbolic measure both accept and that loses the value of an item of the original program.", "quantifier": "all programs and positions accepted by the transformation, all measures of the parent's rules, all ground derivations; for the last part a specific program, any number of rounds of evaluation", "why_tests_cant": "That an item has no value after any number of rounds is not seen in a run, and a run of the safety check alone reports that all is well.", "anchors": ["dyna/transform/slash.py:229-248", "dyna/transform/measure.py:55-63", "dyna/transform/measure.py:113-119"]}
{"id": "C85", "title": "Whatever the agenda-based search yields or returns as best has the values of the original program", "statement": "Take any sequence of the moves of the search (hook a set of subgoals under a new name, fold by a definition of the lineage, unfold by the program of the lineage where the subgoal first appears). If the measure constraints of the resulting program hold for some values of the unknowns, its naive evaluation has the same upper bounds as that of the original program for every item without a generated name, from any input data. Hence every program that the search yields and the one it keeps as best has these values, whatever the costs and the random choices are, also with the cache of check_measure over equal programs. Which programs are made does not depend on the values of the unknowns. A rule with a builtin subgoal makes the search raise: the unfolding of the builtin is pushed, and its measure cannot be computed. No move is missed: from every generated program that passes the check, all hooks and unfoldings in rules not passed over and all proposed folds by the lineage are generated, and every generated program is the original one or made by one move from a generated one.", "quantifier": "all programs with named subgoals, all sequences of moves that meet the assumptions on each move, all costs and choices, all ordered semirings, all data", "why_tests_cant": "The tests compare values for a few searches of bounded length; sequences of moves are unbounded, and a fold can be wrong only for programs with particular cycles.", "anchors": ["dyna/search/search.py:131-216", "dyna/search/search.py:244-340"]}
{"id": "C86", "title": "Where the left-corner transformation maps a derivation, the result is a derivation of the same item with the same constants; which derivations it maps", "statement": "Where LCT.transform succeeds on a derivation of the program, the result is a derivation of the transformed program, of the same item, with the same constants, each as often. It succeeds exactly on the derivations described: at a rule without a position an item that is kept apart must be covered by a node of the coarse graph that has no common instance with x; an item that is not kept apart, or that is no instance of x and made by a rule with a position, must be made from the same children by some rule without position whose head is not kept apart; otherwise the items at both ends of the spine must be instances of x, and must be nodes of the coarse graph themselves, with no other node above them; and the same for the children off the spine. So an instance of x is never mapped if its last rule has no position, nor if its last rule has a position and a head with variables. Different derivations can have the same image. If no two rules have a common ground instance, the result has the rules made from those of the old derivation, each as often, the old derivation can be read off it, and different derivations have different images.", "quantifier": "all programs with named subgoals, positions, terms x, and all derivations of the program", "why_tests_cant": "The tests of the left-corner transformation compare values and never map derivations of programs with variables; derivations are unbounded in size and a failing lookup shows only for the right combination of nodes.", "anchors": ["dyna/transform/lct.py:141-180", "dyna/transform/lct.py:95-112", "dyna/program.py:783-808"]}
{"id": "C87", "title": "The measure of the left-corner transformation keeps the measure of derivations only if rules do not overlap, and its zero-size items break the fold condition", "statement": "Every rule of the transformed program gets a measure. If no two rules of the program have a common ground instance, the image of a derivation under LCT.transform has the same measure as the derivation, for both ends of the interval; otherwise it can have another one. For each term z the item z/z has a derivation of measure zero. Since min_size counts every item as at least one, the safety condition of fold is not enough in a transformed program: there is a fold that the unit measure and the symbolic measure both accept and that loses the value of an item of the original program.", "quantifier": "all programs and positions accepted by the transformation, all measures of the parent's rules, all ground derivations; for the counterexamples specific programs, any number of rounds of evaluation", "why_tests_cant": "That an item has no value after any number of rounds is not seen in a run, and a run of the safety check alone reports that all is well; no test maps derivations of a program with overlapping rules.", "anchors": ["dyna/transform/lct.py:182-201", "dyna/transform/measure.py:55-63", "dyna/transform/measure.py:113-119"]}
{"id": "C88", "title": "What the methods of a program collection add, and which of them need the measure check", "statement": "eurekas, folds_seq, unfolds_seq and unfolds_first keep the programs of the collection and add exactly the programs of one move of their kind: each hook of the factors of a rule, each proposed fold by the definitions of the lineage, each unfolding of a subgoal that can be inlined by a program of the lineage of which it is an item, and for unfolds_first only by the oldest such program. A member whose measure constraints can be satisfied has the values of the original program. For collections made by unfolds_seq and unfolds_first alone the constraints hold for all positive values of the unknowns, so that no check is needed. For folds_seq it is: applied twice to goal += b * c. z += b * c. it gives goal += z. z += goal., which has lost the values of goal.", "quantifier": "all collections, programs, sequences of the methods and enumerations of candidates; all positive values of the unknowns; all input data", "why_tests_cant": "A collection grows with every method and program; the tests look at the best member of a few collections. That a measure constraint cannot fail is a statement about all sequences of unfoldings.", "anchors": ["dyna/programs.py:39-48", "dyna/programs.py:68-91", "dyna/programs.py:93-110"]}
{"id": "C89", "title": "Racing a collection returns the first of the fastest programs, at a bounded price", "statement": "What race returns is a program of the collection with its result; it ends within the budget of the last round, it is the first of the fastest programs of that round, and no program ended within the budget of an earlier round. If the budget grows and one program never takes longer than d, race returns, and either the first round was enough or all rounds together take less than g^2/(g-1) times the number of programs times d, where g is the growth factor. On an empty collection race never returns, and neither does it if the budget does not grow and all programs take longer than the first budget.", "quantifier": "all collections, first budgets, growth factors, and durations of the programs in each round", "why_tests_cant": "Durations vary from run to run, and that a loop never ends cannot be seen in a run.", "anchors": ["dyna/programs.py:210-230"]}
{"id": "C90", "title": "All slash and left-corner transformations of a collection: every choice of subgoals once, and all keep the values", "statement": "slashes and lct of a program collection transform each program once for each way to choose at most one subgoal in each rule, so that a program gives as many results as the product of the lengths of its bodies plus one; the programs of the collection are not in the result. Every result has, on the items of the program that it was made from, the values of that program.", "quantifier": "all collections of programs without constants and builtins as subgoals, all choices of subgoals, all input data, any ordered complete semiring", "why_tests_cant": "The number of results is exponential in the number of rules; tests compare a few of them on a few inputs.", "anchors": ["dyna/programs.py:186-208"]}
{"id": "C91", "title": "Answer to a user query", "statement": "The program that user_query of the forward-chaining solver returns has one fact for each item of the chart that is an instance of the query and whose value constant folding does not take for zero, with the value in the chart; it has no other rule and no item twice. When the run has finished with exact comparison and only zero is taken for zero, these are the instances of the query with a value other than zero in the least solution.", "quantifier": "all range-restricted programs and data, all states of the solver (finished or interrupted), all queries that are items, any order of the answers", "why_tests_cant": "Queries with repeated variables, charts and interruptions are unlimited; tests ask a few queries whose values are not small.", "anchors": ["dyna/execute/base.py:32-46", "dyna/execute/solver.py:123-150", "dyna/program.py:1440-1456"]}
{"id": "C92", "title": "Lifting a program into another semiring", "statement": "If the lift function of a semiring is a homomorphism that keeps infinite sums and does not look at the head, lift_semiring maps the values of a program as it maps its constants: one step, each round of naive evaluation and each solution. In particular the program lifted to truth values makes true in each round exactly the items whose value in that round is not zero, for weights without zero divisors and without sums that cancel. _coerce_semirings gives two programs the same semiring unless they have different ones, lifts only a program that has none, and changes nothing but its constants, each lifted with the head of its rule.", "quantifier": "all programs, all data, all lift functions, any two semirings with infinite sums", "why_tests_cant": "Tests lift a few programs into a few semirings and run them on finite data.", "anchors": ["dyna/rule.py:41-45", "dyna/program.py:351-355", "dyna/program.py:554-565"]}
{"id": "C93", "title": "The unit measure is sound but incomplete", "statement": "Every sequence of moves (unfolding, naming, folding) that safe_by_unit accepts is accepted by safe_by_smt, and the program it makes has the values of the original program. There is a fold that safe_by_smt accepts and safe_by_unit rejects.", "quantifier": "all programs, all sequences of moves of any length that fit, all input data", "why_tests_cant": "The comment of unit_measure makes this claim about all chains of transformations; tests run both checks on a few short ones.", "anchors": ["dyna/program.py:1755-1771", "dyna/transform/measure.py:81-87", "dyna/transform/measure.py:384-387"]}
{"id": "C94", "title": "The solver chosen for a program does not raise", "statement": "For a program without builtins, _solver_for chooses solver 1 just if every head variable is in an item of the body; then solver 1 raises no exception in any state it can reach, and every step (initializing a rule, processing an agenda item) ends. The same holds with equations, if all variables are bound by items directly or through equations. If a head variable is missing from the body, solver 1 does not finish the initialization of the rule once its body has a match. With builtins the choice is not safe: there are rules that count as range-restricted on which solver 1 raises.", "quantifier": "all programs, all input data, all orders of the agenda, all reachable states of the solver", "why_tests_cant": "The docstring of _solver_for promises safety for every range-restricted program; tests run the chosen solver on a few programs and data sets.", "anchors": ["dyna/program.py:857-880", "dyna/execute/solver.py:53-168", "dyna/execute/base.py:101-133"]}
{"id": "C95", "title": "When the magic program is range-restricted, and which solvers scc_solver uses", "statement": "In the program made by magic_templates all rules but those for demanded items are range-restricted. The program is range-restricted just if the outputs are and each demanded subgoal has only variables of its rule's head and of the elements before it; so scc_solver with magic=True uses solver 1 in pass 1 if demanded subgoals only have head variables, and solver 2 is the choice if one has a variable of its own. Pass 2 goes by the program. The comment in scc_solver that the magic program is range-restricted does not hold for all programs.", "quantifier": "all programs, inputs, outputs, and dependency graphs", "why_tests_cant": "The comment makes a claim about the magic version of every program; tests run a few programs, on which the wrong choice may only be slow.", "anchors": ["dyna/program.py:857-880", "dyna/program.py:902-950", "dyna/program.py:973-985", "dyna/program.py:1011"]}
