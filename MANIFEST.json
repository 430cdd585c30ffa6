{"claims": [
 {"property": "C01", "status": "proved", "theorems": ["Verif.Heap.C01_sound", "Verif.Heap.C01_soundN"], "note": ""},
 {"property": "C02", "status": "proved", "theorems": ["Verif.Heap.C02_complete", "Verif.Heap.C02_unifies"], "note": ""},
 {"property": "C03", "status": "proved", "theorems": ["Verif.Heap.C03_no_trace", "Verif.Heap.C03_no_traceN", "Verif.Heap.C03_once", "Verif.Heap.C03_signal"], "note": ""},
 {"property": "C04", "status": "proved", "theorems": ["Verif.Heap.C04_terminates", "Verif.Heap.C04_acyclic", "Verif.Heap.C04_queries"], "note": ""},
 {"property": "C05", "status": "proved", "theorems": ["Verif.Subst.C05_terminates", "Verif.Subst.C05_fail", "Verif.Subst.C05_mgu", "Verif.Subst.C05_agrees"], "note": ""},
 {"property": "C06", "status": "proved", "theorems": ["Verif.Subst.C06_covers", "Verif.Subst.C06_subst", "Verif.Subst.C06_same", "Verif.Subst.C06_same_terminates", "Verif.Subst.C06_shared_unsound", "Verif.Subst.C06_shared_incomplete"], "note": "Positive statements for variable-disjoint terms; C06_shared_unsound and C06_shared_incomplete prove the answers can be wrong for terms sharing variables."},
 {"property": "C07", "status": "proved", "theorems": ["Verif.C07_iff", "Verif.C07_form", "Verif.C07_terminates"], "note": ""},
 {"property": "C08", "status": "proved", "theorems": ["Verif.C08_fresh", "Verif.C08_apart", "Verif.C08_terminates"], "note": ""},
 {"property": "C09", "status": "proved", "theorems": ["Verif.C09_store", "Verif.C09_intersect", "Verif.C09_terminates"], "note": ""},
 {"property": "C10", "status": "proved", "theorems": ["Verif.Order.C10_irrefl", "Verif.Order.C10_trans", "Verif.Order.C10_asymm", "Verif.Order.C10_total", "Verif.Order.C10_sorted_unique", "Verif.Order.C10_same_name"], "note": "on terms with constant functors and variables with distinct names; C10_same_name shows distinct variables of equal name are incomparable"},
 {"property": "C11", "status": "proved", "theorems": ["Verif.C11_covers", "Verif.C11_unsound"], "note": "for variable-disjoint unifiable terms with constant functors (the way DisjointEstimate calls it); C11_unsound proves the unrestricted claim false"},
 {"property": "C12", "status": "proved", "theorems": ["Verif.MostGeneral.C12_antichain", "Verif.MostGeneral.C12_maximal", "Verif.MostGeneral.C12_terminates", "Verif.MostGeneral.C12_root"], "note": "for the term-level relation `covers`; all histories"},
 {"property": "C13", "status": "proved", "theorems": ["Verif.DisjointEst.C13_covers", "Verif.DisjointEst.C13_roots", "Verif.DisjointEst.C13_terminates", "Verif.DisjointEst.C13_overlap"], "note": "coverage and roots proved for all histories of terms with constant functors; C13_overlap proves the documented disjointness is violated by a reachable history"},
 {"property": "C14", "status": "proved", "theorems": ["Verif.NoDups.C14_classes", "Verif.NoDups.C14_terminates", "Verif.NoDups.C14_root"], "note": ""},
 {"property": "C15", "status": "proved", "theorems": ["Verif.Product.C15_exact", "Verif.Product.C15_result", "Verif.Product.C15_terminates"], "note": ""},
 {"property": "C16", "status": "proved", "theorems": ["Verif.Rule.C16_same", "Verif.Rule.C16_terminates", "Verif.Rule.C16_equivalence", "Verif.Rule.C16_collision", "Verif.Rule.C16_bare_variable"], "note": ""},
 {"property": "C17", "status": "proved", "theorems": ["Verif.RuleOps.C17_eq", "Verif.RuleOps.C17_symbolic", "Verif.RuleOps.C17_order", "Verif.RuleOps.C17_align", "Verif.RuleOps.C17_align_perfect", "Verif.RuleOps.C17_rules"], "note": ""},
 {"property": "C18", "status": "proved", "theorems": ["Verif.ProgIndex.C18_exact", "Verif.ProgIndex.C18_complete", "Verif.ProgIndex.C18_no_error", "Verif.ProgIndex.C18_shadowed", "Verif.ProgIndex.C18_unseen_functor", "Verif.ProgIndex.C18_late_functor", "Verif.ProgIndex.C18_wild_append"], "note": ""},
 {"property": "C19", "status": "proved", "theorems": ["Verif.ProgUpdate.C19_accumulates", "Verif.ProgUpdate.C19_nonconstant", "Verif.ProgUpdate.C19_history", "Verif.ProgUpdate.C19_no_error", "Verif.ProgUpdate.C19_empty_body", "Verif.ProgUpdate.C19_step"], "note": ""},
 {"property": "C20", "status": "proved", "theorems": ["Verif.GenFunctor.C20_distinct", "Verif.GenFunctor.C20_new", "Verif.GenFunctor.C20_total", "Verif.GenFunctor.C20_local", "Verif.GenFunctor.C20_local_terminates", "Verif.GenFunctor.C20_digit_prefix"], "note": ""},
 {"property": "C21", "status": "proved", "theorems": ["Verif.BQ.C21_content", "Verif.BQ.C21_pop", "Verif.BQ.C21_total"], "note": ""},
 {"property": "C22", "status": "proved", "theorems": ["Verif.Kleene.C22_transitive_right", "Verif.Kleene.C22_transitive_left", "Verif.Kleene.C22_right", "Verif.Kleene.C22_left", "Verif.Kleene.C22_least", "Verif.Kleene.C22_linsolve"], "note": ""},
 {"property": "C23", "status": "proved", "theorems": ["Verif.Solver.C23_finite", "Verif.Solver.C23_tolerance", "Verif.Solver.C23_fixpoint"], "note": ""},
 {"property": "C24", "status": "proved", "theorems": ["Verif.Solver.C24_below", "Verif.Solver.C24_least", "Verif.Solver.C24_schedule"], "note": ""},
 {"property": "C25", "status": "proved", "theorems": ["Verif.Chart.C25_exact", "Verif.Chart.C25_total", "Verif.Chart.C25_variable_functor"], "note": ""},
 {"property": "C26", "status": "proved", "theorems": ["Verif.Deriv.C26_finite", "Verif.Deriv.C26_trees", "Verif.Deriv.C26_forward_chaining", "Verif.Naive.C26_rounds", "Verif.Naive.C26_no_rounds", "Verif.Naive.C26_total"], "note": "for rules whose variables are all bound by subgoals or equalities (Safe); zero rounds leave a local variable unbound (C26_no_rounds)"},
 {"property": "C27", "status": "proved", "theorems": ["Verif.Naive.C27_rounds", "Verif.Naive.C27_equal", "Verif.Naive.C27_total"], "note": "for Safe rules, exact comparison of charts; termination for rules evaluable left to right"},
 {"property": "C28", "status": "proved", "theorems": ["Verif.Naive.C28_fixpoint", "Verif.Naive.C28_invariant", "Verif.Naive.C28_least", "Verif.Naive.C28_forward_chaining", "Verif.Naive.C28_progress", "Verif.Naive.C28_tolerance_loses"], "note": "for Safe rules with exact comparison of values, any pop order; C28_tolerance_loses proves a tolerance can stop at a non-fixpoint"},
 {"property": "C29", "status": "proved", "theorems": ["Verif.Solver.C29_incremental", "Verif.Solver.C29_one_call"], "note": ""},
 {"property": "C30", "status": "proved", "theorems": ["Verif.Deriv.C30_naive", "Verif.Deriv.C30_seminaive", "Verif.Deriv.C30_agree", "Verif.Deriv.C30_naive_total", "Verif.Deriv.C30_seminaive_total", "Verif.Deriv.C30_builtin_raises"], "note": "for Safe rules; the semi-naive enumerator raises when a rule with builtins fires (C30_builtin_raises), totality therefore for programs without builtins"},
 {"property": "C31", "status": "proved", "theorems": ["Verif.Deriv.C31_sound", "Verif.Deriv.C31_finished", "Verif.Deriv.C31_fair", "Verif.Deriv.C31_progress", "Verif.Deriv.C31_total"], "note": "for Safe rules; runs exist for programs without builtins (C31_total), with builtins the enumerator raises (C30_builtin_raises)"},
 {"property": "C32", "status": "proved", "theorems": ["Verif.Deriv.C32_dimension_height", "Verif.Deriv.C32_height_size", "Verif.Deriv.C32_value", "Verif.Deriv.C32_dimension"], "note": ""},
 {"property": "C33", "status": "proved", "theorems": ["Verif.Unfold.C33_step", "Verif.Unfold.C33_same_step", "Verif.Unfold.C33_solutions", "Verif.Unfold.C33_nonrecursive", "Verif.Unfold.C33_rounds", "Verif.Unfold.C33_least", "Verif.Unfold.C33_refuses"], "note": ""},
 {"property": "C34", "status": "proved", "theorems": ["Verif.Fold.C34_partially_safe", "Verif.Fold.C34_solutions", "Verif.Fold.C34_reversible", "Verif.Fold.C34_reversible_iff", "Verif.Fold.C34_rule_equality", "Verif.Fold.C34_folds_by", "Verif.Fold.C34_least", "Verif.Fold.C34_partial_safety_insufficient"], "note": ""},
 {"property": "C35", "status": "proved", "theorems": ["Verif.Hook.C35_define", "Verif.Hook.C35_define_solutions", "Verif.Hook.C35_hook", "Verif.Hook.C35_hook_least", "Verif.Hook.C35_hook_returns", "Verif.Hook.C35_binarize", "Verif.Hook.C35_binarize_least", "Verif.Hook.C35_binarize_returns"], "note": ""},
 {"property": "C36", "status": "proved", "theorems": ["Verif.Linearize.C36_values", "Verif.Linearize.C36_least", "Verif.Linearize.C36_linear", "Verif.Linearize.C36_unchanged", "Verif.Linearize.C36_returns", "Verif.Linearize.C36_variable_raises", "Verif.Linearize.C36_two_matches"], "note": "for subgoals with a functor; C36_variable_raises: a variable subgoal after a unifying one raises; C36_two_matches: one item may still match two subgoals under different substitutions"},
 {"property": "C37", "status": "proved", "theorems": ["Verif.Prune.C37_very_fast", "Verif.Prune.C37_fast", "Verif.Prune.C37_kept", "Verif.Prune.C37_very_fast_returns", "Verif.Prune.C37_fast_returns"], "note": "for programs in which heads and subgoals have functors and heads are not builtins"},
 {"property": "C38", "status": "proved", "theorems": ["Verif.Elim.C38_step", "Verif.Elim.C38_solution", "Verif.Elim.C38_converse", "Verif.Elim.C38_twice_raises", "Verif.Elim.C38_rounds", "Verif.Elim.C38_least", "Verif.Elim.C38_output_raises", "Verif.Elim.C38_shared_variables", "Verif.Elim.C38_elim_raises"], "note": "for rules that share no variable with the eliminated one; converse for all solutions only if the rule does not use its own head, else for the least solution; C38_shared_variables: wrong result for shared variables (as made by hook); C38_elim_raises: elim can raise on programs that linearize left alone"},
 {"property": "C39", "status": "proved", "theorems": ["Verif.Solver2.C39_equations", "Verif.Solver2.C39_least", "Verif.Solver2.C39_call", "Verif.Solver2.C39_distinct", "Verif.Solver2.C39_ground", "Verif.Solver2.C39_counts_twice"], "note": "Runs of solver2.py over complete commutative semirings, exact comparison of values, no dropping priorities, builtins `=` and ground comparisons. C39_equations: the chart solves the program's equations; C39_least: it is the least solution; C39_call: data programs; C39_distinct, C39_ground: conditions under which nothing is counted twice. C39_counts_twice: a witness that the unconditional claim fails."},
 {"property": "C40", "status": "proved", "theorems": ["Verif.Tarjan.C40_partition", "Verif.Tarjan.C40_scc", "Verif.Tarjan.C40_order", "Verif.Tarjan.C40_terminates", "Verif.Tarjan.C40_condensation", "Verif.Tarjan.C40_acyclic"], "note": ""},
 {"property": "C41", "status": "proved", "theorems": ["Verif.Graph.C41_transitive", "Verif.Graph.C41_reflexive"], "note": ""},
 {"property": "C42", "status": "proved", "theorems": ["Verif.Hyper.C42_exact", "Verif.Hyper.C42_overapproximates", "Verif.Hyper.C42_terminates", "Verif.Hyper.C42_total", "Verif.Hyper.C42_strict"], "note": ""},
 {"property": "C43", "status": "proved", "theorems": ["Verif.Builtin.C43_arith", "Verif.Builtin.C43_int", "Verif.Builtin.C43_unary", "Verif.Builtin.C43_not", "Verif.Builtin.C43_type", "Verif.Builtin.C43_enum", "Verif.Builtin.C43_range", "Verif.Builtin.C43_concat", "Verif.Builtin.C43_repeat", "Verif.Builtin.C43_mode", "Verif.Builtin.C43_ready_mono", "Verif.Builtin.C43_abs_negative", "Verif.Builtin.C43_div_zero", "Verif.Builtin.C43_raises", "Verif.Builtin.C43_string_unready", "Verif.Builtin.C43_int_unready", "Verif.Builtin.C43_not_unready", "Verif.Builtin.C43_identity_string", "Verif.Builtin.C43_float_division"], "note": "All operators of is/2, every pattern of bound/unbound/shared arguments. Arguments are variables, numbers, booleans or strings; compound arguments, float overflow/NaN and indirect evaluation (`is` with a user item) are not modelled; C43_arith is for exact arithmetic (rounding is a parameter), C43_int for ints under any rounding. Violations proved: C43_abs_negative, C43_div_zero, C43_raises, C43_string_unready, C43_int_unready, C43_not_unready, C43_identity_string, C43_float_division."},
 {"property": "C44", "status": "proved", "theorems": ["Verif.Pretty.C44_unambiguous", "Verif.Pretty.C44_roundtrip", "Verif.Pretty.C44_table", "Verif.Pretty.C44_roundtrip_code", "Verif.Pretty.C44_rule", "Verif.Pretty.C44_equal_priority", "Verif.Pretty.C44_comma_argument", "Verif.Pretty.C44_comparison_raises", "Verif.Pretty.C44_for", "Verif.Pretty.C44_list_item", "Verif.Pretty.C44_prefix", "Verif.Pretty.C44_rule_unary", "Verif.Pretty.C44_rule_semicolon"], "note": "Any table meeting `Valid`, and the table of the code (C44_table). Text is a list of tokens: lexing, quoting, numbers with a sign, nullary and postfix operators, [X|Y] and back-quotes are not modelled. Violations proved: C44_equal_priority, C44_comma_argument, C44_comparison_raises, C44_for, C44_list_item, C44_prefix, C44_rule_unary, C44_rule_semicolon."},
 {"property": "C45", "status": "proved", "theorems": ["Verif.C45_terminates", "Verif.C45_covers", "Verif.C45_depth", "Verif.C45_exact", "Verif.C45_finite"], "note": ""},
 {"property": "C46", "status": "proved", "theorems": ["Verif.C46_flatten", "Verif.C46_terminates", "Verif.C46_assoc", "Verif.C46_join"], "note": ""},
 {"property": "C47", "status": "proved", "theorems": ["Verif.Solver.C47_no_trace", "Verif.Solver.C47_absent", "Verif.Solver.C47_solution"], "note": ""},
 {"property": "C48", "status": "proved", "theorems": ["Verif.Propagate.C48_solutions", "Verif.Propagate.C48_fail", "Verif.Propagate.C48_bindings", "Verif.Propagate.C48_checked", "Verif.Propagate.C48_result", "Verif.Propagate.C48_order", "Verif.Propagate.C48_order_dependent", "Verif.Propagate.C48_compound_equality", "Verif.Propagate.C48_ks_checked"], "note": "All input sets, rule sets and iteration orders of Python's sets. Built-in constraints are a parameter of the model, constrained only by the interpretation; a hook is given by the constraints it adds; the variables of the propagation rules are assumed apart from those of the input and each head variable to occur in the body. The unconditional claim is refuted by C48_order_dependent (X=Y, Y=3), C48_compound_equality (f(X)=f(3) returns None) and C48_ks_checked (ks(X) is marked as checked)."},
 {"property": "C49", "status": "proved", "theorems": ["Verif.Measure.C49_sound", "Verif.Measure.C49_foreign_definition", "Verif.Measure.C49_incomplete_definition", "Verif.Measure.C49_equal_rules", "Verif.Measure.C49_builtin_raises"], "note": "C49_sound covers every sequence of define/unfold/fold/cached steps, over any evaluation order; measures are modelled by their values for one assignment of the unknowns (control flow never looks at them), and z3 is trusted to return a satisfying assignment when it says sat. Side conditions are premises of the steps of Reach; C49_foreign_definition, C49_incomplete_definition and C49_equal_rules show that the check itself does not enforce them (soundness fails without), C49_builtin_raises that unfolding a builtin has no measure. The measures of slash and LCT are in C84 and C87."},
 {"property": "C50", "status": "proved", "theorems": ["Verif.Memo.C50_transparent", "Verif.Memo.C50_total", "Verif.Memo.C50_key", "Verif.Memo.C50_stale", "Verif.Memo.C50_frozen_bag"], "note": ""},
 {"property": "C51", "status": "proved", "theorems": ["Verif.SnapEq.C51_program", "Verif.SnapEq.C51_ground_instances", "Verif.SnapEq.C51_one_to_one", "Verif.SnapEq.C51_multiplicity_lost"], "note": ""},
 {"property": "C52", "status": "proved", "theorems": ["Verif.CFold.C52_step", "Verif.CFold.C52_values", "Verif.CFold.C52_merged", "Verif.CFold.C52_tolerance"], "note": "for an exact zero test; C52_tolerance: with a tolerance rules are lost"},
 {"property": "C53", "status": "proved", "theorems": ["Verif.Rewrites.C53_simplify_superset", "Verif.Rewrites.C53_simplify_exact", "Verif.Rewrites.C53_simplify_none", "Verif.Rewrites.C53_covers", "Verif.Rewrites.C53_intersect", "Verif.Rewrites.C53_disjoint", "Verif.Rewrites.C53_ks", "Verif.Rewrites.C53_equality", "Verif.Rewrites.C53_fundep"], "note": "Constraint propagation as in C48. disjoin and anti_unifier are in C63. The unconditional claims are refuted by C53_ks (f(X) :- ks(X) covers f(Y)), C53_equality (f(X) :- X = 3 may cover f(Y)) and C53_fundep (the functional dependency given in the file's header makes simplification recurse forever)."},
 {"property": "C54", "status": "proved", "theorems": ["Verif.Slash.C54_least", "Verif.Slash.C54_solutions", "Verif.Slash.C54_occurs_check", "Verif.Slash.C54_partly_input"], "note": "C54_least: same bounds in every ordered semiring with countable-sum structure (OSemi); C54_solutions: any solution restricts. Positions selecting constants or builtins are not modelled; $not_matches(lam(x), y) is data with its intended meaning. C54_occurs_check and C54_partly_input refute the claim without the hypotheses unif and heads of Setup."},
 {"property": "C55", "status": "proved", "theorems": ["Verif.Slash.C55_least"], "note": "Same model with the flag lct. Only bounds of naive evaluation: the left-corner program is right-recursive where the original is left-recursive, so solutions other than the least need not correspond."},
 {"property": "C56", "status": "proved", "theorems": ["Verif.Norm.C56_step", "Verif.Norm.C56_solutions", "Verif.Norm.C56_least", "Verif.Norm.C56_normal", "Verif.Norm.C56_unchanged", "Verif.Norm.C56_idempotent", "Verif.Norm.C56_returns", "Verif.Norm.C56_variable_raises"], "note": "Weights are interpreted through the values of items; bound variables do not occur in the rules of a program. A variable head or subgoal makes it raise (C56_variable_raises)."},
 {"property": "C57", "status": "proved", "theorems": ["Verif.Magic.C57_sound", "Verif.Magic.C57_complete", "Verif.Magic.C57_outputs", "Verif.Magic.C57_demand", "Verif.Magic.C57_magic", "Verif.Magic.C57_returns", "Verif.Magic.C57_partly_input", "Verif.Magic.C57_output_condition"], "note": "is_leaf (a heuristic reading of the coarse graph) is an arbitrary function. The hypotheses are needed: C57_partly_input, C57_output_condition."},
 {"property": "C58", "status": "proved", "theorems": ["Verif.Magic.C58_conservative", "Verif.Magic.C58_useful", "Verif.Magic.C58_name_clash"], "note": "_useful does not choose a new functor: C58_name_clash."},
 {"property": "C59", "status": "proved", "theorems": ["Verif.LinSolve.C59_solves", "Verif.LinSolve.C59_least", "Verif.LinSolve.C59_builtin_unknown"], "note": "A builtin in a body is counted as an unknown: C59_builtin_unknown. Instances that are not ground are not modelled."},
 {"property": "C60", "status": "proved", "theorems": ["Verif.Newton.C60_steps", "Verif.Newton.C60_fixpoint_cancel", "Verif.Newton.C60_zero", "Verif.Newton.C60_fixpoint", "Verif.Newton.C60_rounds", "Verif.Newton.C60_least", "Verif.Newton.C60_builtin_lost"], "note": "Builtins are not covered, and the code loses derivations with them: C60_builtin_lost. Rules with a constant body and a head that is not ground are not modelled."},
 {"property": "C61", "status": "proved", "theorems": ["Verif.TypeAn.C61_sound", "Verif.TypeAn.C61_generalizing", "Verif.TypeAn.C61_support", "Verif.TypeAn.C61_intersect", "Verif.TypeAn.C61_rewrites", "Verif.TypeAn.C61_shadowed"], "note": "Soundness of rewrites(.) and covers is a hypothesis (C53 proves it for the rewrites model; C61_rewrites connects them for simplification). Rules for the functor of a type parameter are excluded, and the code is unsound for them: C61_shadowed."},
 {"property": "C62", "status": "proved", "theorems": ["Verif.Coarse.C62_product", "Verif.Coarse.C62_edges", "Verif.Coarse.C62_hyper", "Verif.Coarse.C62_acyclic", "Verif.Coarse.C62_rounds", "Verif.Coarse.C62_linear", "Verif.Coarse.C62_cyclic_exact", "Verif.Coarse.C62_expansive_exact", "Verif.Coarse.C62_scc", "Verif.Coarse.C62_split", "Verif.Coarse.C62_builtin_raises", "Verif.Coarse.C62_overlap", "Verif.Coarse.C62_split_wrong"], "note": "Behaviour found to differ from the documentation: C62_split_wrong (input-dependent rules classified as independent), C62_builtin_raises (possibly_expansive raises on builtins), C62_overlap (the constructor raises on overlapping nodes)."},
 {"property": "C63", "status": "proved", "theorems": ["Verif.AntiUnify.C63_anti_unifier", "Verif.AntiUnify.C63_disjoin", "Verif.AntiUnify.C63_disjoint", "Verif.AntiUnify.C63_terminates", "Verif.AntiUnify.C63_generalizing", "Verif.AntiUnify.C63_rewrites", "Verif.AntiUnify.C63_overlap_needed", "Verif.AntiUnify.C63_remark"], "note": "Assumes of propagation, covers and rewrites what C48, C53 prove (C63_rewrites). Witnesses: C63_overlap_needed (without a common instance of the heads the anti-unifier need not cover), C63_remark (it is not equivalent to the more general type if that has variables outside the head)."},
 {"property": "C64", "status": "proved", "theorems": ["Verif.SccSolver.C64_support", "Verif.SccSolver.C64_order", "Verif.SccSolver.C64_only", "Verif.SccSolver.C64_equations", "Verif.SccSolver.C64_values", "Verif.SccSolver.C64_stages", "Verif.SccSolver.C64_scc", "Verif.SccSolver.C64_data_lost", "Verif.SccSolver.C64_overlap_lost"], "note": "magic=False, ground solver in both passes. Values assume that inputs are not defined by items that are neither inputs nor needed; C64_data_lost shows that this is necessary, C64_overlap_lost that outputs must not overlap inputs partially."},
 {"property": "C65", "status": "proved", "theorems": ["Verif.Runtime.C65_types", "Verif.Runtime.C65_best", "Verif.Runtime.C65_chart", "Verif.Runtime.C65_items", "Verif.Runtime.C65_query", "Verif.Runtime.C65_type_bound"], "note": "Bounds are evaluated in the naturals with infinity; sympy is not modelled. Constraints are callable terms; rewrites is the parameter of C61."},
 {"property": "C66", "status": "proved", "theorems": ["Verif.Runtime.C66_plan", "Verif.Runtime.C66_instances", "Verif.Runtime.C66_program", "Verif.Runtime.C66_rewrites", "Verif.Runtime.C66_best", "Verif.Runtime.C66_fast", "Verif.Runtime.C66_untyped", "Verif.Runtime.C66_constant", "Verif.Runtime.C66_join", "Verif.Runtime.C66_shared"], "note": "For flat charts whose variables are apart from the rule, and rules without bare variables; C66_shared, C66_constant and C66_untyped show what goes wrong otherwise. C66_rewrites shows that the modelled rewrites meets the assumption on it."},
 {"property": "C67", "status": "proved", "theorems": ["Verif.PruneTypes.C67_step", "Verif.PruneTypes.C67_bottom_up", "Verif.PruneTypes.C67_useful", "Verif.PruneTypes.C67_dead_removes", "Verif.PruneTypes.C67_dead_bottom_up", "Verif.PruneTypes.C67_dead_useful", "Verif.PruneTypes.C67_overlap"], "note": "For programs whose type analysis returns. Builtins are the operators, comparisons and = of the model of C61; the assumptions on constraints are those of C61. C67_overlap shows that prune() changes a value if the patterns overlap."},
 {"property": "C68", "status": "proved", "theorems": ["Verif.Abbreviate.C68_step", "Verif.Abbreviate.C68_disjoint", "Verif.Abbreviate.C68_values", "Verif.Abbreviate.C68_limit", "Verif.Abbreviate.C68_types", "Verif.Abbreviate.C68_rewrites"], "note": "For charts whose types say nothing about free variables: rules are range-restricted, the variables of the constraints of a type occur in its head, subgoals are not constraints. In this setting the correction of dropped variables (the factor inf) is never applied. The assumptions on rewrites() are proved for the model of C48-C53 in C68_rewrites."},
 {"property": "C69", "status": "proved", "theorems": ["Verif.Instantiate.C69_exact", "Verif.Instantiate.C69_ground", "Verif.Instantiate.C69_step", "Verif.Instantiate.C69_fixpoint", "Verif.Instantiate.C69_rounds", "Verif.Instantiate.C69_agenda", "Verif.Instantiate.C69_again", "Verif.Instantiate.C69_total"], "note": "For range-restricted rules, whose instances are ground, so fresh() of a grounding renames nothing. Charts are dictionaries from ground items to values. Rule equality in the lists is equality of the modelled rules."},
 {"property": "C70", "status": "proved", "theorems": ["Verif.Sld.C70_prefix", "Verif.Sld.C70_instances", "Verif.Sld.C70_exact", "Verif.Sld.C70_safe_prefix", "Verif.Sld.C70_value", "Verif.Sld.C70_total", "Verif.Sld.C70_left_recursion", "Verif.Sld.C70_lazy"], "note": "Body elements: constants, subgoals, =, comparisons. A comparison reached with unbound arguments makes sld recurse until Python raises; the model raises at once. A yielded tree is what the consumer sees through the bindings at the time of the yield."},
 {"property": "C71", "status": "proved", "theorems": ["Verif.DUnfold.C71_bijection", "Verif.DUnfold.C71_value", "Verif.DUnfold.C71_size", "Verif.DUnfold.C71_duplicates", "Verif.DUnfold.C71_lost"], "note": "For defs = parent and an unfolded subgoal that is no builtin. untransform (which goes through Fold) is not modelled; surjectivity says that an inverse exists. Input items are not leaves of derivations."},
 {"property": "C72", "status": "proved", "theorems": ["Verif.Search.C72_no_error", "Verif.Search.C72_once", "Verif.Search.C72_best", "Verif.Search.C72_sound", "Verif.Search.C72_exhaustive", "Verif.Search.C72_fair", "Verif.Search.C72_order", "Verif.Search.C72_starves", "Verif.Search.C72_cache"], "note": "Moves, priorities, costs and check are parameters. drive is in C85; that folds and unfolds that pass the measure keep the values is C49. C72_starves and C72_cache are witnesses of behaviour that falls short."},
 {"property": "C73", "status": "proved", "theorems": ["Verif.Search.C73_best", "Verif.Search.C73_budget", "Verif.Search.C73_ends", "Verif.Search.C73_cut", "Verif.Search.C73_exhaustive", "Verif.Search.C73_todo", "Verif.Search.C73_todo_run"], "note": "Actions, transitions, costs and the oracle are parameters; logs, checkpoints and messages are left out."},
 {"property": "C74", "status": "proved", "theorems": ["Verif.Degree.C74_analyzer", "Verif.Degree.C74_degrees", "Verif.Degree.C74_order", "Verif.Degree.C74_product", "Verif.Degree.C74_elimination", "Verif.Degree.C74_useless", "Verif.Degree.C74_chain", "Verif.Degree.C74_chain_least", "Verif.Degree.C74_proposals", "Verif.Degree.C74_eurekas", "Verif.Degree.C74_eurekas_returns", "Verif.Degree.C74_drive", "Verif.Degree.C74_run", "Verif.Degree.C74_comment_differs"], "note": "Values: solutions and limits of naive evaluation, through C35. C74_comment_differs shows that the comment in RuleAnalyzer_ describes another criterion than the code."},
 {"property": "C75", "status": "proved", "theorems": ["Verif.Newton.C75_dimension", "Verif.Newton.C75_dimension_pure", "Verif.Newton.C75_reaches", "Verif.Newton.C75_exact", "Verif.Newton.C75_constants"], "note": "C75_exact assumes idempotent addition, suprema, and that products preserve them (as for truth values and for max-times on [0,1]); C75_reaches does not. C75_constants shows that Derivation.dimension differs from the dimension that the iterations follow."},
 {"property": "C76", "status": "proved", "theorems": ["Verif.FoldSearch.C76_subsets", "Verif.FoldSearch.C76_early_test", "Verif.FoldSearch.C76_proposals_apart", "Verif.FoldSearch.C76_proposals", "Verif.FoldSearch.C76_candidates", "Verif.FoldSearch.C76_reversible", "Verif.FoldSearch.C76_megafolds", "Verif.FoldSearch.C76_partial", "Verif.FoldSearch.C76_partial_megafolds", "Verif.FoldSearch.C76_variable_overlooked", "Verif.FoldSearch.C76_candidate_overlooked"], "note": "C76_proposals is about runs that return (fuel). C76_variable_overlooked and C76_candidate_overlooked show what goes wrong with variables as subgoals."},
 {"property": "C77", "status": "proved", "theorems": ["Verif.PG.C77_records", "Verif.PG.C77_tidy", "Verif.PG.C77_wellformed", "Verif.PG.C77_whole_history", "Verif.PG.C77_tidy_all", "Verif.PG.C77_hg", "Verif.PG.C77_fresh_drops"], "note": "C77_fresh_drops shows the history lost at a fresh copy."},
 {"property": "C78", "status": "proved", "theorems": ["Verif.UnfoldX.C78_values", "Verif.UnfoldX.C78_gone", "Verif.UnfoldX.C78_ends", "Verif.UnfoldX.C78_first", "Verif.UnfoldX.C78_input_raises", "Verif.UnfoldX.C78_stops_early"], "note": "C78_stops_early shows that the result can keep x subgoals when their definitions are recursive."},
 {"property": "C79", "status": "proved", "theorems": ["Verif.RunB.C79_rules", "Verif.RunB.C79_values", "Verif.RunB.C79_done", "Verif.RunB.C79_solutions", "Verif.RunB.C79_rounds", "Verif.RunB.C79_free_dropped", "Verif.RunB.C79_multiplicity_lost"], "note": "Subgoals is, $not_matches and $lift are not modelled. C79_multiplicity_lost and C79_free_dropped are findings."},
 {"property": "C80", "status": "proved", "theorems": ["Verif.Reorder.C80_sound", "Verif.Reorder.C80_kept", "Verif.Reorder.C80_unique", "Verif.Reorder.C80_apart", "Verif.Reorder.C80_rotated", "Verif.Reorder.C80_ambiguous", "Verif.Reorder.C80_ends"], "note": "The rule and the derivation share no variables. C80_rotated and C80_ambiguous are findings."},
 {"property": "C81", "status": "proved", "theorems": ["Verif.DTransform.C81_coherent", "Verif.DTransform.C81_compose", "Verif.DTransform.C81_round_trip", "Verif.DTransform.C81_bijective", "Verif.DTransform.C81_keeps", "Verif.DTransform.C81_roots", "Verif.DTransform.C81_aligned", "Verif.DTransform.C81_lists", "Verif.DTransform.C81_leaf", "Verif.DTransform.C81_equal_programs"], "note": "The mappings of the single steps are parameters (for Unfold see C71). C81_equal_programs is a finding."},
 {"property": "C82", "status": "proved", "theorems": ["Verif.DFold.C82_undo_rules", "Verif.DFold.C82_round_trip", "Verif.DFold.C82_inverse", "Verif.DFold.C82_unfold", "Verif.DFold.C82_records", "Verif.DFold.C82_swapped"], "note": "par2def and the alignment of equal programs are parameters assumed right; the recorded places are computed (C82_records). C82_swapped is a finding."},
 {"property": "C83", "status": "proved", "theorems": ["Verif.DSlash.C83_valid", "Verif.DSlash.C83_round_trip", "Verif.DSlash.C83_injective", "Verif.DSlash.C83_defined"], "note": "Slash only, not LCT; derivations whose leaves are input facts are left out. C83_defined includes three findings: derivations on which the mapping raises."},
 {"property": "C84", "status": "proved", "theorems": ["Verif.SlashMeasure.C84_defined", "Verif.SlashMeasure.C84_keeps", "Verif.SlashMeasure.C84_zero", "Verif.SlashMeasure.C84_unsound"], "note": "Slash only; compute_measure of LCT has the same lines but is not modelled separately. C84_unsound is a finding: an accepted fold that loses a value."},
 {"property": "C85", "status": "proved", "theorems": ["Verif.SearchMoves.C85_sound", "Verif.SearchMoves.C85_rules", "Verif.SearchMoves.C85_search", "Verif.SearchMoves.C85_moves", "Verif.SearchMoves.C85_generated", "Verif.SearchMoves.C85_builtin_raises"], "note": "slash, lct and reversible-fold moves (off by default) are left out; candidates for moves are parameters, and each move is assumed fit (subgoals are user items that are no inputs, the rules of the program are pairwise different, variables below the allocation mark). C85_builtin_raises is a finding."},
 {"property": "C86", "status": "proved", "theorems": ["Verif.DLct.C86_valid", "Verif.DLct.C86_round_trip", "Verif.DLct.C86_injective", "Verif.DLct.C86_defined", "Verif.DLct.C86_nonground", "Verif.DLct.C86_no_position", "Verif.DLct.C86_not_injective"], "note": "inputs are not leaves of derivations here (line 158-159 of lct.py is left out). C86_nonground, C86_no_position, C86_not_injective are findings."},
 {"property": "C87", "status": "proved", "theorems": ["Verif.LctMeasure.C87_defined", "Verif.LctMeasure.C87_keeps", "Verif.LctMeasure.C87_zero", "Verif.LctMeasure.C87_not_kept", "Verif.LctMeasure.C87_unsound"], "note": "C87_not_kept and C87_unsound are findings; in C87_unsound rules are compared up to the names of variables."},
 {"property": "C88", "status": "proved", "theorems": ["Verif.Collect.C88_members", "Verif.Collect.C88_sound", "Verif.Collect.C88_unfolds", "Verif.Collect.C88_folds_unchecked"], "note": "C88_folds_unchecked is a finding. Candidates are parameters, for the counterexample they are those of fold_proposals and folds_by."},
 {"property": "C89", "status": "proved", "theorems": ["Verif.Race.C89_winner", "Verif.Race.C89_ends", "Verif.Race.C89_price", "Verif.Race.C89_never"], "note": "timelimit is taken to stop a run exactly if it takes longer than the budget. C89_never is a finding for the empty collection."},
 {"property": "C90", "status": "proved", "theorems": ["Verif.SlashAll.C90_choices", "Verif.SlashAll.C90_members", "Verif.SlashAll.C90_values"], "note": "The hypotheses on programs and data are those of C54 and C55."},
 {"property": "C91", "status": "proved", "theorems": ["Verif.UserQuery.C91_answers", "Verif.UserQuery.C91_least"], "note": "Queries that are constants or builtins are left out."},
 {"property": "C92", "status": "proved", "theorems": ["Verif.LiftSemi.C92_values", "Verif.LiftSemi.C92_support", "Verif.LiftSemi.C92_lift", "Verif.LiftSemi.C92_coerce"], "note": "The lift functions of the semirings, which are in another package, are a parameter."},
 {"property": "C93", "status": "proved", "theorems": ["Verif.UnitMeasure.C93_below", "Verif.UnitMeasure.C93_sound", "Verif.UnitMeasure.C93_incomplete"], "note": "Moves fit as in C85."},
 {"property": "C94", "status": "proved", "theorems": ["Verif.SolverFor.C94_choice", "Verif.SolverFor.C94_safe", "Verif.SolverFor.C94_no_exception", "Verif.SolverFor.C94_progress", "Verif.SolverFor.C94_needed", "Verif.SolverFor.C94_builtin_raises"], "note": "C94_progress: each single step ends, without an exception; that the agenda runs empty is not claimed. C94_builtin_raises shows that the choice of solver 1 is not safe with builtins."},
 {"property": "C95", "status": "proved", "theorems": ["Verif.MagicRange.C95_answers", "Verif.MagicRange.C95_exact", "Verif.MagicRange.C95_solver1", "Verif.MagicRange.C95_solver2", "Verif.MagicRange.C95_pass2", "Verif.MagicRange.C95_not_always"], "note": "C95_answers, C95_exact and C95_solver2 are about the magic program before prune_fast; C95_solver1 and C95_not_always are about the pruned one."}
]}
