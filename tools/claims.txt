C01 | proved | C01_state_is_a_set, C01_constructed | Hash set of atoms over all histories of insert/erase/range insert, any string hash.
C02 | proved | C02_equality_hash_order_canonical, C02_constructed | Canonical form of the bucket array.
C03 | proved | C03_order_strict_total | State and PartialState.
C04 | proved | C04_iteration_visits_once | Index based iterator, forward and backward, no out-of-bounds access.
C05 | proved | C05_partial_state, C05_isConsistent_iff | Three-valued knowledge over all histories.
C06 | proved | C06_iteration_is_cartesian_product, C06_degenerate | Index based iterator with incremental digit updates.
C07 | proved | C07_random_access, C07_at, C07_through_end_refuted | All in-range paths; the refutation records that a path through end() shows a wrong combination.
C08 | proved | C08_find_inverts_indexing, C08_find_is_inverse | For every element comparison.
C09 | partial | C09_reverse_partial, C09_reverse_exact, C09_reverse_refuted | The code violates the property when an option other than the first has size one; exact behaviour proved for all inputs.
C10 | proved | C10_object_map_is_subtyping, C10_subtype_laws |
C11 | proved | C11_parameter_generator_exact | At least one parameter.
C12 | partial | C12_zero_parameters_refuted, C12_empty_quantifier_refuted | The code violates the property: no argument list at all.
C13 | proved | C13_proposition_round_trip, C13_strings_injective, C13_state_round_trip | Names must be printable: no `(` in the predicate name, no separators in argument names, arguments declared.
C14 | proved | C14_action_round_trip | For every constructed Pddl whose object names are distinct.
C15 | proved | C15_parse_accepts_exactly, C15_parse_total | Every string, every constructed Pddl.
C16 | proved | C16_evaluation_is_satisfaction, C16_constructor | Well-formed formulas: scoped terms, no constant called like a variable in scope, `=` binary, type tests unary, quantifiers bind at least one variable.
C17 | partial | C17_constants_captured_refuted, C17_constants_partial, C17_variables | The code violates the property when a parameter is called like a constant; proved when no name in scope clashes.
C18 | proved | C18_formula_history_independent, C18_formula_answers, C18_action_history_independent, C18_api_history_independent, C18_calls_history_independent | Formulas and actions, with the buffers as explicit state shared by all copies, and every call that applies actions or axioms (NextState, ApplyActions, IsValidPlan, IsValidTuple, ConsistentState and IsValidState of both kinds of states, planning with each search) on a Pddl that keeps the buffers from call to call; also after calls that threw. Re-entrance within one call is C55.
C19 | proved | C19_partial_evaluation_sound | Every formula, all parameters and arguments.
C20 | proved | C20_more_information, C20_decided_agrees | Agreement is for well-formed formulas over the declared objects.
C21 | proved | C21_exact_effects | Universal effects must not contradict each other (the result then depends on enumeration order); plain deletes win over adds.
C22 | proved | C22_frame | Any axioms, also ill-formed actions.
C23 | proved | C23_no_change, C23_no_change_partial_state, C23_buffers | Any axioms, also ill-formed actions; C23_buffers: with the shared buffers, whatever they hold.
C24 | partial | C24_change_refuted, C24_change_partial, C25_pddl_semantics_partial | The code violates the property when an action deletes what it just added; proved when no predicate is both added and deleted, or for conflict-free instances.
C25 | partial | C25_add_wins_refuted, C25_condition_pre_state_refuted, C25_pddl_semantics_partial | The code violates the property: deletes win, conditions see earlier effects; proved for conflict-free instances whose conditions are about other predicates.
C26 | partial | C26_context_instances_refuted, C26_refuted_is_wrong, C26_fires_exactly_partial, C26_ground_partial | Refuted by three witnesses: repeated context variables are not checked, parameters outside the context leak as variable names, types are not checked. Proved: exactly the matching instances fire when contexts mention each parameter once; declared-object atoms only when contexts cover the parameters.
C27 | partial | C27_termination_refuted, C27_termination_partial, C27_termination_partial_state, C27_budget_irrelevant, C27_no_undoing_partial, C27_no_undoing_partial_state | Refuted: two axioms trigger each other for ever. Proved for axioms whose trigger graph is ranked (acyclic), and for axioms that trigger each other in circles but of which none adds what one deletes (with the shared buffers as explicit state).
C28 | partial | C28_derived_state_is_fixpoint, C28_next_state_is_fixpoint, C28_nullary_refuted, C28_nullary_witness | Proved for rules with parameters and well-formed bodies, any recursion or negation; refuted for derived predicates without parameters, which are never derived.
C29 | partial | C29_two_rules_refuted, C29_positive_ring_refuted, C29_acyclic_terminates_partial, C29_positive_terminates_partial | Refuted by two rules with the same head and by a positive ring from a stale State. Proved for non-recursive rules with distinct heads from every State, and for positive rules with distinct heads from States without derived atoms.
C30 | partial | C30_stale_facts_refuted, C30_acyclic_depends_on_base_partial, C30_positive_least_model_partial, C30_low_recursion_partial | Refuted: self-supporting derived atoms survive. Proved for non-recursive rules; for positive rules the result from a State without derived atoms is the least model; for non-recursive rules with any negation on top of positive recursive ones, for States without atoms of the latter.
C31 | proved | C31_consistent_state_is_valid, C31_valid_state_is_consistent, C31_buffers, C31_buffers_valid | Every Pddl; "returns" means with some budget for triggered axioms. C31_buffers*: with the shared buffers, after any calls.
C32 | proved | C32_valid_iff_axioms_hold, C32_nullary_axiom_refuted | Well-formed axioms with parameters, as the statement says; the refutation records that axioms without parameters are never checked.
C50 | proved | C50_simplify | Conjunctions over declared objects.
C51 | partial | C51_true_disjunct_refuted, C51_negation_refuted, C51_false_disjunct_refuted, C51_normalized_preconditions_partial, C51_normalized_goal_partial | Refuted by three formulas; proved for regular formulas (no always-true disjunct, no all-contradictory disjunction, no negation of an always-true formula), without apply_axioms.
C52 | partial | C52_meaning, C52_after_apply_partial, C52_axiom_undoes_refuted | The meaning is proved; the state after the action satisfies it unless a triggered axiom undoes an effect (refuted then).
C53 | proved | C53_pruning_harmless | Axioms with parameters.
C35 | proved | C35_apply_actions_iterates, C35_append, C35_buffers | C35_buffers: with the shared buffers, after any calls.
C36 | proved | C36_valid_tuple, C36_invalid_tuple, C36_valid_plan, C36_buffers_plan, C36_buffers_tuple | C36_buffers_*: with the shared buffers, after any calls.
C37 | proved | C37_list_exact, C37_list_nodup, C37_list_returns, C37_nullary_refuted | Exactness for actions with parameters and printable, distinct names; the refutation records that actions without parameters are never listed.
C43 | proved | C43_instances, C43_children, C43_children_return, C43_buffers, C43_buffers_return, C43_no_actions_refuted, C43_nullary_refuted | C43_buffers*: with the shared buffers, after any calls. Actions with at least one parameter; the refutations record that a domain without actions is undefined behaviour and that actions without parameters are never expanded.
C44 | proved | C44_bfs_sound, C44_bfs_dereferenceable, C44_planner_plans_valid, C44_root, C44_buffers | C44_buffers is for all three searches with the shared argument buffers: whatever axioms there are, also those that trigger themselves, and whatever calls come before and between, IsValidPlan accepts the plans found. 
C45 | proved | C45_bfs_complete, C45_bfs_first_shortest, C45_bfs_returned | Search spaces in which goal test and expansion return; C45_bfs_returned: any space, if the search returns.
C46 | proved | C46_bfs_terminates, C46_bfs_end_stays | 
C47 | proved | C47_timeout_prefix | 
C48 | partial | C48_dfs_sound, C48_dfs_complete_partial, C48_dfs_returned_partial, C48_buffers_partial, C48_dfs_loses_plan_refuted | C48_dfs_returned_partial: any space, if the search returns; C48_buffers_partial: over the planner with its buffers, after any calls. Completeness needs that the stack is not empty when a goal is found; refuted otherwise.
C49 | partial | C49_astar_sound, C49_astar_complete_partial, C49_astar_monotone_partial, C49_astar_optimal_partial, C49_astar_returned_partial, C49_buffers_partial, C49_astar_loses_plan_refuted | All plans but at most one are visited, in the order of their costs with admissible estimates, and the lost one is among the most expensive; that one is lost is refuted by a witness: a goal that empties the queue is not reported. C49_astar_returned_partial: any space, if the search returns; C49_buffers_partial: over the planner with its buffers, after any calls.
C40 | proved | C40_index_of_proposition, C40_proposition_of_index, C40_iteration, C40_rejects_others, C40_nullary_refuted, C40_missing_argument_refuted | Unique object, predicate names and type chains and printable names; the claim speaks of predicates with parameters, the refutations show why.
C41 | proved | C41_state_round_trip, C41_vector_round_trip, C41_nullary_refuted, C41_nullary_last_refuted | As C40.
C42 | proved | C42_cache_transparent, C42_history_irrelevant, C42_unprintable_refuted | Names without separators.
C38 | partial | C38_new_object_partial, C38_enumeration_unchanged_refuted, C38_valid_action_not_listed_refuted, C38_untyped_refuted | objects() and parsing know the new object; the object map, generators, quantifiers and ListValidActions never do (proved for every Pddl).
C39 | partial | C39_objects_live_partial, C39_object_map, C39_object_map_dangles_refuted, C39_constant_dangles_refuted, C39_initial_state_refuted | objects() and lookup by name stay live when no constant is removed; object_map() keeps the freed symbol (proved for every Pddl and object).
C33 | partial | C33_entailed_partial, C33_no_failure_partial, C33_saturated, C33_consequences_known, C33_override_refuted, C33_narrow_axiom_refuted | Entailment and growth are proved for every PartialState with a valid completion and axioms whose triggered instances are well typed; saturation for every Pddl and PartialState. Refuted without a valid completion (a triggered axiom silently overrides a known fact) and for axioms whose parameters are declared narrower than the predicate of the context.
C34 | partial | C34_never_rejects_partial, C34_rejected_has_no_completion_partial, C34_narrow_axiom_refuted | Proved for axioms whose triggered instances are well typed. Refuted for axioms whose parameters are declared narrower than the predicate of the context. That the call returns is C68.
C55 | partial | C55_by_value_partial, C55_api_partial, C55_calls_partial, Buffers.C55_reentrant_refuted, Buffers.C55_api_refuted, Buffers.C55_calls_refuted, Buffers.C55_planner_refuted | Proved when no axiom can trigger itself, directly or through others, for single actions and for every call that applies actions or axioms, ConsistentState, IsValidState and the searches included. Refuted otherwise: the axiom overwrites the vector it is reading its arguments from. Most other theorems about actions and axioms use arguments passed by value.
C54 | partial | C54_round_trip_partial, C54_ground_partial, C54_quantified_refuted, FormulaStrings.C54_variable_refuted | Proved for formulas without quantifiers and variables. Refuted for every formula with a quantifier (its string has unbalanced brackets, so nothing can read it) and for variables (printed without the question mark).
C56 | proved | C56_next_state_returns, C56_tests_return, C56_plans_return, C56_valid_state_returns, C56_partial_states_return | Well-formedness and absence of loops are the predicates Ptree.WellFormed and Ptree.NoLoops in Spec/WellFormed.lean.
C57 | partial | C57_planner_decides_partial, C57_initial_valid, C57_buffers_partial, C57_nullary_refuted | Proved for well-formed domains without loops in which every action has parameters, names are printable, and the initial state satisfies the axioms (always true with apply_axioms); plans are lists of calls of actions, not of axioms. C57_buffers_partial: with the shared buffers, after any calls, any axioms and loops, if the search returns. Refuted for actions without parameters.
C58 | partial | C58_initial_state_partial, C58_next_state_partial, C58_closures_partial, C58_apply_actions_partial, C58_reachable_states_indexed_partial, C58_reachable_states_printed_partial, C58_narrow_axiom_refuted | Proved for domains that satisfy Ptree.TypeChecked (Spec/TypeChecked.lean), which also requires that parameters of axioms are declared as wide as the predicate of the context and occur once in it. Refuted without: a triggered axiom ignores parameter types, so the next state may contain an undeclared proposition, on which GetIndexedState throws.
C59 | partial | C59_conditional_meaning_partial, C59_after_apply_partial, C59_true_condition_refuted, C59_tautology_refuted, C59_false_condition_refuted, C59_changed_condition_refuted, C59_throws_refuted | Proved for regular effects (Eff.Regular in Spec/Normal.lean). Refuted for conditions that are always true (dropped) or always false (effect demanded), for contradictory conditional effects (throws), and after the action when it changes what its conditions read.
C60 | partial | C60_completion_partial, C60_preconditions_partial, C60_contradiction_refuted, C60_throws_refuted | Proved when every disjunct is true in some State that satisfies the axioms, for axioms as in C33. Refuted for disjuncts that contradict the axioms: the code throws, or changes the disjunct into one that can be true.
C61 | proved | C61_conditions_pair | 
C62 | partial | C62_queries, C62_results, C62_partial_states, C62_simulation_partial, C62_list_arguments, C62_feedback_refuted | Agreement on single calls is proved for States of printable propositions over declared objects, and list_valid_arguments for actions with parameters and unique clean names. The simulation by repeated next_state is proved for domains that satisfy Ptree.TypeChecked; refuted for axioms with parameters outside of their context, which put propositions about variables into the state that cannot be read back.
C63 | partial | C63_reads_exactly, C63_reads_total, C63_undeclared_refuted | Proved: the strings that are read are exactly those whose argument words are names of objects, all others throw. Refuted: predicate, number of arguments, types and brackets are not checked.
C64 | partial | C64_unpickled, C64_round_trip_partial, C64_lost_refuted | Proved for a Pddl nothing was assigned to, made with apply_axioms or from a valid initial state; in general unpickling gives the closure of the initial state of the problem. Refuted for assigned initial states and for apply_axioms=false. The files are taken to be unchanged; add_object is not covered.
C65 | partial | C65_functions_agree, C65_head, C65_arguments_partial, C65_nullary_refuted, C65_disagree_refuted | Proved: the three functions agree with each other on all strings, the head agrees with the library whenever one is returned, the arguments on printed propositions with arguments. Refuted for every proposition without arguments (one empty argument), for arguments separated by blanks and for strings without brackets (ValueError).
C66 | partial | C66_reads_exactly, C66_text_partial, C66_default_goal, C66_when, C66_untyped_first_refuted, C66_quantified_refuted | Proved for goals without quantifiers and objects without a type added last. Refuted for all others: an object without a type takes the type of the next typed object, and a text with a quantifier is no PDDL. The reader is the specification in Spec/Problem.lean, not VAL.
C67 | proved | C67_constructor, C67_apply_axioms, C67_arity_refuted, C67_unprintable_refuted, C67_exception_caught | Domains whose axioms have unconditional effects and no parameter called like an object. The rest of the hypothesis (ContextsFit) is what VAL's type checker is trusted to establish; C67_arity_refuted shows that it is needed. Axioms that deny what is always true or contradict themselves are undefined behaviour, not exceptions.
C68 | partial | C68_consistent_state_partial, C68_constructor_partial, C68_consistent_partial_state, C68_consistent_partial_state_outcome, C68_valid_partial_state_partial, C68_valid_partial_state_returns_partial, C68_undoing_refuted | Proved for axioms of which none adds what another deletes. Refuted otherwise: with p => q and p => not q the constructor with apply_axioms never returns. ConsistentState of a PartialState needs no such condition, as it gives up after 50 passes.
C69 | proved | C69_next_state, C69_apply_actions, C69_buffers | Any axioms and any derived predicates; C69_buffers is the same for the action and its axioms with the shared buffers, so that it covers axioms that trigger themselves.
C70 | partial | C70_actions_partial, C70_state_index_partial, C70_contents, C70_past_the_end, C70_unpickled_refuted, C70_predicates_refuted, C70_generators_refuted, C70_state_index_refuted | Proved for actions of constructed Pddls, and for the state index on propositions without arguments. Refuted for all others: predicates, generators and the state index hold a null pointer, the actions of an unpickled Pddl a dangling one. remove_object and addresses that are used again are not modelled.
C71 | proved | C71_list, C71_next, C71_rest, C71_plans | The copies made by pybind11 are taken to be copies of the C++ values; the root node and the Planner are taken to outlive the search (when they do: C87). C71_rest is without timeout.
C72 | partial | C72_in_range_partial, C72_out_of_range_refuted | Proved for positions in range. Refuted for all others: the code reads past a vector. At most 2^31 propositions.
C73 | partial | C73_returns, C73_throws, C73_limit_refuted | The number of passes is characterised exactly. Refuted: that the closure is found whenever repeated passes reach one; a chain of 51 axioms is given up.
C74 | partial | C74_as_empty_problem, C74_goal, C74_goal_strings, C74_no_problem, C74_change_refuted, C74_constants_refuted, C74_initial_refuted | The comparison with the empty problem is proved for every domain. Refuted for every domain: constants() is empty, add_object, remove_object of an existing object and unpickling are undefined; and by a witness: the initial state may violate the axioms.
C75 | partial | C75_text, C75_problem, C75_problem_loads, C75_path_loads, C75_path_partial, C75_path_refuted | The exact condition is proved for all strings. Refuted for paths that end with a closing bracket and for texts that end with a comment or a form feed. VAL's reading of a text is a parameter; in C75_text the reader is that of Spec/Problem.lean.
C76 | partial | C76_values_partial, C76_typed_partial, C76_destroyed, C76_moved_refuted | Proved for all programs over existing generators and every generator that was not moved from. Refuted for moved-from ones, for all option lists. A self-move leaves a moved-from generator.
C77 | partial | C77_state, C77_partial_state, C77_normal_form, C77_conjunctive, C77_action, C77_axiom, C77_axiom_false, C77_node, C77_order_refuted, C77_names_needed | Injectivity is proved for all kinds of text over plain names (C77_names_needed shows the need), and independence of the hash function for states. Refuted: independence of the hash function for partial states and normal forms. Printing of Pddl and VAL structures is not modelled.
C78 | partial | C78_least_change_partial, C78_order_partial, C78_initial_partial, C78_order_refuted, C78_narrow_axiom_refuted | Proved for persistent axioms that agree with the signatures of predicates. Refuted for axioms that undo what makes axioms apply (the declaration order decides) and for axioms narrower than their context. Arguments are passed by value, which is what the code does if no axiom triggers itself (C55).
C79 | partial | C79_formula, C79_goal, C79_valid_action, C79_list, C79_initial, C79_derived_partial, C79_recursive_partial, C79_next_partial, C79_plan_partial, C79_next_axioms_partial, C79_plan_axioms_partial, C79_effect_refuted, C79_rules_refuted, C79_axioms_refuted | Formulas, goals, validity and listing in full for well-formed preconditions. Next states and plans, for rules that are not recursive: for actions whose universal effects do not interfere with themselves and that trigger no axiom; and, in domains that pass the type checker, for actions that trigger any axioms, if nothing is caused to be true as well as false and conditions are not about what is caused. DerivedState also for recursive rules as in C90_low_recursion, from States without stale atoms of them. Refuted for universal effects whose instances interfere, for rules that depend on each other and for axioms that contradict each other.
C80 | partial | C80_constructor_partial, C80_add_object, C80_contents, C80_parse, C80_parse_state, C80_next_state, C80_apply_actions, C80_closures, C80_partial_states, C80_verdicts, C80_plans, C80_normal_forms, C80_normal_forms_axioms, C80_list, C80_planner, C80_searches, C80_astar, C80_index, C80_type_name_refuted | Proved for all proper renamings and all pairs of Pddls whose constructors return; that the constructors have the same outcome is proved if in axioms = has two arguments and predicates called like types have one (not needed for a literal as context and for unconditional effects). Normal forms under the same condition; with apply_axioms, that one returns iff the other does. Refuted when predicates are renamed independently of types.
C81 | partial | C81_constructor_partial, C81_constructed, C81_add_object, C81_states, C81_partial_states, C81_verdicts, C81_list, C81_normal_forms, C81_searches, C81_iteration_refuted, C81_constructor_refuted | As C80. Refuted for the order of iteration over a state, and for the constructor when a predicate without arguments is called like a type.
C82 | partial | C82_backward_partial, C82_single_refuted, C82_nullary_refuted, C82_nullary_hangs_refuted, C82_no_actions_refuted | Proved, with the exact behaviour past the first child, for actions with arguments to enumerate whose parameters other than the first have two or more possible arguments. Refuted for the others: the hang for every such Pddl.
C83 | partial | C83_listing, C83_random_access_partial, C83_forward_partial, C83_backward_partial, C83_reference_partial, C83_outside, C83_far, C83_overwritten_refuted, C83_postfix_refuted, C83_reverse_refuted, C83_size_refuted, C83_half_refuted | Proved for indices with less than 2^31 propositions: positions, comparisons, loops, and references until the same iterator is dereferenced again. Refuted for references that should outlive that, `*it++`, reverse iterators and for 2^32 propositions.
C84 | partial | C84_arguments_partial, C84_arguments_unique, C84_depth, C84_usage, C84_verbose, C84_verbose_lines, C84_numbers, C84_depth_again, C84_exceptions, C84_program_partial, C84_negative_refuted, C84_trailing_refuted, C84_not_a_number_refuted | Arguments: exact grammar. Plans printed: as C57, for domains without loops whose actions all have parameters. Refuted for depths that are negative, followed by text, not numbers or too large.
C85 | partial | C85_children_partial, C85_arguments_partial, C85_copies, C85_list_children_refuted, C85_list_arguments_refuted, C85_no_child_refuted | Proved for all Python programs that look only at what the latest `next` gave and at copies. Refuted for objects kept longer: for every node with two different children and every generator with two argument lists. The semantics of pybind11's make_iterator is part of the model.
C86 | partial | C86_sound_partial, C86_exact_partial, C86_axioms_partial, C86_cascade_partial, C86_unknown_condition_refuted, C86_axiom_refuted, C86_broken_axiom_refuted | Agreement and exactness proved for actions that trigger no axiom and whose conditions are about known atoms; agreement also when triggered axioms write nothing that is written the other way round and hold in the State. With triggered axioms of any kind, C86_cascade_partial: both calls return, agree, and nothing is lost, if nothing is caused to be true as well as false and conditions are about known atoms that are not caused. Refuted for unknown conditions, for axioms that undo the action, and for States in which axioms do not hold.
C87 | partial | PyLife.C87_exact, PyLife.C87_pddl_kept_partial, PyLife.C87_all_kept_partial, PyLife.C87_parts, PyLife.C87_planner_refuted, PyLife.C87_search_refuted, PyLife.C87_begun_refuted | Exact condition for every program; proved when variables with Pddls (and, with searches, nodes and searches) are kept, and for programs without planners. Refuted for dropped Pddls, roots and copied searches. Policies of pybind11 are taken from its documentation.
C88 | partial | C88_exact, C88_kept_partial, C88_copy, C88_remove_refuted, C88_add_refuted | Exact for every history of additions of new names and removals of objects of the problem; proved when the capacity suffices and nothing at or before the position is removed, and for copies. Refuted for every Pddl for removals and for additions beyond the capacity, whatever the growth policy.
C89 | partial | C89_state_partial, C89_partial_state_partial, C89_conflict_refuted, C89_condition_refuted | For States and PartialStates, all domains that pass the type checker, axioms that trigger each other in any way, cyclic ones included. Proved if nothing is caused to be true as well as false and conditions of effects are not about what is caused; refuted otherwise. Arguments are passed by value, which is what the code does if no axiom triggers itself (C55).
C90 | partial | C90_in_order_partial, C90_low_recursion_partial, C90_stratified_refuted | Proved for rules that are declared in the order of their strata, each a stratum of its own, and for rules in any order of which only the lowest are recursive. Refuted for recursion above a negation when the rules are declared in another order.
C91 | partial | C91_formula_partial, C91_effects_partial, C91_returns_partial, C91_flag_ignored, C91_negation_refuted, C91_conditional_refuted | Proved for well-formed, regular (C51, C59) conjunctions, disjunctions, quantified formulas and effects, and axioms as in C34, whenever the call returns; in domains as in C68 it returns for every formula for which it returns without the flag, and for effects unless it throws for a conditional one. Refuted for atoms and negations, where the flag is ignored, and for conditional effects that no valid state achieves, where the call throws.
C92 | partial | C92_conjunctive_partial, C92_conjunctive_axioms_partial, C92_returns_partial, C92_empty_refuted | Proved for all ConjunctiveFormulas without empty disjunctions; with apply_axioms whenever the call returns, which it does in domains as in C68. Refuted for empty disjunctions, which are dropped.
C93 | partial | C93_state, C93_apply, C93_state_returns, C93_partial_state_partial, C93_partial_state_returns_partial, C93_own_axiom_partial, C93_other_axiom_refuted | States: proved for well-formed axioms with parameters; agreement with Apply for all. PartialStates: proved that no State that satisfies all axioms agrees with a rejected PartialState, typing as in C34, and that the call returns in domains as in C68; for an axiom with an atom as context whose implication triggers no axiom, that it accepts exactly the PartialStates that a State satisfying it agrees with. Refuted: a PartialState is also rejected because of another axiom that the effects trigger.
C94 | partial | C94_rules_partial, C94_accepts_partial, C94_order_partial, C94_coherent, C94_order_refuted | Proved, including that the calls return, for type-checked domains whose axioms have no conditional effects and contexts about declared predicates, and PartialStates from which nothing follows together with its opposite (such as those with a valid completion, C94_coherent). Refuted for contradicting facts: a triggered axiom forgets a known fact, and the order of axioms decides what is known.
C95 | proved | C95_consistent_is_valid, C95_valid_is_consistent, C95_invalid | Every Pddl and PartialState; the loop bounds of the model must allow 51 passes.
C96 | partial | C96_apply_partial, C96_consistent_partial, C96_undo_refuted, C96_condition_refuted | Proved for domains that pass the type checker, without predicates that axioms add and delete, and without conditions of effects about predicates that axioms change; refuted otherwise. Arguments are passed by value, which is what the code does if no axiom triggers itself (C55).
C97 | partial | C97_apply_partial, C97_next_partial, C97_reachable_partial, C97_planner_partial, C97_refuted | Proved under the conditions of C89 (no conflicts, conditions of effects not about what is caused) for domains that pass the type checker and whose axioms are not about derived predicates. The refutation shows an action that deletes what an axiom implies.
C98 | partial | C98_state_partial, C98_partial_state_partial, C98_refuted | Proved under the conditions of C89 (no conflicts, conditions of effects not about what is caused; PartialStates know what conditions mention). The refutation shows an effect whose condition reads what another effect of the action adds.
C99 | partial | C99_state_partial, C99_partial_state_partial, C99_valid_partial, C99_plans_partial, C99_refuted | Proved for domains that pass the type checker; for ApplyActions also for rules that are not recursive and effects that are not about derived predicates. The refutation shows an action that deletes what an axiom triggered by the other one adds. Arguments are passed by value, which is what the code does if no axiom triggers itself (C55).
C100 | partial | C100_detects_partial, C100_completion_partial, C100_valid_iff_completion_partial, C100_refuted, C100_negated_refuted | Proved for domains that pass the type checker where contexts of axioms are about facts, implications are unconditional and imply no context of an axiom. Refuted without the last: change codes of triggered axioms are dropped, a contradiction found through them is accepted. Refuted for negated contexts: that one of two values must hold is not used.
C101 | partial | C101_run_partial, C101_plan_partial, C101_refuted | Proved when conditions of effects are about known atoms and nothing an action causes is the opposite of something it causes or of what an axiom implies in a possible State; rules are not recursive, effects and axioms are not about derived predicates. Refuted for an action that contradicts an axiom.
C102 | partial | C102_valid, C102_next_partial, C102_plan_partial, C102_invalid_refuted | Proved when conditions of effects are about nothing that is added, axioms are not about derived predicates, and the larger State is valid; for plans, rules and axioms are also not recursive. Refuted for larger States that violate an axiom: where the action changes nothing, the axiom is not triggered.
C103 | proved | C103_tests, C103_next, C103_plan | For all domains the constructor accepts, recursive rules, conflicting effects and axioms that trigger themselves included, whenever the calls return; with the shared buffers of the actions, after any previous calls.
C104 | partial | C104_valid_action, C104_goal, C104_list, C104_derived_partial, C104_next_partial, C104_plan_partial, C104_next_axioms_partial, C104_plan_axioms_partial, C104_goal_refuted | States and plans: proved for rules that are not recursive and actions whose effects (with those of the axioms they trigger) do not contradict each other and are not read by conditions of effects; the others depend on the order of declarations, see C78 and C79. Refuted for goals that tell the objects apart.
C105 | proved | C105_answers, C105_equality, C105_hash, C105_order, C105_sorted, C105_hash_independent, C105_iteration_refuted | std::sort and std::unique are modelled by insertion sort and the removal of repeated neighbours. The last theorem shows that iteration, operator< and hash values differ between the implementations.
C106 | partial | C106_consistent_partial, C106_apply_partial, C106_track_partial, C106_contradiction_refuted, C106_apply_refuted | Proved for effects whose conditions are about known atoms that the action does not cause and that do not contradict each other. Refuted for facts that contradict each other by the axioms and for PartialStates that are not closed under the axioms.
C107 | partial | C107_valid_action, C107_goal, C107_list, C107_derived_partial, C107_next_partial, C107_plan_partial, C107_planner_partial, C107_forall_refuted, C107_type_refuted | Validity, goals and listing are proved in full. Next states and plans need that, in the larger problem, nothing is caused to be true as well as false and conditions of effects are not about what is caused; rules must not be recursive, literals of universal effects must contain the quantified variables, and universal effects must not trigger axioms. Refuted for universal goals and for objects of a new type with the name of a predicate.
C108 | partial | C108_calls, C108_states, C108_plans, C108_plans_buffers, C108_list, C108_planner_partial, C108_shadow_refuted | Calls, states, plans and listing are proved in full, plans also with argument buffers. The claim on searches has the conditions of C57. Refuted for a new action that has the name of an old one and stands before it.
C109 | proved | C109_bfs_order, C109_bfs, C109_bfs_timeout, C109_dfs | Breadth-first search for all nodes, also if tests and expansions of other nodes throw; depth-first search if they return for the nodes that can be reached.
C110 | partial | C110_programs_partial, C110_assigned_refuted, C110_scope_refuted | Proved for all programs that move an iterator only while the variable it was made from is left alone. Refuted for iterators moved after this variable was assigned (a node that is no child) or went out of scope (undefined).
