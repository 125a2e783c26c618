{
 "claims": [
  {
   "property": "C01",
   "status": "proved",
   "theorems": [
    "Symbolic.C01_state_is_a_set",
    "Symbolic.C01_constructed"
   ],
   "note": "Hash set of atoms over all histories of insert/erase/range insert, any string hash."
  },
  {
   "property": "C02",
   "status": "proved",
   "theorems": [
    "Symbolic.C02_equality_hash_order_canonical",
    "Symbolic.C02_constructed"
   ],
   "note": "Canonical form of the bucket array."
  },
  {
   "property": "C03",
   "status": "proved",
   "theorems": [
    "Symbolic.C03_order_strict_total"
   ],
   "note": "State and PartialState."
  },
  {
   "property": "C04",
   "status": "proved",
   "theorems": [
    "Symbolic.C04_iteration_visits_once"
   ],
   "note": "Index based iterator, forward and backward, no out-of-bounds access."
  },
  {
   "property": "C05",
   "status": "proved",
   "theorems": [
    "Symbolic.C05_partial_state",
    "Symbolic.C05_isConsistent_iff"
   ],
   "note": "Three-valued knowledge over all histories."
  },
  {
   "property": "C06",
   "status": "proved",
   "theorems": [
    "Symbolic.C06_iteration_is_cartesian_product",
    "Symbolic.C06_degenerate"
   ],
   "note": "Index based iterator with incremental digit updates."
  },
  {
   "property": "C07",
   "status": "proved",
   "theorems": [
    "Symbolic.C07_random_access",
    "Symbolic.C07_at",
    "Symbolic.C07_through_end_refuted"
   ],
   "note": "All in-range paths; the refutation records that a path through end() shows a wrong combination."
  },
  {
   "property": "C08",
   "status": "proved",
   "theorems": [
    "Symbolic.C08_find_inverts_indexing",
    "Symbolic.C08_find_is_inverse"
   ],
   "note": "For every element comparison."
  },
  {
   "property": "C09",
   "status": "partial",
   "theorems": [
    "Symbolic.C09_reverse_partial",
    "Symbolic.C09_reverse_exact",
    "Symbolic.C09_reverse_refuted"
   ],
   "note": "The code violates the property when an option other than the first has size one; exact behaviour proved for all inputs."
  },
  {
   "property": "C10",
   "status": "proved",
   "theorems": [
    "Symbolic.C10_object_map_is_subtyping",
    "Symbolic.C10_subtype_laws"
   ],
   "note": ""
  },
  {
   "property": "C11",
   "status": "proved",
   "theorems": [
    "Symbolic.C11_parameter_generator_exact"
   ],
   "note": "At least one parameter."
  },
  {
   "property": "C12",
   "status": "partial",
   "theorems": [
    "Symbolic.C12_zero_parameters_refuted",
    "Symbolic.C12_empty_quantifier_refuted"
   ],
   "note": "The code violates the property: no argument list at all."
  },
  {
   "property": "C13",
   "status": "proved",
   "theorems": [
    "Symbolic.C13_proposition_round_trip",
    "Symbolic.C13_strings_injective",
    "Symbolic.C13_state_round_trip"
   ],
   "note": "Names must be printable: no `(` in the predicate name, no separators in argument names, arguments declared."
  },
  {
   "property": "C14",
   "status": "proved",
   "theorems": [
    "Symbolic.C14_action_round_trip"
   ],
   "note": "For every constructed Pddl whose object names are distinct."
  },
  {
   "property": "C15",
   "status": "proved",
   "theorems": [
    "Symbolic.C15_parse_accepts_exactly",
    "Symbolic.C15_parse_total"
   ],
   "note": "Every string, every constructed Pddl."
  },
  {
   "property": "C16",
   "status": "proved",
   "theorems": [
    "Symbolic.C16_evaluation_is_satisfaction",
    "Symbolic.C16_constructor"
   ],
   "note": "Well-formed formulas: scoped terms, no constant called like a variable in scope, `=` binary, type tests unary, quantifiers bind at least one variable."
  },
  {
   "property": "C17",
   "status": "partial",
   "theorems": [
    "Symbolic.C17_constants_captured_refuted",
    "Symbolic.C17_constants_partial",
    "Symbolic.C17_variables"
   ],
   "note": "The code violates the property when a parameter is called like a constant; proved when no name in scope clashes."
  },
  {
   "property": "C18",
   "status": "proved",
   "theorems": [
    "Symbolic.C18_formula_history_independent",
    "Symbolic.C18_formula_answers",
    "Symbolic.C18_action_history_independent",
    "Symbolic.C18_api_history_independent",
    "Symbolic.C18_calls_history_independent"
   ],
   "note": "Formulas and actions, with the buffers as explicit state shared by all copies, and every call that applies actions or axioms (NextState, ApplyActions, IsValidPlan, IsValidTuple, ConsistentState and IsValidState of both kinds of states, planning with each search) on a Pddl that keeps the buffers from call to call; also after calls that threw. Re-entrance within one call is C55."
  },
  {
   "property": "C19",
   "status": "proved",
   "theorems": [
    "Symbolic.C19_partial_evaluation_sound"
   ],
   "note": "Every formula, all parameters and arguments."
  },
  {
   "property": "C20",
   "status": "proved",
   "theorems": [
    "Symbolic.C20_more_information",
    "Symbolic.C20_decided_agrees"
   ],
   "note": "Agreement is for well-formed formulas over the declared objects."
  },
  {
   "property": "C21",
   "status": "proved",
   "theorems": [
    "Symbolic.C21_exact_effects"
   ],
   "note": "Universal effects must not contradict each other (the result then depends on enumeration order); plain deletes win over adds."
  },
  {
   "property": "C22",
   "status": "proved",
   "theorems": [
    "Symbolic.C22_frame"
   ],
   "note": "Any axioms, also ill-formed actions."
  },
  {
   "property": "C23",
   "status": "proved",
   "theorems": [
    "Symbolic.C23_no_change",
    "Symbolic.C23_no_change_partial_state",
    "Symbolic.C23_buffers"
   ],
   "note": "Any axioms, also ill-formed actions; C23_buffers: with the shared buffers, whatever they hold."
  },
  {
   "property": "C24",
   "status": "partial",
   "theorems": [
    "Symbolic.C24_change_refuted",
    "Symbolic.C24_change_partial",
    "Symbolic.C25_pddl_semantics_partial"
   ],
   "note": "The code violates the property when an action deletes what it just added; proved when no predicate is both added and deleted, or for conflict-free instances."
  },
  {
   "property": "C25",
   "status": "partial",
   "theorems": [
    "Symbolic.C25_add_wins_refuted",
    "Symbolic.C25_condition_pre_state_refuted",
    "Symbolic.C25_pddl_semantics_partial"
   ],
   "note": "The code violates the property: deletes win, conditions see earlier effects; proved for conflict-free instances whose conditions are about other predicates."
  },
  {
   "property": "C26",
   "status": "partial",
   "theorems": [
    "Symbolic.C26_context_instances_refuted",
    "Symbolic.C26_refuted_is_wrong",
    "Symbolic.C26_fires_exactly_partial",
    "Symbolic.C26_ground_partial"
   ],
   "note": "Refuted by three witnesses: repeated context variables are not checked, parameters outside the context leak as variable names, types are not checked. Proved: exactly the matching instances fire when contexts mention each parameter once; declared-object atoms only when contexts cover the parameters."
  },
  {
   "property": "C27",
   "status": "partial",
   "theorems": [
    "Symbolic.C27_termination_refuted",
    "Symbolic.C27_termination_partial",
    "Symbolic.C27_termination_partial_state",
    "Symbolic.C27_budget_irrelevant",
    "Symbolic.C27_no_undoing_partial",
    "Symbolic.C27_no_undoing_partial_state"
   ],
   "note": "Refuted: two axioms trigger each other for ever. Proved for axioms whose trigger graph is ranked (acyclic), and for axioms that trigger each other in circles but of which none adds what one deletes (with the shared buffers as explicit state)."
  },
  {
   "property": "C28",
   "status": "partial",
   "theorems": [
    "Symbolic.C28_derived_state_is_fixpoint",
    "Symbolic.C28_next_state_is_fixpoint",
    "Symbolic.C28_nullary_refuted",
    "Symbolic.C28_nullary_witness"
   ],
   "note": "Proved for rules with parameters and well-formed bodies, any recursion or negation; refuted for derived predicates without parameters, which are never derived."
  },
  {
   "property": "C29",
   "status": "partial",
   "theorems": [
    "Symbolic.C29_two_rules_refuted",
    "Symbolic.C29_positive_ring_refuted",
    "Symbolic.C29_acyclic_terminates_partial",
    "Symbolic.C29_positive_terminates_partial"
   ],
   "note": "Refuted by two rules with the same head and by a positive ring from a stale State. Proved for non-recursive rules with distinct heads from every State, and for positive rules with distinct heads from States without derived atoms."
  },
  {
   "property": "C30",
   "status": "partial",
   "theorems": [
    "Symbolic.C30_stale_facts_refuted",
    "Symbolic.C30_acyclic_depends_on_base_partial",
    "Symbolic.C30_positive_least_model_partial",
    "Symbolic.C30_low_recursion_partial"
   ],
   "note": "Refuted: self-supporting derived atoms survive. Proved for non-recursive rules; for positive rules the result from a State without derived atoms is the least model; for non-recursive rules with any negation on top of positive recursive ones, for States without atoms of the latter."
  },
  {
   "property": "C31",
   "status": "proved",
   "theorems": [
    "Symbolic.C31_consistent_state_is_valid",
    "Symbolic.C31_valid_state_is_consistent",
    "Symbolic.C31_buffers",
    "Symbolic.C31_buffers_valid"
   ],
   "note": "Every Pddl; \"returns\" means with some budget for triggered axioms. C31_buffers*: with the shared buffers, after any calls."
  },
  {
   "property": "C32",
   "status": "proved",
   "theorems": [
    "Symbolic.C32_valid_iff_axioms_hold",
    "Symbolic.C32_nullary_axiom_refuted"
   ],
   "note": "Well-formed axioms with parameters, as the statement says; the refutation records that axioms without parameters are never checked."
  },
  {
   "property": "C50",
   "status": "proved",
   "theorems": [
    "Symbolic.C50_simplify"
   ],
   "note": "Conjunctions over declared objects."
  },
  {
   "property": "C51",
   "status": "partial",
   "theorems": [
    "Symbolic.C51_true_disjunct_refuted",
    "Symbolic.C51_negation_refuted",
    "Symbolic.C51_false_disjunct_refuted",
    "Symbolic.C51_normalized_preconditions_partial",
    "Symbolic.C51_normalized_goal_partial"
   ],
   "note": "Refuted by three formulas; proved for regular formulas (no always-true disjunct, no all-contradictory disjunction, no negation of an always-true formula), without apply_axioms."
  },
  {
   "property": "C52",
   "status": "partial",
   "theorems": [
    "Symbolic.C52_meaning",
    "Symbolic.C52_after_apply_partial",
    "Symbolic.C52_axiom_undoes_refuted"
   ],
   "note": "The meaning is proved; the state after the action satisfies it unless a triggered axiom undoes an effect (refuted then)."
  },
  {
   "property": "C53",
   "status": "proved",
   "theorems": [
    "Symbolic.C53_pruning_harmless"
   ],
   "note": "Axioms with parameters."
  },
  {
   "property": "C35",
   "status": "proved",
   "theorems": [
    "Symbolic.C35_apply_actions_iterates",
    "Symbolic.C35_append",
    "Symbolic.C35_buffers"
   ],
   "note": "C35_buffers: with the shared buffers, after any calls."
  },
  {
   "property": "C36",
   "status": "proved",
   "theorems": [
    "Symbolic.C36_valid_tuple",
    "Symbolic.C36_invalid_tuple",
    "Symbolic.C36_valid_plan",
    "Symbolic.C36_buffers_plan",
    "Symbolic.C36_buffers_tuple"
   ],
   "note": "C36_buffers_*: with the shared buffers, after any calls."
  },
  {
   "property": "C37",
   "status": "proved",
   "theorems": [
    "Symbolic.C37_list_exact",
    "Symbolic.C37_list_nodup",
    "Symbolic.C37_list_returns",
    "Symbolic.C37_nullary_refuted"
   ],
   "note": "Exactness for actions with parameters and printable, distinct names; the refutation records that actions without parameters are never listed."
  },
  {
   "property": "C43",
   "status": "proved",
   "theorems": [
    "Symbolic.C43_instances",
    "Symbolic.C43_children",
    "Symbolic.C43_children_return",
    "Symbolic.C43_buffers",
    "Symbolic.C43_buffers_return",
    "Symbolic.C43_no_actions_refuted",
    "Symbolic.C43_nullary_refuted"
   ],
   "note": "C43_buffers*: with the shared buffers, after any calls. Actions with at least one parameter; the refutations record that a domain without actions is undefined behaviour and that actions without parameters are never expanded."
  },
  {
   "property": "C44",
   "status": "proved",
   "theorems": [
    "Symbolic.C44_bfs_sound",
    "Symbolic.C44_bfs_dereferenceable",
    "Symbolic.C44_planner_plans_valid",
    "Symbolic.C44_root",
    "Symbolic.C44_buffers"
   ],
   "note": "C44_buffers is for all three searches with the shared argument buffers: whatever axioms there are, also those that trigger themselves, and whatever calls come before and between, IsValidPlan accepts the plans found."
  },
  {
   "property": "C45",
   "status": "proved",
   "theorems": [
    "Symbolic.C45_bfs_complete",
    "Symbolic.C45_bfs_first_shortest",
    "Symbolic.C45_bfs_returned"
   ],
   "note": "Search spaces in which goal test and expansion return; C45_bfs_returned: any space, if the search returns."
  },
  {
   "property": "C46",
   "status": "proved",
   "theorems": [
    "Symbolic.C46_bfs_terminates",
    "Symbolic.C46_bfs_end_stays"
   ],
   "note": ""
  },
  {
   "property": "C47",
   "status": "proved",
   "theorems": [
    "Symbolic.C47_timeout_prefix"
   ],
   "note": ""
  },
  {
   "property": "C48",
   "status": "partial",
   "theorems": [
    "Symbolic.C48_dfs_sound",
    "Symbolic.C48_dfs_complete_partial",
    "Symbolic.C48_dfs_returned_partial",
    "Symbolic.C48_buffers_partial",
    "Symbolic.C48_dfs_loses_plan_refuted"
   ],
   "note": "C48_dfs_returned_partial: any space, if the search returns; C48_buffers_partial: over the planner with its buffers, after any calls. Completeness needs that the stack is not empty when a goal is found; refuted otherwise."
  },
  {
   "property": "C49",
   "status": "partial",
   "theorems": [
    "Symbolic.C49_astar_sound",
    "Symbolic.C49_astar_complete_partial",
    "Symbolic.C49_astar_monotone_partial",
    "Symbolic.C49_astar_optimal_partial",
    "Symbolic.C49_astar_returned_partial",
    "Symbolic.C49_buffers_partial",
    "Symbolic.C49_astar_loses_plan_refuted"
   ],
   "note": "All plans but at most one are visited, in the order of their costs with admissible estimates, and the lost one is among the most expensive; that one is lost is refuted by a witness: a goal that empties the queue is not reported. C49_astar_returned_partial: any space, if the search returns; C49_buffers_partial: over the planner with its buffers, after any calls."
  },
  {
   "property": "C40",
   "status": "proved",
   "theorems": [
    "Symbolic.C40_index_of_proposition",
    "Symbolic.C40_proposition_of_index",
    "Symbolic.C40_iteration",
    "Symbolic.C40_rejects_others",
    "Symbolic.C40_nullary_refuted",
    "Symbolic.C40_missing_argument_refuted"
   ],
   "note": "Unique object, predicate names and type chains and printable names; the claim speaks of predicates with parameters, the refutations show why."
  },
  {
   "property": "C41",
   "status": "proved",
   "theorems": [
    "Symbolic.C41_state_round_trip",
    "Symbolic.C41_vector_round_trip",
    "Symbolic.C41_nullary_refuted",
    "Symbolic.C41_nullary_last_refuted"
   ],
   "note": "As C40."
  },
  {
   "property": "C42",
   "status": "proved",
   "theorems": [
    "Symbolic.C42_cache_transparent",
    "Symbolic.C42_history_irrelevant",
    "Symbolic.C42_unprintable_refuted"
   ],
   "note": "Names without separators."
  },
  {
   "property": "C38",
   "status": "partial",
   "theorems": [
    "Symbolic.C38_new_object_partial",
    "Symbolic.C38_enumeration_unchanged_refuted",
    "Symbolic.C38_valid_action_not_listed_refuted",
    "Symbolic.C38_untyped_refuted"
   ],
   "note": "objects() and parsing know the new object; the object map, generators, quantifiers and ListValidActions never do (proved for every Pddl)."
  },
  {
   "property": "C39",
   "status": "partial",
   "theorems": [
    "Symbolic.C39_objects_live_partial",
    "Symbolic.C39_object_map",
    "Symbolic.C39_object_map_dangles_refuted",
    "Symbolic.C39_constant_dangles_refuted",
    "Symbolic.C39_initial_state_refuted"
   ],
   "note": "objects() and lookup by name stay live when no constant is removed; object_map() keeps the freed symbol (proved for every Pddl and object)."
  },
  {
   "property": "C33",
   "status": "partial",
   "theorems": [
    "Symbolic.C33_entailed_partial",
    "Symbolic.C33_no_failure_partial",
    "Symbolic.C33_saturated",
    "Symbolic.C33_consequences_known",
    "Symbolic.C33_override_refuted",
    "Symbolic.C33_narrow_axiom_refuted"
   ],
   "note": "Entailment and growth are proved for every PartialState with a valid completion and axioms whose triggered instances are well typed; saturation for every Pddl and PartialState. Refuted without a valid completion (a triggered axiom silently overrides a known fact) and for axioms whose parameters are declared narrower than the predicate of the context."
  },
  {
   "property": "C34",
   "status": "partial",
   "theorems": [
    "Symbolic.C34_never_rejects_partial",
    "Symbolic.C34_rejected_has_no_completion_partial",
    "Symbolic.C34_narrow_axiom_refuted"
   ],
   "note": "Proved for axioms whose triggered instances are well typed. Refuted for axioms whose parameters are declared narrower than the predicate of the context. That the call returns is C68."
  },
  {
   "property": "C55",
   "status": "partial",
   "theorems": [
    "Symbolic.C55_by_value_partial",
    "Symbolic.C55_api_partial",
    "Symbolic.C55_calls_partial",
    "Symbolic.Buffers.C55_reentrant_refuted",
    "Symbolic.Buffers.C55_api_refuted",
    "Symbolic.Buffers.C55_calls_refuted",
    "Symbolic.Buffers.C55_planner_refuted"
   ],
   "note": "Proved when no axiom can trigger itself, directly or through others, for single actions and for every call that applies actions or axioms, ConsistentState, IsValidState and the searches included. Refuted otherwise: the axiom overwrites the vector it is reading its arguments from. Most other theorems about actions and axioms use arguments passed by value."
  },
  {
   "property": "C54",
   "status": "partial",
   "theorems": [
    "Symbolic.C54_round_trip_partial",
    "Symbolic.C54_ground_partial",
    "Symbolic.C54_quantified_refuted",
    "Symbolic.FormulaStrings.C54_variable_refuted"
   ],
   "note": "Proved for formulas without quantifiers and variables. Refuted for every formula with a quantifier (its string has unbalanced brackets, so nothing can read it) and for variables (printed without the question mark)."
  },
  {
   "property": "C56",
   "status": "proved",
   "theorems": [
    "Symbolic.C56_next_state_returns",
    "Symbolic.C56_tests_return",
    "Symbolic.C56_plans_return",
    "Symbolic.C56_valid_state_returns",
    "Symbolic.C56_partial_states_return"
   ],
   "note": "Well-formedness and absence of loops are the predicates Ptree.WellFormed and Ptree.NoLoops in Spec/WellFormed.lean."
  },
  {
   "property": "C57",
   "status": "partial",
   "theorems": [
    "Symbolic.C57_planner_decides_partial",
    "Symbolic.C57_initial_valid",
    "Symbolic.C57_buffers_partial",
    "Symbolic.C57_nullary_refuted"
   ],
   "note": "Proved for well-formed domains without loops in which every action has parameters, names are printable, and the initial state satisfies the axioms (always true with apply_axioms); plans are lists of calls of actions, not of axioms. C57_buffers_partial: with the shared buffers, after any calls, any axioms and loops, if the search returns. Refuted for actions without parameters."
  },
  {
   "property": "C58",
   "status": "partial",
   "theorems": [
    "Symbolic.C58_initial_state_partial",
    "Symbolic.C58_next_state_partial",
    "Symbolic.C58_closures_partial",
    "Symbolic.C58_apply_actions_partial",
    "Symbolic.C58_reachable_states_indexed_partial",
    "Symbolic.C58_reachable_states_printed_partial",
    "Symbolic.C58_narrow_axiom_refuted"
   ],
   "note": "Proved for domains that satisfy Ptree.TypeChecked (Spec/TypeChecked.lean), which also requires that parameters of axioms are declared as wide as the predicate of the context and occur once in it. Refuted without: a triggered axiom ignores parameter types, so the next state may contain an undeclared proposition, on which GetIndexedState throws."
  },
  {
   "property": "C59",
   "status": "partial",
   "theorems": [
    "Symbolic.C59_conditional_meaning_partial",
    "Symbolic.C59_after_apply_partial",
    "Symbolic.C59_true_condition_refuted",
    "Symbolic.C59_tautology_refuted",
    "Symbolic.C59_false_condition_refuted",
    "Symbolic.C59_changed_condition_refuted",
    "Symbolic.C59_throws_refuted"
   ],
   "note": "Proved for regular effects (Eff.Regular in Spec/Normal.lean). Refuted for conditions that are always true (dropped) or always false (effect demanded), for contradictory conditional effects (throws), and after the action when it changes what its conditions read."
  },
  {
   "property": "C60",
   "status": "partial",
   "theorems": [
    "Symbolic.C60_completion_partial",
    "Symbolic.C60_preconditions_partial",
    "Symbolic.C60_contradiction_refuted",
    "Symbolic.C60_throws_refuted"
   ],
   "note": "Proved when every disjunct is true in some State that satisfies the axioms, for axioms as in C33. Refuted for disjuncts that contradict the axioms: the code throws, or changes the disjunct into one that can be true."
  },
  {
   "property": "C61",
   "status": "proved",
   "theorems": [
    "Symbolic.C61_conditions_pair"
   ],
   "note": ""
  },
  {
   "property": "C62",
   "status": "partial",
   "theorems": [
    "Symbolic.C62_queries",
    "Symbolic.C62_results",
    "Symbolic.C62_partial_states",
    "Symbolic.C62_simulation_partial",
    "Symbolic.C62_list_arguments",
    "Symbolic.C62_feedback_refuted"
   ],
   "note": "Agreement on single calls is proved for States of printable propositions over declared objects, and list_valid_arguments for actions with parameters and unique clean names. The simulation by repeated next_state is proved for domains that satisfy Ptree.TypeChecked; refuted for axioms with parameters outside of their context, which put propositions about variables into the state that cannot be read back."
  },
  {
   "property": "C63",
   "status": "partial",
   "theorems": [
    "Symbolic.C63_reads_exactly",
    "Symbolic.C63_reads_total",
    "Symbolic.C63_undeclared_refuted"
   ],
   "note": "Proved: the strings that are read are exactly those whose argument words are names of objects, all others throw. Refuted: predicate, number of arguments, types and brackets are not checked."
  },
  {
   "property": "C64",
   "status": "partial",
   "theorems": [
    "Symbolic.C64_unpickled",
    "Symbolic.C64_round_trip_partial",
    "Symbolic.C64_lost_refuted"
   ],
   "note": "Proved for a Pddl nothing was assigned to, made with apply_axioms or from a valid initial state; in general unpickling gives the closure of the initial state of the problem. Refuted for assigned initial states and for apply_axioms=false. The files are taken to be unchanged; add_object is not covered."
  },
  {
   "property": "C65",
   "status": "partial",
   "theorems": [
    "Symbolic.C65_functions_agree",
    "Symbolic.C65_head",
    "Symbolic.C65_arguments_partial",
    "Symbolic.C65_nullary_refuted",
    "Symbolic.C65_disagree_refuted"
   ],
   "note": "Proved: the three functions agree with each other on all strings, the head agrees with the library whenever one is returned, the arguments on printed propositions with arguments. Refuted for every proposition without arguments (one empty argument), for arguments separated by blanks and for strings without brackets (ValueError)."
  },
  {
   "property": "C66",
   "status": "partial",
   "theorems": [
    "Symbolic.C66_reads_exactly",
    "Symbolic.C66_text_partial",
    "Symbolic.C66_default_goal",
    "Symbolic.C66_when",
    "Symbolic.C66_untyped_first_refuted",
    "Symbolic.C66_quantified_refuted"
   ],
   "note": "Proved for goals without quantifiers and objects without a type added last. Refuted for all others: an object without a type takes the type of the next typed object, and a text with a quantifier is no PDDL. The reader is the specification in Spec/Problem.lean, not VAL."
  },
  {
   "property": "C67",
   "status": "proved",
   "theorems": [
    "Symbolic.C67_constructor",
    "Symbolic.C67_apply_axioms",
    "Symbolic.C67_arity_refuted",
    "Symbolic.C67_unprintable_refuted",
    "Symbolic.C67_exception_caught"
   ],
   "note": "Domains whose axioms have unconditional effects and no parameter called like an object. The rest of the hypothesis (ContextsFit) is what VAL's type checker is trusted to establish; C67_arity_refuted shows that it is needed. Axioms that deny what is always true or contradict themselves are undefined behaviour, not exceptions."
  },
  {
   "property": "C68",
   "status": "partial",
   "theorems": [
    "Symbolic.C68_consistent_state_partial",
    "Symbolic.C68_constructor_partial",
    "Symbolic.C68_consistent_partial_state",
    "Symbolic.C68_consistent_partial_state_outcome",
    "Symbolic.C68_valid_partial_state_partial",
    "Symbolic.C68_valid_partial_state_returns_partial",
    "Symbolic.C68_undoing_refuted"
   ],
   "note": "Proved for axioms of which none adds what another deletes. Refuted otherwise: with p => q and p => not q the constructor with apply_axioms never returns. ConsistentState of a PartialState needs no such condition, as it gives up after 50 passes."
  },
  {
   "property": "C69",
   "status": "proved",
   "theorems": [
    "Symbolic.C69_next_state",
    "Symbolic.C69_apply_actions",
    "Symbolic.C69_buffers"
   ],
   "note": "Any axioms and any derived predicates; C69_buffers is the same for the action and its axioms with the shared buffers, so that it covers axioms that trigger themselves."
  },
  {
   "property": "C70",
   "status": "partial",
   "theorems": [
    "Symbolic.C70_actions_partial",
    "Symbolic.C70_state_index_partial",
    "Symbolic.C70_contents",
    "Symbolic.C70_past_the_end",
    "Symbolic.C70_unpickled_refuted",
    "Symbolic.C70_predicates_refuted",
    "Symbolic.C70_generators_refuted",
    "Symbolic.C70_state_index_refuted"
   ],
   "note": "Proved for actions of constructed Pddls, and for the state index on propositions without arguments. Refuted for all others: predicates, generators and the state index hold a null pointer, the actions of an unpickled Pddl a dangling one. remove_object and addresses that are used again are not modelled."
  },
  {
   "property": "C71",
   "status": "proved",
   "theorems": [
    "Symbolic.C71_list",
    "Symbolic.C71_next",
    "Symbolic.C71_rest",
    "Symbolic.C71_plans"
   ],
   "note": "The copies made by pybind11 are taken to be copies of the C++ values; the root node and the Planner are taken to outlive the search (when they do: C87). C71_rest is without timeout."
  },
  {
   "property": "C72",
   "status": "partial",
   "theorems": [
    "Symbolic.C72_in_range_partial",
    "Symbolic.C72_out_of_range_refuted"
   ],
   "note": "Proved for positions in range. Refuted for all others: the code reads past a vector. At most 2^31 propositions."
  },
  {
   "property": "C73",
   "status": "partial",
   "theorems": [
    "Symbolic.C73_returns",
    "Symbolic.C73_throws",
    "Symbolic.C73_limit_refuted"
   ],
   "note": "The number of passes is characterised exactly. Refuted: that the closure is found whenever repeated passes reach one; a chain of 51 axioms is given up."
  },
  {
   "property": "C74",
   "status": "partial",
   "theorems": [
    "Symbolic.C74_as_empty_problem",
    "Symbolic.C74_goal",
    "Symbolic.C74_goal_strings",
    "Symbolic.C74_no_problem",
    "Symbolic.C74_change_refuted",
    "Symbolic.C74_constants_refuted",
    "Symbolic.C74_initial_refuted"
   ],
   "note": "The comparison with the empty problem is proved for every domain. Refuted for every domain: constants() is empty, add_object, remove_object of an existing object and unpickling are undefined; and by a witness: the initial state may violate the axioms."
  },
  {
   "property": "C75",
   "status": "partial",
   "theorems": [
    "Symbolic.C75_text",
    "Symbolic.C75_problem",
    "Symbolic.C75_problem_loads",
    "Symbolic.C75_path_loads",
    "Symbolic.C75_path_partial",
    "Symbolic.C75_path_refuted"
   ],
   "note": "The exact condition is proved for all strings. Refuted for paths that end with a closing bracket and for texts that end with a comment or a form feed. VAL's reading of a text is a parameter; in C75_text the reader is that of Spec/Problem.lean."
  },
  {
   "property": "C76",
   "status": "partial",
   "theorems": [
    "Symbolic.C76_values_partial",
    "Symbolic.C76_typed_partial",
    "Symbolic.C76_destroyed",
    "Symbolic.C76_moved_refuted"
   ],
   "note": "Proved for all programs over existing generators and every generator that was not moved from. Refuted for moved-from ones, for all option lists. A self-move leaves a moved-from generator."
  },
  {
   "property": "C77",
   "status": "partial",
   "theorems": [
    "Symbolic.C77_state",
    "Symbolic.C77_partial_state",
    "Symbolic.C77_normal_form",
    "Symbolic.C77_conjunctive",
    "Symbolic.C77_action",
    "Symbolic.C77_axiom",
    "Symbolic.C77_axiom_false",
    "Symbolic.C77_node",
    "Symbolic.C77_order_refuted",
    "Symbolic.C77_names_needed"
   ],
   "note": "Injectivity is proved for all kinds of text over plain names (C77_names_needed shows the need), and independence of the hash function for states. Refuted: independence of the hash function for partial states and normal forms. Printing of Pddl and VAL structures is not modelled."
  },
  {
   "property": "C78",
   "status": "partial",
   "theorems": [
    "Symbolic.C78_least_change_partial",
    "Symbolic.C78_order_partial",
    "Symbolic.C78_initial_partial",
    "Symbolic.C78_order_refuted",
    "Symbolic.C78_narrow_axiom_refuted"
   ],
   "note": "Proved for persistent axioms that agree with the signatures of predicates. Refuted for axioms that undo what makes axioms apply (the declaration order decides) and for axioms narrower than their context. Arguments are passed by value, which is what the code does if no axiom triggers itself (C55)."
  },
  {
   "property": "C79",
   "status": "partial",
   "theorems": [
    "Symbolic.C79_formula",
    "Symbolic.C79_goal",
    "Symbolic.C79_valid_action",
    "Symbolic.C79_list",
    "Symbolic.C79_initial",
    "Symbolic.C79_derived_partial",
    "Symbolic.C79_recursive_partial",
    "Symbolic.C79_next_partial",
    "Symbolic.C79_plan_partial",
    "Symbolic.C79_next_axioms_partial",
    "Symbolic.C79_plan_axioms_partial",
    "Symbolic.C79_effect_refuted",
    "Symbolic.C79_rules_refuted",
    "Symbolic.C79_axioms_refuted"
   ],
   "note": "Formulas, goals, validity and listing in full for well-formed preconditions. Next states and plans, for rules that are not recursive: for actions whose universal effects do not interfere with themselves and that trigger no axiom; and, in domains that pass the type checker, for actions that trigger any axioms, if nothing is caused to be true as well as false and conditions are not about what is caused. DerivedState also for recursive rules as in C90_low_recursion, from States without stale atoms of them. Refuted for universal effects whose instances interfere, for rules that depend on each other and for axioms that contradict each other."
  },
  {
   "property": "C80",
   "status": "partial",
   "theorems": [
    "Symbolic.C80_constructor_partial",
    "Symbolic.C80_add_object",
    "Symbolic.C80_contents",
    "Symbolic.C80_parse",
    "Symbolic.C80_parse_state",
    "Symbolic.C80_next_state",
    "Symbolic.C80_apply_actions",
    "Symbolic.C80_closures",
    "Symbolic.C80_partial_states",
    "Symbolic.C80_verdicts",
    "Symbolic.C80_plans",
    "Symbolic.C80_normal_forms",
    "Symbolic.C80_normal_forms_axioms",
    "Symbolic.C80_list",
    "Symbolic.C80_planner",
    "Symbolic.C80_searches",
    "Symbolic.C80_astar",
    "Symbolic.C80_index",
    "Symbolic.C80_type_name_refuted"
   ],
   "note": "Proved for all proper renamings and all pairs of Pddls whose constructors return; that the constructors have the same outcome is proved if in axioms = has two arguments and predicates called like types have one (not needed for a literal as context and for unconditional effects). Normal forms under the same condition; with apply_axioms, that one returns iff the other does. Refuted when predicates are renamed independently of types."
  },
  {
   "property": "C81",
   "status": "partial",
   "theorems": [
    "Symbolic.C81_constructor_partial",
    "Symbolic.C81_constructed",
    "Symbolic.C81_add_object",
    "Symbolic.C81_states",
    "Symbolic.C81_partial_states",
    "Symbolic.C81_verdicts",
    "Symbolic.C81_list",
    "Symbolic.C81_normal_forms",
    "Symbolic.C81_searches",
    "Symbolic.C81_iteration_refuted",
    "Symbolic.C81_constructor_refuted"
   ],
   "note": "As C80. Refuted for the order of iteration over a state, and for the constructor when a predicate without arguments is called like a type."
  },
  {
   "property": "C82",
   "status": "partial",
   "theorems": [
    "Symbolic.C82_backward_partial",
    "Symbolic.C82_single_refuted",
    "Symbolic.C82_nullary_refuted",
    "Symbolic.C82_nullary_hangs_refuted",
    "Symbolic.C82_no_actions_refuted"
   ],
   "note": "Proved, with the exact behaviour past the first child, for actions with arguments to enumerate whose parameters other than the first have two or more possible arguments. Refuted for the others: the hang for every such Pddl."
  },
  {
   "property": "C83",
   "status": "partial",
   "theorems": [
    "Symbolic.C83_listing",
    "Symbolic.C83_random_access_partial",
    "Symbolic.C83_forward_partial",
    "Symbolic.C83_backward_partial",
    "Symbolic.C83_reference_partial",
    "Symbolic.C83_outside",
    "Symbolic.C83_far",
    "Symbolic.C83_overwritten_refuted",
    "Symbolic.C83_postfix_refuted",
    "Symbolic.C83_reverse_refuted",
    "Symbolic.C83_size_refuted",
    "Symbolic.C83_half_refuted"
   ],
   "note": "Proved for indices with less than 2^31 propositions: positions, comparisons, loops, and references until the same iterator is dereferenced again. Refuted for references that should outlive that, `*it++`, reverse iterators and for 2^32 propositions."
  },
  {
   "property": "C84",
   "status": "partial",
   "theorems": [
    "Symbolic.C84_arguments_partial",
    "Symbolic.C84_arguments_unique",
    "Symbolic.C84_depth",
    "Symbolic.C84_usage",
    "Symbolic.C84_verbose",
    "Symbolic.C84_verbose_lines",
    "Symbolic.C84_numbers",
    "Symbolic.C84_depth_again",
    "Symbolic.C84_exceptions",
    "Symbolic.C84_program_partial",
    "Symbolic.C84_negative_refuted",
    "Symbolic.C84_trailing_refuted",
    "Symbolic.C84_not_a_number_refuted"
   ],
   "note": "Arguments: exact grammar. Plans printed: as C57, for domains without loops whose actions all have parameters. Refuted for depths that are negative, followed by text, not numbers or too large."
  },
  {
   "property": "C85",
   "status": "partial",
   "theorems": [
    "Symbolic.C85_children_partial",
    "Symbolic.C85_arguments_partial",
    "Symbolic.C85_copies",
    "Symbolic.C85_list_children_refuted",
    "Symbolic.C85_list_arguments_refuted",
    "Symbolic.C85_no_child_refuted"
   ],
   "note": "Proved for all Python programs that look only at what the latest `next` gave and at copies. Refuted for objects kept longer: for every node with two different children and every generator with two argument lists. The semantics of pybind11's make_iterator is part of the model."
  },
  {
   "property": "C86",
   "status": "partial",
   "theorems": [
    "Symbolic.C86_sound_partial",
    "Symbolic.C86_exact_partial",
    "Symbolic.C86_axioms_partial",
    "Symbolic.C86_cascade_partial",
    "Symbolic.C86_unknown_condition_refuted",
    "Symbolic.C86_axiom_refuted",
    "Symbolic.C86_broken_axiom_refuted"
   ],
   "note": "Agreement and exactness proved for actions that trigger no axiom and whose conditions are about known atoms; agreement also when triggered axioms write nothing that is written the other way round and hold in the State. With triggered axioms of any kind, C86_cascade_partial: both calls return, agree, and nothing is lost, if nothing is caused to be true as well as false and conditions are about known atoms that are not caused. Refuted for unknown conditions, for axioms that undo the action, and for States in which axioms do not hold."
  },
  {
   "property": "C87",
   "status": "partial",
   "theorems": [
    "Symbolic.PyLife.C87_exact",
    "Symbolic.PyLife.C87_pddl_kept_partial",
    "Symbolic.PyLife.C87_all_kept_partial",
    "Symbolic.PyLife.C87_parts",
    "Symbolic.PyLife.C87_planner_refuted",
    "Symbolic.PyLife.C87_search_refuted",
    "Symbolic.PyLife.C87_begun_refuted"
   ],
   "note": "Exact condition for every program; proved when variables with Pddls (and, with searches, nodes and searches) are kept, and for programs without planners. Refuted for dropped Pddls, roots and copied searches. Policies of pybind11 are taken from its documentation."
  },
  {
   "property": "C88",
   "status": "partial",
   "theorems": [
    "Symbolic.C88_exact",
    "Symbolic.C88_kept_partial",
    "Symbolic.C88_copy",
    "Symbolic.C88_remove_refuted",
    "Symbolic.C88_add_refuted"
   ],
   "note": "Exact for every history of additions of new names and removals of objects of the problem; proved when the capacity suffices and nothing at or before the position is removed, and for copies. Refuted for every Pddl for removals and for additions beyond the capacity, whatever the growth policy."
  },
  {
   "property": "C89",
   "status": "partial",
   "theorems": [
    "Symbolic.C89_state_partial",
    "Symbolic.C89_partial_state_partial",
    "Symbolic.C89_conflict_refuted",
    "Symbolic.C89_condition_refuted"
   ],
   "note": "For States and PartialStates, all domains that pass the type checker, axioms that trigger each other in any way, cyclic ones included. Proved if nothing is caused to be true as well as false and conditions of effects are not about what is caused; refuted otherwise. Arguments are passed by value, which is what the code does if no axiom triggers itself (C55)."
  },
  {
   "property": "C90",
   "status": "partial",
   "theorems": [
    "Symbolic.C90_in_order_partial",
    "Symbolic.C90_low_recursion_partial",
    "Symbolic.C90_stratified_refuted"
   ],
   "note": "Proved for rules that are declared in the order of their strata, each a stratum of its own, and for rules in any order of which only the lowest are recursive. Refuted for recursion above a negation when the rules are declared in another order."
  },
  {
   "property": "C91",
   "status": "partial",
   "theorems": [
    "Symbolic.C91_formula_partial",
    "Symbolic.C91_effects_partial",
    "Symbolic.C91_returns_partial",
    "Symbolic.C91_flag_ignored",
    "Symbolic.C91_negation_refuted",
    "Symbolic.C91_conditional_refuted"
   ],
   "note": "Proved for well-formed, regular (C51, C59) conjunctions, disjunctions, quantified formulas and effects, and axioms as in C34, whenever the call returns; in domains as in C68 it returns for every formula for which it returns without the flag, and for effects unless it throws for a conditional one. Refuted for atoms and negations, where the flag is ignored, and for conditional effects that no valid state achieves, where the call throws."
  },
  {
   "property": "C92",
   "status": "partial",
   "theorems": [
    "Symbolic.C92_conjunctive_partial",
    "Symbolic.C92_conjunctive_axioms_partial",
    "Symbolic.C92_returns_partial",
    "Symbolic.C92_empty_refuted"
   ],
   "note": "Proved for all ConjunctiveFormulas without empty disjunctions; with apply_axioms whenever the call returns, which it does in domains as in C68. Refuted for empty disjunctions, which are dropped."
  },
  {
   "property": "C93",
   "status": "partial",
   "theorems": [
    "Symbolic.C93_state",
    "Symbolic.C93_apply",
    "Symbolic.C93_state_returns",
    "Symbolic.C93_partial_state_partial",
    "Symbolic.C93_partial_state_returns_partial",
    "Symbolic.C93_own_axiom_partial",
    "Symbolic.C93_other_axiom_refuted"
   ],
   "note": "States: proved for well-formed axioms with parameters; agreement with Apply for all. PartialStates: proved that no State that satisfies all axioms agrees with a rejected PartialState, typing as in C34, and that the call returns in domains as in C68; for an axiom with an atom as context whose implication triggers no axiom, that it accepts exactly the PartialStates that a State satisfying it agrees with. Refuted: a PartialState is also rejected because of another axiom that the effects trigger."
  },
  {
   "property": "C94",
   "status": "partial",
   "theorems": [
    "Symbolic.C94_rules_partial",
    "Symbolic.C94_accepts_partial",
    "Symbolic.C94_order_partial",
    "Symbolic.C94_coherent",
    "Symbolic.C94_order_refuted"
   ],
   "note": "Proved, including that the calls return, for type-checked domains whose axioms have no conditional effects and contexts about declared predicates, and PartialStates from which nothing follows together with its opposite (such as those with a valid completion, C94_coherent). Refuted for contradicting facts: a triggered axiom forgets a known fact, and the order of axioms decides what is known."
  },
  {
   "property": "C95",
   "status": "proved",
   "theorems": [
    "Symbolic.C95_consistent_is_valid",
    "Symbolic.C95_valid_is_consistent",
    "Symbolic.C95_invalid"
   ],
   "note": "Every Pddl and PartialState; the loop bounds of the model must allow 51 passes."
  },
  {
   "property": "C96",
   "status": "partial",
   "theorems": [
    "Symbolic.C96_apply_partial",
    "Symbolic.C96_consistent_partial",
    "Symbolic.C96_undo_refuted",
    "Symbolic.C96_condition_refuted"
   ],
   "note": "Proved for domains that pass the type checker, without predicates that axioms add and delete, and without conditions of effects about predicates that axioms change; refuted otherwise. Arguments are passed by value, which is what the code does if no axiom triggers itself (C55)."
  },
  {
   "property": "C97",
   "status": "partial",
   "theorems": [
    "Symbolic.C97_apply_partial",
    "Symbolic.C97_next_partial",
    "Symbolic.C97_reachable_partial",
    "Symbolic.C97_planner_partial",
    "Symbolic.C97_refuted"
   ],
   "note": "Proved under the conditions of C89 (no conflicts, conditions of effects not about what is caused) for domains that pass the type checker and whose axioms are not about derived predicates. The refutation shows an action that deletes what an axiom implies."
  },
  {
   "property": "C98",
   "status": "partial",
   "theorems": [
    "Symbolic.C98_state_partial",
    "Symbolic.C98_partial_state_partial",
    "Symbolic.C98_refuted"
   ],
   "note": "Proved under the conditions of C89 (no conflicts, conditions of effects not about what is caused; PartialStates know what conditions mention). The refutation shows an effect whose condition reads what another effect of the action adds."
  },
  {
   "property": "C99",
   "status": "partial",
   "theorems": [
    "Symbolic.C99_state_partial",
    "Symbolic.C99_partial_state_partial",
    "Symbolic.C99_valid_partial",
    "Symbolic.C99_plans_partial",
    "Symbolic.C99_refuted"
   ],
   "note": "Proved for domains that pass the type checker; for ApplyActions also for rules that are not recursive and effects that are not about derived predicates. The refutation shows an action that deletes what an axiom triggered by the other one adds. Arguments are passed by value, which is what the code does if no axiom triggers itself (C55)."
  },
  {
   "property": "C100",
   "status": "partial",
   "theorems": [
    "Symbolic.C100_detects_partial",
    "Symbolic.C100_completion_partial",
    "Symbolic.C100_valid_iff_completion_partial",
    "Symbolic.C100_refuted",
    "Symbolic.C100_negated_refuted"
   ],
   "note": "Proved for domains that pass the type checker where contexts of axioms are about facts, implications are unconditional and imply no context of an axiom. Refuted without the last: change codes of triggered axioms are dropped, a contradiction found through them is accepted. Refuted for negated contexts: that one of two values must hold is not used."
  },
  {
   "property": "C101",
   "status": "partial",
   "theorems": [
    "Symbolic.C101_run_partial",
    "Symbolic.C101_plan_partial",
    "Symbolic.C101_refuted"
   ],
   "note": "Proved when conditions of effects are about known atoms and nothing an action causes is the opposite of something it causes or of what an axiom implies in a possible State; rules are not recursive, effects and axioms are not about derived predicates. Refuted for an action that contradicts an axiom."
  },
  {
   "property": "C102",
   "status": "partial",
   "theorems": [
    "Symbolic.C102_valid",
    "Symbolic.C102_next_partial",
    "Symbolic.C102_plan_partial",
    "Symbolic.C102_invalid_refuted"
   ],
   "note": "Proved when conditions of effects are about nothing that is added, axioms are not about derived predicates, and the larger State is valid; for plans, rules and axioms are also not recursive. Refuted for larger States that violate an axiom: where the action changes nothing, the axiom is not triggered."
  },
  {
   "property": "C103",
   "status": "proved",
   "theorems": [
    "Symbolic.C103_tests",
    "Symbolic.C103_next",
    "Symbolic.C103_plan"
   ],
   "note": "For all domains the constructor accepts, recursive rules, conflicting effects and axioms that trigger themselves included, whenever the calls return; with the shared buffers of the actions, after any previous calls."
  },
  {
   "property": "C104",
   "status": "partial",
   "theorems": [
    "Symbolic.C104_valid_action",
    "Symbolic.C104_goal",
    "Symbolic.C104_list",
    "Symbolic.C104_derived_partial",
    "Symbolic.C104_next_partial",
    "Symbolic.C104_plan_partial",
    "Symbolic.C104_next_axioms_partial",
    "Symbolic.C104_plan_axioms_partial",
    "Symbolic.C104_goal_refuted"
   ],
   "note": "States and plans: proved for rules that are not recursive and actions whose effects (with those of the axioms they trigger) do not contradict each other and are not read by conditions of effects; the others depend on the order of declarations, see C78 and C79. Refuted for goals that tell the objects apart."
  },
  {
   "property": "C105",
   "status": "proved",
   "theorems": [
    "Symbolic.C105_answers",
    "Symbolic.C105_equality",
    "Symbolic.C105_hash",
    "Symbolic.C105_order",
    "Symbolic.C105_sorted",
    "Symbolic.C105_hash_independent",
    "Symbolic.C105_iteration_refuted"
   ],
   "note": "std::sort and std::unique are modelled by insertion sort and the removal of repeated neighbours. The last theorem shows that iteration, operator< and hash values differ between the implementations."
  },
  {
   "property": "C106",
   "status": "partial",
   "theorems": [
    "Symbolic.C106_consistent_partial",
    "Symbolic.C106_apply_partial",
    "Symbolic.C106_track_partial",
    "Symbolic.C106_contradiction_refuted",
    "Symbolic.C106_apply_refuted"
   ],
   "note": "Proved for effects whose conditions are about known atoms that the action does not cause and that do not contradict each other. Refuted for facts that contradict each other by the axioms and for PartialStates that are not closed under the axioms."
  },
  {
   "property": "C107",
   "status": "partial",
   "theorems": [
    "Symbolic.C107_valid_action",
    "Symbolic.C107_goal",
    "Symbolic.C107_list",
    "Symbolic.C107_derived_partial",
    "Symbolic.C107_next_partial",
    "Symbolic.C107_plan_partial",
    "Symbolic.C107_planner_partial",
    "Symbolic.C107_forall_refuted",
    "Symbolic.C107_type_refuted"
   ],
   "note": "Validity, goals and listing are proved in full. Next states and plans need that, in the larger problem, nothing is caused to be true as well as false and conditions of effects are not about what is caused; rules must not be recursive, literals of universal effects must contain the quantified variables, and universal effects must not trigger axioms. Refuted for universal goals and for objects of a new type with the name of a predicate."
  },
  {
   "property": "C108",
   "status": "partial",
   "theorems": [
    "Symbolic.C108_calls",
    "Symbolic.C108_states",
    "Symbolic.C108_plans",
    "Symbolic.C108_plans_buffers",
    "Symbolic.C108_list",
    "Symbolic.C108_planner_partial",
    "Symbolic.C108_shadow_refuted"
   ],
   "note": "Calls, states, plans and listing are proved in full, plans also with argument buffers. The claim on searches has the conditions of C57. Refuted for a new action that has the name of an old one and stands before it."
  },
  {
   "property": "C109",
   "status": "proved",
   "theorems": [
    "Symbolic.C109_bfs_order",
    "Symbolic.C109_bfs",
    "Symbolic.C109_bfs_timeout",
    "Symbolic.C109_dfs"
   ],
   "note": "Breadth-first search for all nodes, also if tests and expansions of other nodes throw; depth-first search if they return for the nodes that can be reached."
  },
  {
   "property": "C110",
   "status": "partial",
   "theorems": [
    "Symbolic.C110_programs_partial",
    "Symbolic.C110_assigned_refuted",
    "Symbolic.C110_scope_refuted"
   ],
   "note": "Proved for all programs that move an iterator only while the variable it was made from is left alone. Refuted for iterators moved after this variable was assigned (a node that is no child) or went out of scope (undefined)."
  }
 ]
}