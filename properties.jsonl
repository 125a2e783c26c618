{"id": "C01", "title": "A State behaves as a mathematical set of propositions", "statement": "After any sequence of insert/erase calls on a fresh State, contains(p) is true exactly when the last insert/erase that mentioned p was an insert; insert returns true iff p was absent, erase returns true iff p was present, and size() is the number of distinct propositions present.", "quantifier": "every sequence of insert and erase calls of any length, every proposition, every std::hash<std::string> implementation", "why_tests_cant": "The bucket array grows and shrinks with the history; tests only exercise a handful of histories and one hash function, so collisions, rehash-on-erase and grow/shrink oscillation are not covered.", "anchors": ["include/symbolic/utils/hash_set.h:HashSet::insert", "include/symbolic/utils/hash_set.h:HashSet::erase", "include/symbolic/utils/hash_set.h:HashSet::Rehash", "include/symbolic/utils/unique_vector.h:UniqueVector"]}
{"id": "C02", "title": "State equality, ordering and hashing do not depend on history", "statement": "Two States reached by any two sequences of insert/erase calls compare equal (==) iff they contain the same propositions; equal States iterate in the same order and have the same std::hash<State>, so States can be used as keys of unordered containers.", "quantifier": "every pair of insert/erase histories, every hash function", "why_tests_cant": "operator== compares the raw bucket arrays, so it is only correct if the bucket count is a function of the contents; that is an invariant over all histories.", "anchors": ["include/symbolic/utils/hash_set.h:operator==", "include/symbolic/utils/hash_set.h:UpperBound", "include/symbolic/utils/hash_set.h:LowerBound", "src/state.cc:hash<State>"]}
{"id": "C03", "title": "State operator< is a strict total order consistent with ==", "statement": "For States reached through the API, exactly one of a<b, a==b, b<a holds and < is transitive, so std::sort / std::set over States and PartialStates are well defined.", "quantifier": "every triple of reachable States (and of PartialStates)", "why_tests_cant": "An order violation shows up only for particular triples and makes std::sort undefined; unit tests cannot enumerate triples.", "anchors": ["include/symbolic/utils/hash_set.h:operator<", "include/symbolic/proposition.h:operator<", "include/symbolic/object.h:operator<"]}
{"id": "C04", "title": "Iterating a State visits every proposition exactly once", "statement": "A forward traversal begin()..end() of a State produces each contained proposition exactly once and nothing else, and stepping back with -- from end() produces the reverse sequence.", "quantifier": "every reachable State and every traversal position", "why_tests_cant": "Depends on the distribution of empty buckets, which depends on the hash values.", "anchors": ["include/symbolic/utils/hash_set.h:const_iterator::FindNextElement", "include/symbolic/utils/hash_set.h:const_iterator::FindPreviousElement"]}
{"id": "C05", "title": "PartialState stays consistent and reports changes precisely", "statement": "Starting from a consistent PartialState, any sequence of insert/erase keeps pos and neg disjoint; insert(p) makes p known true and returns 2 iff p was known false, 1 iff p was unknown, 0 iff p was already known true (symmetrically for erase); knowledge about every other proposition is unchanged.", "quantifier": "every consistent PartialState, every sequence of operations, every proposition", "why_tests_cant": "The return code drives axiom-conflict detection; it must be right for all three knowledge statuses in all histories.", "anchors": ["src/state.cc:PartialState::insert", "src/state.cc:PartialState::erase", "src/state.cc:PartialState::IsConsistent", "src/state.cc:PartialState::contains"]}
{"id": "C06", "title": "Iterating a CombinationGenerator enumerates the Cartesian product", "statement": "For non-empty option lists a range-for over the generator yields exactly the Cartesian product of the options, in lexicographic order of positions (last option fastest), each position tuple once, and size() is the product of the option sizes.", "quantifier": "every list of at least one non-empty option, of any lengths", "why_tests_cant": "The iterator updates only the digits that change between successive indices; correctness needs an invariant over all radices.", "anchors": ["include/symbolic/utils/combination_generator.h:Iterator::UpdateCombination", "include/symbolic/utils/combination_generator.h:ComputeGroupSizes", "include/symbolic/utils/combination_generator.h:ComputeSize"]}
{"id": "C07", "title": "Random access into a CombinationGenerator agrees with iteration", "statement": "Any sequence of ++, --, += and -= that keeps the position of an iterator obtained from begin() within [0,size) leaves the iterator showing the combination with that index, independent of the path; gen.at(i) returns it for 0<=i<size, at(-k) wraps for 1<=k<=size, and throws out_of_range otherwise.", "quantifier": "every generator, every path of in-range moves, every integer index", "why_tests_cant": "Incremental digit updates could depend on the path taken; the set of paths is infinite.", "anchors": ["include/symbolic/utils/combination_generator.h:Iterator::operator+=", "include/symbolic/utils/combination_generator.h:at", "include/symbolic/utils/combination_generator.h:operator[]"]}
{"id": "C08", "title": "CombinationGenerator::find is the inverse of indexing", "statement": "If every option has distinct elements, find(gen[i]) == i for every i<size, and gen[find(c)] == c for every combination c whose elements belong to the options; find throws out_of_range iff some element is not in its option (for combinations of the right length).", "quantifier": "every generator with duplicate-free options, every index, every combination", "why_tests_cant": "Mixed-radix arithmetic has to invert for all radices.", "anchors": ["include/symbolic/utils/combination_generator.h:find"]}
{"id": "C09", "title": "Reverse iteration is the reverse of forward iteration", "statement": "rbegin()..rend() (and stepping back from end()) yields the forward sequence reversed.", "quantifier": "every list of at least one non-empty option", "why_tests_cant": "The defect appears only for particular radices (a non-first option with exactly one element) that the unit test does not use.", "anchors": ["include/symbolic/utils/combination_generator.h:ReverseIterator", "include/symbolic/utils/combination_generator.h:Iterator::UpdateCombination(int)"]}
{"id": "C10", "title": "Object types: object_map and IsSubtype agree", "statement": "After constructing a Pddl, an object is listed in object_map()[t] iff its type IsSubtype(t); the subtype relation is reflexive and transitive along the declared hierarchy and every type is a subtype of object.", "quantifier": "every type hierarchy (chain of ancestors), every list of constants and objects, every type name", "why_tests_cant": "The two notions are computed by different loops; agreement must hold for all hierarchies.", "anchors": ["src/pddl.cc:CreateObjectTypeMap", "src/object.cc:IsSubtype", "src/object.cc:ListTypes"]}
{"id": "C11", "title": "A ParameterGenerator enumerates exactly the type-correct argument lists", "statement": "For an action/predicate/axiom with at least one parameter, its parameter_generator() yields each tuple of declared objects whose i-th entry is a subtype of the i-th parameter's type, exactly once (given distinct objects), and nothing else; it yields nothing when some parameter type has no objects.", "quantifier": "every object list, every non-empty parameter list", "why_tests_cant": "Combines the type map, the missing-type fallback and the mixed-radix iterator.", "anchors": ["src/utils/parameter_generator.cc:ParamTypes", "src/utils/parameter_generator.cc:ParameterGenerator"]}
{"id": "C12", "title": "Operators and predicates without parameters have exactly one instance", "statement": "A zero-parameter action, predicate, derived predicate or axiom has exactly one (empty) argument list, so it is listed, indexed, derived and applied like any other.", "quantifier": "every Pddl with a zero-parameter symbol", "why_tests_cant": "The unit-test domain has no zero-parameter symbol, so the empty product case is never exercised.", "anchors": ["include/symbolic/utils/combination_generator.h:ComputeSize", "src/pddl.cc:ListValidActions", "src/planning/planner.cc:Planner::Node::begin"]}
{"id": "C13", "title": "Proposition and State strings round-trip", "statement": "Parsing the string of a proposition over declared objects gives back an equal proposition, distinct propositions have distinct strings, and rebuilding a State from its strings (in any order) gives an equal State.", "quantifier": "every proposition and State whose names contain no parenthesis, comma or whitespace, over any object table", "why_tests_cant": "The Python API passes states as sets of strings; injectivity must hold for all names and arities.", "anchors": ["src/proposition.cc:operator<<", "include/symbolic/proposition.h:ParseHead", "src/object.cc:TokenizeArguments", "src/object.cc:ParseArguments", "src/state.cc:State::Stringify"]}
{"id": "C14", "title": "Action call strings round-trip", "statement": "Action::Parse(pddl, action.to_string(args)) returns that action and those arguments whenever the arguments are declared objects of the right types.", "quantifier": "every action, every type-correct argument list", "why_tests_cant": "ListValidActions, the planner and the Python API exchange actions as strings.", "anchors": ["src/action.cc:Action::to_string", "src/action.cc:Action::Parse"]}
{"id": "C15", "title": "Action::Parse accepts exactly the well-typed action calls", "statement": "Action::Parse(s) succeeds iff the text before the first '(' names an operator of the domain, every token names a declared object, the number of tokens equals the number of parameters, and every object is a subtype of the parameter type; otherwise it throws, and it never has undefined behaviour.", "quantifier": "every string", "why_tests_cant": "The set of malformed strings is infinite.", "anchors": ["src/action.cc:Action::Parse", "src/action.cc:GetSymbol", "src/object.cc:GetSymbol", "src/object.cc:TokenizeArguments"]}
{"id": "C16", "title": "Formula evaluation on a State is first-order satisfaction", "statement": "For every goal/precondition built from atoms, =, type predicates, and/or/not/forall/exists, evaluating it on a State with arguments equals closed-world first-order satisfaction with quantifiers ranging over the declared objects of the quantified types and inner variables shadowing outer ones.", "quantifier": "every formula of any depth (with non-empty quantifier lists), every State, every argument list of the right length", "why_tests_cant": "Formulas nest arbitrarily; shadowing and quantifier scoping are only exercised on a few fixed formulas.", "anchors": ["src/formula.cc:CreateFormula", "src/formula.cc:CreateProposition", "src/formula.cc:CreateForall", "src/formula.cc:CreateExists", "src/formula.cc:CreateApplicationFunction"]}
{"id": "C17", "title": "Constants denote themselves", "statement": "A constant mentioned in a formula or effect denotes that constant, whatever the names of the action parameters and quantified variables.", "quantifier": "every formula, every parameter list", "why_tests_cant": "Needs all combinations of constant and variable names; the parser drops the leading '?' so a constant can have the same name as a variable.", "anchors": ["src/formula.cc:CreateApplicationFunction", "include/symbolic/object.h:operator=="]}
{"id": "C18", "title": "Formulas and actions can be used repeatedly", "statement": "Evaluating a Formula (or applying an Action) gives the same answer no matter which arguments it, or other copies sharing its argument buffer, were evaluated with before. Likewise NextState, ApplyActions, IsValidPlan, IsValidTuple, ConsistentState, IsValidState and planning answer as on a fresh Pddl, whatever calls were made before and whether or not they threw.", "quantifier": "every sequence of earlier evaluations", "why_tests_cant": "Each compiled proposition owns a mutable argument buffer shared between copies; stale entries would only show after particular call histories.", "anchors": ["src/formula.cc:CreateApplicationFunction"]}
{"id": "C19", "title": "Three-valued evaluation on a PartialState is sound", "statement": "If a Formula evaluates to true (false) on a PartialState then it evaluates to true (false) on every complete State compatible with it.", "quantifier": "every formula, every PartialState, every compatible State, every argument list", "why_tests_cant": "Quantifies over exponentially many completions.", "anchors": ["src/formula.cc:Formula::operator()(PartialState)", "src/formula.cc:CreateNegation<PartialState>", "src/state.cc:PartialState::contains"]}
{"id": "C20", "title": "More information never changes a known truth value", "statement": "If a Formula has a definite value on a PartialState, it has the same value on every PartialState that knows more; and on a PartialState that decides every proposition it is always definite and agrees with evaluation on the State.", "quantifier": "every formula, every pair of PartialStates ordered by information", "why_tests_cant": "Monotonicity over all extensions.", "anchors": ["src/formula.cc:Formula::operator()(PartialState)"]}
{"id": "C21", "title": "Applying an action performs exactly its effects", "statement": "For an action whose effects are adds, deletes and universally quantified adds/deletes (no conditionals, no triggered axioms), Apply returns the State in which an atom is present iff it is not deleted and was present or is added; every other atom is unchanged.", "quantifier": "every State, every argument list, every nesting of forall effects in one level order", "why_tests_cant": "Frame and effect conditions range over all atoms and states.", "anchors": ["src/action.cc:CreateEffectsFunction", "src/action.cc:CreateAdd", "src/action.cc:CreateDel", "src/action.cc:CreateForall", "src/action.cc:Action::Apply"]}
{"id": "C22", "title": "Actions only touch atoms of their effect predicates", "statement": "Apply (with conditional and universal effects, without axioms) never changes the truth of an atom whose predicate does not occur in an add or delete effect of the action.", "quantifier": "every action, State and argument list", "why_tests_cant": "Frame property over all atoms.", "anchors": ["src/action.cc:CreateEffectsFunction"]}
{"id": "C23", "title": "A no-change report means the state is unchanged", "statement": "If Action::Apply(args,&state) returns false/0 then the State is exactly what it was, even with conditional effects, forall effects and triggered axioms.", "quantifier": "every action, argument list, axiom set and State or PartialState", "why_tests_cant": "ConsistentState and IsValidState use the flag as their fixpoint test, so it must be right in every case.", "anchors": ["src/action.cc:Action::Apply", "src/action.cc:CreateAdd", "src/action.cc:CreateDel"]}
{"id": "C24", "title": "A change report means the state changed", "statement": "If Action::Apply(args,&state) returns true/non-zero then the resulting State differs from the input.", "quantifier": "every action, argument list and State", "why_tests_cant": "Fails only when an effect list undoes its own insertion.", "anchors": ["src/action.cc:CreateEffectsFunction", "src/action.cc:Action::Apply"]}
{"id": "C25", "title": "PDDL effect semantics: adds win and conditions see the pre-state", "statement": "When one action instance both deletes and adds the same atom the atom ends up true, and conditional-effect conditions are evaluated in the state before the action.", "quantifier": "every action and State", "why_tests_cant": "Only visible when arguments coincide or conditional effects interact with other effects.", "anchors": ["src/action.cc:CreateEffectsFunction", "src/action.cc:CreateCond"]}
{"id": "C26", "title": "Axioms fire only for instances of their context", "statement": "When an action adds (deletes) an atom, exactly those axiom instances fire whose context literal is that atom (its negation); their effects are instantiated with the matching objects and only ground atoms over declared objects enter the state.", "quantifier": "every axiom (any sharing of variables in the context, any extra parameters), every action instance", "why_tests_cant": "Needs contexts with repeated variables, constants, and parameters not determined by the context.", "anchors": ["src/axiom.cc:CreateApplicationFunction::CreateApplicationFunction", "src/action.cc:CreateAdd", "src/action.cc:CreateDel"]}
{"id": "C27", "title": "Triggered axioms terminate", "statement": "Applying an action terminates whatever axioms the domain declares.", "quantifier": "every axiom set, action and State", "why_tests_cant": "Non-termination depends on cycles through axioms.", "anchors": ["src/action.cc:CreateAdd", "src/action.cc:CreateDel"]}
{"id": "C28", "title": "DerivedState is a fixpoint of the derivation rules", "statement": "If DerivedState(s) returns s', then for every derivation rule and every argument list, the head atom is in s' iff the body holds in s'; atoms of non-derived predicates are as in s; DerivedState(s') = s'.", "quantifier": "every rule set (any recursion or negation), every State", "why_tests_cant": "The loop runs until no change; the claim is about every run.", "anchors": ["src/derived_predicate.cc:DerivedPredicate::Apply", "src/pddl.cc:DerivedState"]}
{"id": "C29", "title": "DerivedState always terminates", "statement": "DerivedState and NextState return for every rule set and every State.", "quantifier": "every rule set and State", "why_tests_cant": "Oscillation needs particular rule sets (two rules for one head, negative or cyclic recursion).", "anchors": ["src/derived_predicate.cc:DerivedPredicate::Apply"]}
{"id": "C30", "title": "DerivedState depends only on the non-derived atoms", "statement": "Two States that agree on all non-derived atoms have the same DerivedState (derived atoms are recomputed from scratch, as the least fixpoint semantics requires).", "quantifier": "every rule set, every pair of States that agree on non-derived atoms", "why_tests_cant": "Self-supporting stale facts only appear for recursive rules and particular histories.", "anchors": ["src/derived_predicate.cc:DerivedPredicate::Apply"]}
{"id": "C31", "title": "ConsistentState returns a state that IsValidState accepts", "statement": "If ConsistentState(s) returns s' then IsValidState(s') is true and ConsistentState(s') = s'; and if IsValidState(s) then ConsistentState(s) = s.", "quantifier": "every axiom set and State", "why_tests_cant": "Termination of the loop and the acceptance test use different code paths.", "anchors": ["src/pddl.cc:ConsistentState", "src/pddl.cc:IsValidState", "src/axiom.cc:CreateApplicationFunction::Apply", "src/axiom.cc:Axiom::IsConsistent"]}
{"id": "C32", "title": "IsValidState means every axiom holds", "statement": "IsValidState(s) is true iff for every axiom and every type-correct argument list (of an axiom with parameters), the context being true in s implies all the implied literals are true in s.", "quantifier": "every axiom set whose implications are adds/deletes/foralls, every State", "why_tests_cant": "Ranges over all instances and states.", "anchors": ["src/pddl.cc:IsValidState", "src/axiom.cc:CreateApplicationFunction::IsConsistent", "src/axiom.cc:PrepareArguments"]}
{"id": "C33", "title": "ConsistentState on a PartialState infers only entailed facts", "statement": "If ConsistentState(p) returns p', then p' knows everything p knows, every State compatible with p that satisfies all axioms is compatible with p', and no axiom instance can add anything further to p'.", "quantifier": "every axiom set with context-bound variables, every consistent PartialState, every compatible valid State", "why_tests_cant": "Entailment quantifies over all completions.", "anchors": ["src/pddl.cc:ConsistentState(PartialState)", "src/axiom.cc:CreateApplicationFunction::Apply(PartialState*)"]}
{"id": "C34", "title": "IsValidState on a PartialState never rejects a completable state", "statement": "If IsValidState(p) is false then no State compatible with p satisfies all axioms.", "quantifier": "every axiom set with context-bound variables, every consistent PartialState", "why_tests_cant": "Quantifies over all completions.", "anchors": ["src/axiom.cc:CreateApplicationFunction::IsConsistent(PartialState)", "src/pddl.cc:IsValidState(PartialState)"]}
{"id": "C35", "title": "ApplyActions is iterated NextState", "statement": "ApplyActions(s,[a1..an]) equals NextState(...NextState(s,a1)...,an), throws exactly when that does, and ApplyActions(s, xs++ys) = ApplyActions(ApplyActions(s,xs),ys).", "quantifier": "every State and every list of action strings of any length", "why_tests_cant": "Induction over plan length.", "anchors": ["src/pddl.cc:ApplyActions", "src/pddl.cc:NextState"]}
{"id": "C36", "title": "IsValidTuple and IsValidPlan mean what they say", "statement": "IsValidTuple(s,a,s') iff IsValidAction(s,a) and NextState(s,a) == s'; IsValidPlan(plan) iff there is a chain of states from initial_state() in which every step is a valid action producing the next state and the last state satisfies the goal.", "quantifier": "every plan of any length, every pair of States", "why_tests_cant": "Induction over plan length and set equality.", "anchors": ["src/pddl.cc:IsValidTuple", "src/pddl.cc:IsValidPlan", "src/pddl.cc:IsValidAction"]}
{"id": "C37", "title": "ListValidActions is sound and complete", "statement": "For actions with at least one parameter: every string in ListValidActions(s) is accepted by IsValidAction(s,·), every canonical action call accepted by IsValidAction(s,·) is in the list, and the list has no duplicates.", "quantifier": "every State, every Pddl with uniquely named objects and actions", "why_tests_cant": "All action instances of all domains.", "anchors": ["src/pddl.cc:ListValidActions", "src/pddl.cc:ListValidArguments", "src/pddl.cc:IsValidAction"]}
{"id": "C38", "title": "AddObject makes the object available everywhere", "statement": "After AddObject(name,type) the new object is enumerated by object_map(), parameter generators, quantifiers and ListValidActions.", "quantifier": "every Pddl, every new object", "why_tests_cant": "No unit test reads the other tables after AddObject.", "anchors": ["src/pddl.cc:AddObject"]}
{"id": "C39", "title": "RemoveObject leaves no dangling object", "statement": "After RemoveObject(name) every Object reachable through the API (objects, object_map, states, generators) refers to a live symbol.", "quantifier": "every Pddl and every object name", "why_tests_cant": "Use-after-free is not observable in a unit test without a sanitizer.", "anchors": ["src/pddl.cc:RemoveObject"]}
{"id": "C40", "title": "StateIndex is a bijection between indices and propositions", "statement": "For i < size(), GetPropositionIndex(GetProposition(i)) == i; for every type-correct proposition of a declared predicate with at least one parameter, GetPropositionIndex(p) < size() and GetProposition(GetPropositionIndex(p)) == p.", "quantifier": "every predicate list with unique names, every index, every proposition", "why_tests_cant": "Offsets and mixed-radix digits must invert for all signatures, including empty groups.", "anchors": ["src/state.cc:StateIndex::GetProposition", "src/state.cc:StateIndex::GetPropositionIndex", "src/state.cc:PredicateCumSum"]}
{"id": "C41", "title": "Indexed states round-trip", "statement": "GetState(GetIndexedState(s)) == s for every State of type-correct propositions with parameters, and GetIndexedState(GetState(v)) == v for every 0/1 vector of the right length.", "quantifier": "every State, every vector", "why_tests_cant": "Exponentially many states.", "anchors": ["src/state.cc:StateIndex::GetState", "src/state.cc:StateIndex::GetIndexedState"]}
{"id": "C42", "title": "StateIndex caching is transparent", "statement": "With the cache enabled, every sequence of GetProposition/GetPropositionIndex queries returns the same answers as without the cache.", "quantifier": "every history of queries about propositions whose names contain no separator (parentheses, commas, spaces)", "why_tests_cant": "The answer could depend on the history of earlier queries.", "anchors": ["src/state.cc:cache_propositions_", "src/state.cc:cache_idx_propositions_"]}
{"id": "C43", "title": "Planner node children are exactly the valid, non-repeating successors", "statement": "Iterating a Planner::Node yields, in action order then argument order, one child for every valid instance of an action with at least one parameter whose resulting state is not the state of the node or one of its ancestors; the child's state is NextState, its depth is one more, and its ancestors are the node's plus the node itself.", "quantifier": "every node, every domain with at least one action", "why_tests_cant": "The iterator skips invalid instances, empty generators and visited states in one loop.", "anchors": ["src/planning/planner.cc:Planner::Node::begin", "src/planning/planner.cc:Planner::Node::iterator::operator++", "src/planning/planner.cc:Node::Node(parent,sibling,...)"]}
{"id": "C44", "title": "Breadth-first search returns only valid plans", "statement": "Every sequence produced by BreadthFirstSearch starts at the root, every node is a child of the previous one, the last node satisfies the goal and it has at most max_depth actions; for a Planner whose root is initial_state(), its action strings satisfy IsValidPlan.", "quantifier": "every graph / every domain, every max_depth, every produced plan", "why_tests_cant": "All search trees.", "anchors": ["include/symbolic/planning/breadth_first_search.h:BreadthFirstSearch::iterator::operator++"]}
{"id": "C45", "title": "Breadth-first search returns plans in non-decreasing length and misses none", "statement": "BreadthFirstSearch produces exactly the root paths of at most max_depth steps whose last node is the first to satisfy the goal, each once, shortest first; in particular the first plan has minimal length, and if a plan exists within max_depth one is produced.", "quantifier": "every finitely branching graph, every max_depth", "why_tests_cant": "All search trees.", "anchors": ["include/symbolic/planning/breadth_first_search.h"]}
{"id": "C46", "title": "Breadth-first search terminates", "statement": "With finite max_depth, iterating BreadthFirstSearch from begin() reaches end() after finitely many steps, and stays there if incremented again.", "quantifier": "every finitely branching graph, every max_depth", "why_tests_cant": "Termination is not testable.", "anchors": ["include/symbolic/planning/breadth_first_search.h"]}
{"id": "C47", "title": "A timeout only truncates the breadth-first results", "statement": "Whatever the clock does, the plans produced with a timeout are a prefix of the plans produced without one.", "quantifier": "every sequence of clock readings", "why_tests_cant": "Schedules and clocks cannot be enumerated.", "anchors": ["include/symbolic/planning/breadth_first_search.h:timeout"]}
{"id": "C48", "title": "Depth-first search returns exactly the plans", "statement": "Every sequence produced by DepthFirstSearch is a valid plan within max_depth, and every plan within max_depth is produced.", "quantifier": "every finitely branching graph, every max_depth", "why_tests_cant": "All search trees; the loss occurs only when the last stack entry is a goal.", "anchors": ["include/symbolic/planning/depth_first_search.h"]}
{"id": "C49", "title": "A* returns exactly the plans, cheapest estimate first", "statement": "Every sequence produced by AStar is a valid plan within max_depth, every plan within max_depth is produced, and with a comparison that never ranks a plan before a node that leads to it (a monotone one, or a cost plus an estimate that is exact for plans and never too high) the plans come in non-decreasing order of cost, a cheapest one first.", "quantifier": "every finitely branching graph, every comparison, every tie-breaking of the priority queue", "why_tests_cant": "All search trees and all heap tie-breaking orders.", "anchors": ["include/symbolic/planning/a_star.h"]}
{"id": "C50", "title": "Simplifying a DNF preserves its meaning", "statement": "Simplification (dropping contradictory conjuncts, evaluating single =/type literals, removing subsumed conjuncts) of a non-empty DNF yields an equivalent DNF whose conjuncts are consistent, sorted and pairwise non-subsuming.", "quantifier": "every non-empty DNF and every State", "why_tests_cant": "All DNFs and all states.", "anchors": ["src/normal_form.cc:Simplify", "src/normal_form.cc:TryInsertSubset", "src/normal_form.cc:Evaluate"]}
{"id": "C51", "title": "Normalized preconditions are equivalent to the preconditions", "statement": "NormalizePreconditions(call) holds in a State iff IsValidAction(state, call), for every State (an absent result meaning never, an empty DNF meaning always).", "quantifier": "every action instance and every State", "why_tests_cant": "All formulas and all states.", "anchors": ["src/normal_form.cc:DisjunctiveFormula::Create(goal)", "src/normal_form.cc:Conjoin", "src/normal_form.cc:Disjoin", "src/normal_form.cc:Negate"]}
{"id": "C52", "title": "Normalized postconditions hold after the action", "statement": "For actions with unconditional effects that do not add and delete the same atom, the State after Apply satisfies NormalizePostconditions(call), and it is satisfied by exactly the states in which all adds are true and all deletes false.", "quantifier": "every action instance and State", "why_tests_cant": "All action instances.", "anchors": ["src/normal_form.cc:DisjunctiveFormula::Create(effects)"]}
{"id": "C53", "title": "Axiom instance pruning is harmless", "statement": "The argument lists an Axiom drops at construction because its normalized context is contradictory are argument lists for which the context holds in no State.", "quantifier": "every axiom, argument list and State", "why_tests_cant": "All instances and all states.", "anchors": ["src/axiom.cc:PrepareArguments"]}
{"id": "C54", "title": "Formula strings are readable PDDL", "statement": "Formula::to_string of a formula is a PDDL expression that reads back as the same formula.", "quantifier": "every formula", "why_tests_cant": "All nesting structures; the unit tests never print a quantified formula.", "anchors": ["src/formula.cc:CreateForall", "src/formula.cc:CreateExists", "src/formula.cc:CreateConjunction"]}
{"id": "C55", "title": "A triggered axiom keeps its arguments while it runs", "statement": "Applying an action, with the axioms its effects trigger and those they trigger in turn, changes the state as if every axiom instance had its own copy of its arguments; so do ConsistentState, IsValidState, IsValidTuple and the searches.", "quantifier": "every domain, state, action call and history of earlier calls", "why_tests_cant": "The arguments of a triggered axiom are a reference into a vector owned by the effect that triggered it; only some cycles of axioms overwrite that vector while it is in use.", "anchors": ["src/axiom.cc:CreateApplicationFunction", "src/action.cc:CreateAdd", "src/action.cc:CreateDelete"]}
{"id": "C56", "title": "Calls return in well-formed domains", "statement": "In a domain whose formulas use only parameters and objects in scope, whose axioms cannot trigger each other in a cycle and whose derived predicates are not recursive, IsValidAction, IsGoalSatisfied, NextState, IsValidPlan, ApplyActions and IsValidState return: no undefined behaviour, no exception, no endless loop. A bound on the work depends on the domain only, not on the state or the call.", "quantifier": "every such domain, every state, every action string that Action::Parse accepts, every list of them", "why_tests_cant": "Termination and absence of undefined behaviour for all states and calls.", "anchors": ["src/pddl.cc:NextState", "src/pddl.cc:IsValidPlan", "src/pddl.cc:IsValidState", "src/action.cc:Apply", "src/axiom.cc:CreateApplicationFunction"]}
{"id": "C57", "title": "The planner decides whether there is a plan", "statement": "Breadth-first search over Planner terminates; it finds a plan of at most max_depth steps iff IsValidPlan accepts some list of at most max_depth action calls, and the first plan found is as short as any valid plan.", "quantifier": "every well-formed domain, problem and max_depth", "why_tests_cant": "Needs completeness: pruning repeated states on a path, enumeration of all instances and the search order together must not lose the shortest plan.", "anchors": ["src/planning/planner.cc:Iterator::operator++", "include/symbolic/planning/breadth_first_search.h", "src/pddl.cc:IsValidPlan"]}
{"id": "C58", "title": "Reachable states contain only declared propositions", "statement": "In a domain whose literals fit the predicate declarations, the initial state (with and without apply_axioms) and every state returned by NextState, ApplyActions, DerivedState and ConsistentState from a state of declared propositions consists of instances of declared predicates with declared objects of the declared types. So every state reachable from the initial state can be indexed by state_index() and read back, and printed with Stringify and read back.", "quantifier": "every such domain and problem, every state of declared propositions, every action string, every list of them", "why_tests_cant": "An invariant over all executions: actions, nested universal and conditional effects, axioms triggered in cascades with arguments found by name matching, and derived predicates.", "anchors": ["src/pddl.cc:NextState", "src/pddl.cc:ConsistentState", "src/axiom.cc:CreateApplicationFunction", "src/action.cc:Apply", "src/derived_predicate.cc:Apply", "src/state.cc:StateIndex::GetIndexedState"]}
{"id": "C59", "title": "Conditional effects in normalized postconditions", "statement": "For an action call with conditional effects NormalizePostconditions returns a formula that is true in exactly the states in which every unconditional effect, and every conditional effect whose condition is true there, has been achieved; the State returned by NextState satisfies it when the action does not change what its conditions read.", "quantifier": "every domain, every action with nested universal and conditional effects, every call, every state", "why_tests_cant": "An equivalence over all states for effects of any nesting; the code handles always-true and always-false conditions in separate branches.", "anchors": ["src/normal_form.cc:Create (effects)", "src/normal_form.cc:NormalizePostconditions", "src/pddl.cc:NextState"]}
{"id": "C60", "title": "Normalizing with apply_axioms keeps the meaning on valid states", "statement": "With apply_axioms, NormalizePreconditions, NormalizePostconditions and NormalizeGoal return the formula they return without it, with each disjunct completed: on every State that satisfies the axioms the two are equivalent, no literal is lost, and no axiom can add anything to a disjunct. So in such States an action call is valid iff its completed precondition is true.", "quantifier": "every domain, every action call, every State that satisfies the axioms", "why_tests_cant": "Equivalence over all valid states, for axioms that trigger each other.", "anchors": ["src/normal_form.cc:NormalizePreconditions", "src/normal_form.cc:NormalizePostconditions", "src/normal_form.cc:NormalizeGoal", "src/pddl.cc:ConsistentState(PartialState)"]}
{"id": "C61", "title": "NormalizeConditions is the pair of normalized pre- and postconditions", "statement": "NormalizeConditions returns a pair exactly if NormalizePreconditions and NormalizePostconditions both return a formula, and then it is these two; if both return and one returns nothing it returns nothing.", "quantifier": "every Pddl, every call string, with and without apply_axioms", "why_tests_cant": "Agreement of three API functions on all inputs, including those that throw.", "anchors": ["src/normal_form.cc:NormalizeConditions"]}
{"id": "C62", "title": "Functions on sets of strings agree with those on States", "statement": "If a set of strings lists the propositions of a State, in any order, then is_valid_action, is_goal_satisfied, is_valid_state, is_valid_tuple and list_valid_actions on the strings return or throw what they do on the State, and next_state, apply_actions, derived_state and consistent_state return the strings of the State they would return. Passing the strings of the initial state through next_state once per call gives the strings of apply_actions on all calls. list_valid_arguments lists exactly the argument names for which is_valid_action accepts the printed call.", "quantifier": "every Pddl, every State of printable propositions, every enumeration of its strings, every sequence of calls", "why_tests_cant": "Ranges over all states, all orders of enumeration and all sequences of calls.", "anchors": ["src/python/symbolic.cc:ParseState", "src/python/symbolic.cc:next_state", "src/python/symbolic.cc:apply_actions", "src/pddl.cc:Pddl::IsValidTuple", "src/pddl.cc:Pddl::ListValidArguments"]}
{"id": "C63", "title": "Reading a proposition accepts exactly the declared propositions", "statement": "Constructing a Proposition from a string succeeds only for propositions of a declared predicate with arguments of the declared number and types, and throws otherwise.", "quantifier": "every string and every list of objects", "why_tests_cant": "Ranges over all strings, including malformed ones.", "anchors": ["src/proposition.cc:Proposition::Proposition", "src/proposition.cc:PropositionBase::ParseHead", "src/object.cc:Object::ParseArguments"]}
{"id": "C64", "title": "Pickling a Pddl preserves it", "statement": "The Pddl obtained by pickling and unpickling equals the pickled one, including its initial state.", "quantifier": "every domain and problem, with and without apply_axioms, after any assignment to initial_state", "why_tests_cant": "Ranges over all domains and all assigned states.", "anchors": ["src/python/symbolic.cc:pickle", "include/symbolic/pddl.h:set_initial_state", "src/pddl.cc:Pddl::Pddl"]}
{"id": "C65", "title": "parse_proposition, parse_head and parse_args agree with the library", "statement": "For every string that the library reads as a proposition, parse_proposition returns the head and the arguments that the library finds; parse_head and parse_args return its two components.", "quantifier": "every string", "why_tests_cant": "Compares a regular expression in Python with a tokenizer in C++ on all strings.", "anchors": ["symbolic/problem.py:parse_proposition", "symbolic/problem.py:parse_head", "symbolic/problem.py:parse_args", "src/object.cc:TokenizeArguments", "include/symbolic/proposition.h:ParseHead"]}
{"id": "C66", "title": "The text of a Problem describes the problem that was built", "statement": "The text of a Problem, built by adding objects, setting the initial state from the strings of propositions and setting a goal built with _P, _and, _or, _not, _forall and _exists, is a PDDL problem with exactly this name, domain, objects and types, propositions and goal.", "quantifier": "every list of objects, every set of propositions, every goal formula, all names without blanks, brackets and commas", "why_tests_cant": "Ranges over formulas of any depth and any number of objects and propositions.", "anchors": ["symbolic/problem.py:Problem", "symbolic/problem.py:pprint_formula", "symbolic/problem.py:_forall", "symbolic/problem.py:Object.__repr__"]}
{"id": "C67", "title": "The constructor accepts exactly the supported domains", "statement": "For a domain and a problem whose names are unique, whose predicates are used with the declared number of arguments and whose axioms have unconditional effects, the constructor of Pddl without apply_axioms returns exactly if there is at least one predicate, every precondition, condition of an effect, body of a derived predicate and the goal is built from atoms, conjunctions, disjunctions, negations and quantifiers, the condition of every axiom is a literal that does not deny what holds in every state, and no axiom adds and deletes the same atom. With apply_axioms it returns exactly if moreover ConsistentState returns for the declared initial state.", "quantifier": "every parse tree of a domain and a problem", "why_tests_cant": "Ranges over all domains; a rejected construct may be nested arbitrarily deep in any formula or effect.", "anchors": ["src/pddl.cc:Pddl::Pddl", "src/axiom.cc:ExtractContextPredicate", "src/formula.cc:CreateFormula", "src/action.cc:CreateEffectsFunction", "src/axiom.cc:StringifyFormula"]}
{"id": "C68", "title": "The closure under the axioms returns", "statement": "ConsistentState returns for every State, and so does the constructor with apply_axioms whenever the one without does. IsValidState and ConsistentState of a PartialState return or throw.", "quantifier": "every domain in which no axiom triggers itself through others, every State and PartialState", "why_tests_cant": "The loop runs until no axiom changes the state; whether it ends depends on the interplay of all axioms in all states.", "anchors": ["src/pddl.cc:Pddl::ConsistentState", "src/pddl.cc:Pddl::Pddl", "src/axiom.cc:CreateApplicationFunction::Apply", "src/axiom.cc:Axiom::IsConsistent"]}
{"id": "C69", "title": "An action changes only what it may write", "statement": "NextState adds an atom only if the action, or an axiom that something the action may write triggers, adds its predicate, or the atom is a well-typed instance of a derived predicate; it removes an atom only if they delete its predicate, or it is such an instance. ApplyActions changes only what its actions may change.", "quantifier": "every domain, State, action string and list of action strings", "why_tests_cant": "Ranges over all domains; axioms may pass changes on over chains of any length.", "anchors": ["src/pddl.cc:Pddl::NextState", "src/pddl.cc:Pddl::ApplyActions", "src/action.cc:CreateAdd", "src/action.cc:CreateDel", "src/derived_predicate.cc:DerivedPredicate::Apply"]}
{"id": "C70", "title": "Parts of a Pddl look names up in it", "statement": "The actions, predicates, parameter generators and the state index of a Pddl that exists look names up in this Pddl, whether it was constructed or unpickled: to_string(args) of an action and of a predicate returns name(arg, ...) if the arguments are names of objects and throws otherwise, index(args) of a generator returns the position of the argument list, get_proposition_index and get_indexed_state of the index return what they return for the propositions the strings describe.", "quantifier": "every sequence of constructing, unpickling, changing and destroying Pddls, every part and every list of strings", "why_tests_cant": "Depends on pointers set long before and on the lifetime of other objects; undefined behaviour may go unnoticed in a test.", "anchors": ["src/python/symbolic.cc:PYBIND11_MODULE", "src/predicate.cc:Predicate::Predicate", "src/utils/parameter_generator.cc:ParameterGenerator::ParameterGenerator", "src/state.cc:StateIndex::StateIndex", "src/action.cc:Action::Action"]}
{"id": "C71", "title": "Python searches are Python iterables", "statement": "list(bfs) of a new BreadthFirstSearch is the list of plans the C++ loop visits, so without timeout exactly the plans of at most max_depth steps, shorter ones first; it can be taken again and again. Repeated next(bfs) gives the same plans and then raises StopIteration for ever; list(bfs) in between gives the plans not seen yet.", "quantifier": "every search space, depth, clock and number of calls", "why_tests_cant": "Ranges over all search spaces and all interleavings of next and list.", "anchors": ["src/python/symbolic.cc:PYBIND11_MODULE", "include/symbolic/planning/breadth_first_search.h:BreadthFirstSearch::iterator::operator++"]}
{"id": "C72", "title": "get_proposition behaves like indexing a list", "statement": "get_proposition(i) of a state index with n propositions returns the string of the i-th proposition of the iteration for 0 <= i < n, of the (i+n)-th for -n <= i < 0, and raises IndexError otherwise, whatever was asked before.", "quantifier": "every domain with unique clean names, every int, every history of queries", "why_tests_cant": "Ranges over all domains, positions and cache contents.", "anchors": ["src/python/symbolic.cc:PYBIND11_MODULE", "src/state.cc:StateIndex::GetProposition"]}
{"id": "C73", "title": "The closure of a partial state is sought in at most 51 passes", "statement": "Pddl::ConsistentState of a partial state returns exactly if one of the first 51 passes over the axioms changes nothing and no earlier pass throws; it then returns the state after that pass. If 51 passes change something it throws std::runtime_error after the next pass. (Expected, and refuted: it returns whenever repeated passes reach a state that no axiom changes.)", "quantifier": "every Pddl and every partial state", "why_tests_cant": "The limit shows only in domains with long chains of axioms; the number of passes depends on the order of the axioms.", "anchors": ["src/pddl.cc:Pddl::ConsistentState"]}
{"id": "C74", "title": "A Pddl without a problem behaves like one with an empty problem", "statement": "Pddl(domain) succeeds, throws or is undefined exactly when Pddl(domain, problem, false) with a problem without objects, propositions and goal conditions is; the objects are the constants of the domain; NextState, ApplyActions, DerivedState, ConsistentState, IsValidAction, IsValidState, IsValidTuple, ListValidArguments, ListValidActions, NormalizeConditions and the parsing of states give the same results. IsGoalSatisfied always throws, and IsValidPlan throws wherever it would return true. (Expected, and refuted: constants() returns the constants of the domain, the initial state satisfies the axioms, objects can be added and removed, and the Pddl can be pickled.)", "quantifier": "every domain, state, action call and plan", "why_tests_cant": "Ranges over all domains and calls; a comparison of two constructors on every function.", "anchors": ["src/pddl.cc:Pddl::Pddl", "src/pddl.cc:Pddl::AddObject", "src/pddl.cc:Pddl::RemoveObject", "include/symbolic/formula.h:Formula", "src/python/symbolic.cc:PYBIND11_MODULE"]}
{"id": "C75", "title": "The text of a problem is not taken for a path", "statement": "The constructor takes its second argument for the text of a problem iff its last character that is not a blank, tab or line break is a closing bracket. Hence every text that reads as a problem, and the text of every Problem of symbolic/problem.py, is read itself and no file is opened. (Refuted: for paths that end with a closing bracket and texts that end with a comment.)", "quantifier": "every string, every Problem object", "why_tests_cant": "Ranges over all texts and all contents of Problem objects, also ill-formed ones.", "anchors": ["src/pddl.cc:ParsePddl", "symbolic/problem.py:Problem"]}
{"id": "C76", "title": "Copies of parameter generators are independent", "statement": "Every sequence of constructions, copies, moves, assignments and destructions of ParameterGenerators is defined as long as the generators used exist, and afterwards every generator lists exactly the tuples of the value it was given (by construction, or from the source at the time of the copy or move), whatever has happened to other generators since; a moved-from generator lists nothing.", "quantifier": "every sequence of operations, every option lists", "why_tests_cant": "The base class keeps pointers into a vector of the derived class, so that an error shows only for particular orders of copying, moving and destroying.", "anchors": ["src/utils/parameter_generator.cc:ParameterGenerator", "src/utils/parameter_generator.cc:operator="]}
{"id": "C77", "title": "Printed texts identify what is printed", "statement": "Over names without brackets, commas and white space, two States, PartialStates, DisjunctiveFormulas, ConjunctiveFormulas, Axioms, Actions, Predicates or search nodes of a domain are printed alike iff they are equal (for axioms: same parameter names and normal forms; for actions and predicates: same name and parameter names; for nodes: same depth, action and state). The text of a State depends on its propositions alone, not on the order of insertion, the capacity or the hash function; the same holds for PartialStates (refuted).", "quantifier": "every state, partial state, normal form, axiom and node; every pair of hash functions", "why_tests_cant": "Ranges over pairs of hash functions and over all names.", "anchors": ["src/state.cc:operator<<", "src/normal_form.cc:operator<<", "src/axiom.cc:operator<<", "src/planning/planner.cc:operator<<", "src/action.cc:operator<<", "src/predicate.cc:operator<<"]}
{"id": "C78", "title": "ConsistentState makes the least change", "statement": "ConsistentState(s) is the least change of s after which all axioms hold: only atoms that axioms add or delete change, the axioms hold afterwards, and every state in which the axioms hold and that differs from s only by such atoms has these changes too. Hence the result is unique and does not depend on the order in which objects and axioms are declared; the initial state of a Pddl made with apply_axioms is this closure of the declared one.", "quantifier": "every domain whose axioms do not undo what makes axioms apply, every state, every pair of orders of declaration", "why_tests_cant": "Minimality compares the result with all states in which the axioms hold; order independence ranges over all pairs of domains with the same declarations.", "anchors": ["src/pddl.cc:ConsistentState", "src/axiom.cc:Apply", "src/pddl.cc:Pddl"]}
{"id": "C79", "title": "The order of declarations does not matter", "statement": "Two problems that declare the same objects, operators, rules and initial atoms in another order (or as constants of the domain instead of objects of the problem) behave the same: formulas and goals have the same truth value, IsValidAction gives the same answer or the same exception, ListValidActions lists the same calls up to order, NextState and DerivedState return the same state, and IsValidPlan accepts the same plans.", "quantifier": "every pair of problems with the same declarations, every state, call and plan", "why_tests_cant": "It compares the runs of all pairs of orders of all domains; a test compares one pair, and the cases that fail need particular effects or rules.", "anchors": ["src/pddl.cc:Pddl", "src/pddl.cc:CreateObjectTypeMap", "src/action.cc:CreateForall", "src/derived_predicate.cc:Apply", "src/pddl.cc:ListValidActions", "src/pddl.cc:IsValidPlan"]}
{"id": "C80", "title": "Names do not matter", "statement": "If objects and variables, predicates and types, and operators of a domain and problem are given other names (different things keep different names; = and object stay), then the library behaves the same up to the names: the constructor has the same outcome, AddObject, NextState, DerivedState, ConsistentState, parsing and the StateIndex give the renamed results or the same exception, IsValidAction, IsValidState, IsValidTuple, IsValidPlan and IsGoalSatisfied give the same verdicts, ListValidActions lists the renamed calls in the same order, the searches return the renamed plans in the same order, and NormalizeGoal, NormalizePreconditions, NormalizePostconditions and NormalizeConditions give the renamed conjunctions (in any order). Predicates may be renamed independently of types (refuted).", "quantifier": "every injective renaming, every domain and problem, every later history of added objects and assigned initial states, every state, call and plan, every pair of hash functions", "why_tests_cant": "Ranges over all renamings of all domains; a test compares two spellings of one domain.", "anchors": ["src/pddl.cc:Pddl", "src/pddl.cc:NextState", "src/formula.cc:CreateFormula", "src/object.cc:CreateObjectTypeMap", "src/proposition.cc:ParseArguments", "src/planning/planner.cc:Expand", "src/state.cc:StateIndex", "src/normal_form.cc:Simplify"]}
{"id": "C81", "title": "The hash function does not matter", "statement": "Results do not depend on the hash function of the standard library: with two hash functions, the constructor has the same outcome, equal states lead to equal next, derived and consistent states, verdicts, lists of valid actions (in the same order) and plans found by the searches (in the same order), and normal forms of goals and action calls have the same conjunctions. The same holds for the order of iteration over a State (refuted) and for domains with a predicate without arguments that is called like a type (refuted).", "quantifier": "every pair of hash functions, every domain and problem, every state, call and plan", "why_tests_cant": "A test runs with the one hash function of its standard library.", "anchors": ["include/symbolic/utils/hash_set.h", "src/state.cc", "src/proposition.cc:hash", "src/normal_form.cc:Negate"]}
{"id": "C82", "title": "Stepping back over children mirrors stepping forward", "statement": "Decrementing the end iterator of a planner node n times, n being the number of children that a range-for visits, visits exactly these children in the reverse order; further decrements stay at the first call whose preconditions hold. Refuted for parameters with a single possible argument and for actions without parameters.", "quantifier": "every constructed Pddl, every node, every number of decrements", "why_tests_cant": "operator-- is not used by any search and untested; the failures need particular numbers of objects per type.", "anchors": ["src/planning/planner.cc:operator--", "include/symbolic/utils/combination_generator.h:UpdateCombination"]}
{"id": "C83", "title": "The iterators of StateIndex are random access iterators over its propositions", "statement": "begin() and end() of a StateIndex enumerate every type-correct proposition exactly once, forwards and backwards. Any program of copies, moves, steps by any distance, comparisons, differences and dereferences that stays in range behaves as on an array of these propositions. A reference from *it stays valid until the iterator is dereferenced again, assigned or destroyed. Refuted: a second dereference changes the proposition the first one refers to; *it++ and std::reverse_iterator give dangling references; with 2^32 propositions end() equals begin().", "quantifier": "every signature, every cache state, every iterator program of any length", "why_tests_cant": "Tests loop forwards over one small index; multi-pass guarantees are about all interleavings of iterators, and the overflow needs 2^32 propositions.", "anchors": ["include/symbolic/state.h:StateIndex::iterator"]}
{"id": "C84", "title": "The command line program prints the valid plans up to the given depth", "statement": "The program accepts exactly `domain problem (--verbose | --depth INT)*` and otherwise prints its usage. For accepted arguments it prints one block per plan found, each a plan that IsValidPlan accepts with at most depth actions, shortest first, and their number, which is 0 iff no such plan exists; --verbose only adds lines. Refuted: a negative depth is accepted and means 2^64 minus it; text after the number is ignored; a depth that is no number or too large ends the program without the usage.", "quantifier": "every argument vector, every well-formed domain without loops whose actions have parameters, every depth", "why_tests_cant": "The program has no tests; its behaviour ranges over all argument strings and all domains.", "anchors": ["apps/pddl.cc:ParseArgs", "apps/pddl.cc:main", "include/symbolic/planning/breadth_first_search.h:operator++"]}
{"id": "C85", "title": "Elements of Python iterations are the children and the argument lists", "statement": "Iterating over a PlannerNode in Python gives its children, iterating over a ParameterGenerator its argument lists, each object keeping its value. Proved for programs that look at an object before they ask for the next one, or copy it. Refuted otherwise: after list(node) all objects show one node, which need not be a child; after list(generator) all show the last argument list.", "quantifier": "every node, every generator without empty options, every sequence of next and copy", "why_tests_cant": "There are no Python tests of these iterations; a test with one element or that prints in the loop passes.", "anchors": ["src/python/symbolic.cc:PlannerNode.__iter__", "src/python/symbolic.cc:ParameterGenerator.__iter__", "include/symbolic/planning/planner.h:Planner::Node::iterator", "include/symbolic/utils/combination_generator.h:Iterator"]}
{"id": "C86", "title": "Applying an action to a PartialState agrees with applying it to every possible State", "statement": "For every action, arguments and PartialState K: for every State S that agrees with K, Apply(S) agrees with Apply(K) (or both throw the same exception), a code 0 for K means no change for S, and Apply(K) knows exactly what is the same in the results for all such S. Proved for actions that trigger no axiom when the atoms in conditions are known; agreement also with triggered axioms that are not undone. Refuted otherwise: an unknown condition counts as false, so that facts remain known that need not hold; an axiom is triggered for K that is not triggered for S.", "quantifier": "every domain, action, argument list, PartialState and every State that agrees with it", "why_tests_cant": "The claim relates one call to calls with all completions of the PartialState, of which there are exponentially many.", "anchors": ["src/action.cc:Action::Apply(PartialState)", "src/action.cc:CreateEffectsFunction<PartialState>", "include/symbolic/action.h:Action::Apply", "src/state.cc:PartialState::insert"]}
{"id": "C87", "title": "Python objects stay usable as long as they are held", "statement": "For every Python program that makes Pddls, parts of Pddls, Planners, nodes, iterators over children and searches, assigns and deletes variables and uses objects through variables: no statement reads a C++ object that was destroyed. Proved for programs that make no Planner; for programs without searches that keep the variables with Pddls; for programs that keep the variables with Pddls, nodes and searches. In general a destroyed object is read exactly when a statement needs a Pddl, the root of a search or the search from which an iterator was copied, and no variable keeps it alive. Refuted: Planner(Pddl(...)).root.state; next(BreadthFirstSearch(Planner(p).root, n)); c = iter(b); del b; next(c) for a search b that has begun.", "quantifier": "every Python program over these operations, every order of assignments and deletions, every outcome of searches", "why_tests_cant": "Reading a destroyed object often gives the expected value, and whether it is destroyed depends on the whole history of assignments and deletions.", "anchors": ["src/python/symbolic.cc:Planner", "src/python/symbolic.cc:PlannerNode", "src/python/symbolic.cc:BreadthFirstSearch", "include/symbolic/planning/breadth_first_search.h:iterator"]}
{"id": "C88", "title": "A reference to an object of a Pddl shows this object until it is removed", "statement": "Let r be a reference to objects()[k] (in Python: pddl.objects[k]), taken after any history of AddObject and RemoveObject. After any further history in which the object is not removed, r.name() and r.type() are those of the same object. Proved when no object at position k or before is removed and there are never more objects than the capacity of the vector; for copies of the object always. In general r shows the object that is at position k then, and reading is undefined when the capacity was exceeded or there are not that many objects. Refuted for every Pddl: removing an object at or before position k makes r show the next object or undefined; adding enough objects makes every reference dangle.", "quantifier": "every Pddl, every history before and after, every position, every capacity and growth policy of the vector", "why_tests_cant": "Whether a reference dangles depends on the capacity, which is up to the library, and reading freed memory often gives the old value.", "anchors": ["src/pddl.cc:AddObject", "src/pddl.cc:RemoveObject", "include/symbolic/pddl.h:objects", "src/python/symbolic.cc:objects"]}
{"id": "C89", "title": "An action and the axioms it triggers do exactly the closure of its effects", "statement": "Say that an action causes its effects, and that a caused literal that was not so before causes the effects of every instance of an axiom whose context it is. If no atom is caused to be true as well as false and no condition of an effect is about a caused atom, Action::Apply returns on every State, also when axioms trigger each other in circles; the result contains an atom exactly if it is caused to be true, or was there and is not caused to be false; the code is 0 exactly if nothing changes; and the depth of nested calls is bounded by a number that depends on the domain only. The same holds for PartialStates without contradictions in which the atoms of conditions are known, with the atoms known to be true and the atoms known to be false. Consequently the result does not depend on the order of objects, axioms and effects (C79), and the result for a PartialState knows exactly what all results for the States it stands for have in common (C86). Refuted with conflicts (an atom that is caused is missing) and when a condition reads what is caused (an atom that is not caused appears).", "quantifier": "every domain that passes the type checker, every action, every well-typed argument list, every State and every PartialState, all graphs of axioms", "why_tests_cant": "Axioms are fired depth first while other effects and other instances are still pending; whether some order of firing loses an effect or does not end depends on the whole graph of axioms and the state.", "anchors": ["src/action.cc:Apply", "src/axiom.cc:CreateApplicationFunction"]}
{"id": "C90", "title": "DerivedState computes the standard model of stratified rules", "statement": "If the derivation rules can be stratified (a rule uses derived predicates of its own stratum only positively and negates only those of lower strata) and have distinct heads, DerivedState of a State without derived atoms returns, and the result is the standard model: the strata evaluated one after the other, each with the least model of its rules.", "quantifier": "every stratified rule set, every declaration order, every State without derived atoms", "why_tests_cant": "A rule evaluated too early derives atoms that support each other afterwards; this needs recursion above a negation, a particular declaration order and a cyclic State.", "anchors": ["src/derived_predicate.cc:DerivedPredicate::Apply", "src/pddl.cc:DerivedState"]}
{"id": "C91", "title": "DisjunctiveFormula::Create with apply_axioms removes only what the axioms exclude", "statement": "If DisjunctiveFormula::Create(pddl, formula or effects, parameters, arguments, apply_axioms = true) returns, the normal form is true only in states in which the formula is true (the effects are achieved), is true in all those of them that satisfy the axioms (no disjunct, or nullopt, if there is none), and IsValidState accepts each of its disjuncts.", "quantifier": "every domain, all formulas and effects, all arguments, all states", "why_tests_cant": "Whether a disjunct is dropped depends on what the axioms derive from it and on the shape of the formula around it; the same condition written differently takes another path.", "anchors": ["include/symbolic/normal_form.h:DisjunctiveFormula::Create", "src/normal_form.cc:Simplify", "src/normal_form.cc:Evaluate"]}
{"id": "C92", "title": "DisjunctiveFormula::Create for a ConjunctiveFormula keeps its meaning", "statement": "DisjunctiveFormula::Create(pddl, cnf) for a conjunction of disjunctions of literals over declared objects returns a normal form that is true in exactly the states in which every disjunction has a true literal (nullopt if there is none); with apply_axioms, as in C91.", "quantifier": "every domain, every ConjunctiveFormula over declared objects, all states", "why_tests_cant": "The conversion multiplies out all choices of literals and drops, merges and sorts them; wrong results need particular combinations of literals, among them degenerate disjunctions.", "anchors": ["src/normal_form.cc:Convert", "src/normal_form.cc:DisjunctiveFormula::Create"]}
{"id": "C93", "title": "Axiom::IsConsistent says whether this axiom is satisfied", "statement": "axiom.IsConsistent(state) is true iff for every type-correct argument list for which the context is true in the State, the implication is true in it, whatever other axioms the domain has; it is true exactly if axiom.Apply(&state) reports no change. axiom.IsConsistent(partial) is false only if no State that agrees with the PartialState satisfies the axiom. The calls return.", "quantifier": "every domain, every axiom in it, every State and PartialState", "why_tests_cant": "The call applies the axiom to a copy, which triggers the other axioms; whether that leaks into the answer depends on all axioms of the domain and on which facts are known.", "anchors": ["src/axiom.cc:Axiom::IsConsistent", "src/axiom.cc:Axiom::Apply", "include/symbolic/axiom.h"]}
{"id": "C94", "title": "ConsistentState on a PartialState uses axioms as rules", "statement": "ConsistentState(p) returns, and what the result knows to be true or false are exactly the facts that follow from what p knows by using every axiom as a rule from its context to its implication: nothing that follows is missing and nothing else is added. Hence the result does not depend on the order in which axioms and objects are declared. IsValidState(p) is true.", "quantifier": "every domain whose axioms have no conditional effects, every PartialState from which no fact follows together with its opposite, every pair of orders of declaration", "why_tests_cant": "The facts that follow are a least fixed point over all instances of all axioms; order independence ranges over all pairs of domains with the same declarations.", "anchors": ["src/pddl.cc:ConsistentState(PartialState)", "src/axiom.cc:Apply(PartialState*)", "src/axiom.cc:AxiomApplicationFunction"]}
{"id": "C95", "title": "IsValidState and ConsistentState agree on PartialStates", "statement": "If ConsistentState(p) returns q for a PartialState p, then IsValidState accepts p and q, and ConsistentState(q) = q. If IsValidState accepts p then ConsistentState(p) returns, or throws after 51 passes over the axioms that all changed something. If IsValidState rejects p then ConsistentState(p) does not return.", "quantifier": "every domain and problem, every PartialState, also one that contradicts itself", "why_tests_cant": "The two functions use different loops, change codes and error handling over all instances of all axioms; the agreement ranges over all domains and all PartialStates.", "anchors": ["src/pddl.cc:ConsistentState(PartialState)", "src/axiom.cc:IsConsistent(axioms, PartialState)", "src/axiom.cc:Apply(PartialState*)"]}
{"id": "C96", "title": "Applying an axiom once makes it hold", "statement": "axiom.Apply(&s) returns, afterwards axiom.IsConsistent(s) is true, axioms that held before still hold, and the return value is true exactly if s was changed. Hence ConsistentState(s) is what one gets by applying every axiom once in the order of declaration, and all axioms hold in the result, also if axioms trigger each other or themselves.", "quantifier": "every domain that passes the type checker, without predicates that axioms add and delete and without conditions on predicates that axioms change; every state", "why_tests_cant": "An instance that was passed may be made to apply by a later one, through a chain of triggered axioms of any length; all states and all domains have to be considered.", "anchors": ["src/axiom.cc:Apply", "src/axiom.cc:IsConsistent", "src/pddl.cc:ConsistentState", "src/action.cc:Apply"]}
{"id": "C97", "title": "Actions keep states valid unless they contradict an axiom", "statement": "If IsValidState(s), then IsValidState(NextState(s, action)) exactly if nothing that the action causes, through its effects and the axioms it triggers, is the opposite of what an axiom implies whose context is true afterwards. Hence, where no operator undoes what axioms imply, ApplyActions leads from valid states to valid states only, and so are all nodes that a search over Planner(pddl, s) can visit.", "quantifier": "every domain that passes the type checker, every valid state, every action and every sequence of actions", "why_tests_cant": "Whether an axiom is violated afterwards depends on chains of triggered axioms; all valid states and all sequences have to be considered.", "anchors": ["src/pddl.cc:NextState", "src/pddl.cc:ApplyActions", "src/pddl.cc:IsValidState", "src/action.cc:Apply", "src/axiom.cc:IsConsistent", "include/symbolic/planning/planner.h:Planner"]}
{"id": "C98", "title": "Applying an action again changes nothing", "statement": "If Action::Apply(args, &s) is called a second time with the same arguments on the State or PartialState that the first call left, it returns false and leaves it as it is, whatever axioms the first call triggered.", "quantifier": "every domain that passes the type checker, every action, all well typed arguments, every State and every PartialState that does not contradict itself", "why_tests_cant": "The result depends on chains of triggered axioms and on every start state; a test shows one chain from one state.", "anchors": ["src/action.cc:Apply", "src/axiom.cc:Apply", "src/formula.cc:CreateEffectsFunction"]}
{"id": "C99", "title": "Actions that do not interfere can be swapped", "statement": "If nothing that two actions cause in a state, through their effects and the axioms these trigger, is the opposite of something one of them causes or is read by conditions of effects, then applying them in either order leads to the same State (or PartialState): it has what one of them causes to be true and what was true and none causes to be false. ApplyActions gives the same result for both orders, with derived predicates computed in between, and IsValidAction of an action is not changed by another action that causes none of the atoms its precondition is about.", "quantifier": "every domain that passes the type checker, every two actions with well typed arguments, every State and every PartialState that does not contradict itself", "why_tests_cant": "What an action causes depends on the state, because axioms are triggered only by what changes; all states and all pairs of actions have to be considered.", "anchors": ["src/action.cc:Apply", "src/axiom.cc:Apply", "src/pddl.cc:ApplyActions", "src/pddl.cc:IsValidAction"]}
{"id": "C100", "title": "Contradictions in PartialStates are detected", "statement": "If the axioms do not build on each other, then for every PartialState p that does not contradict itself ConsistentState(p) returns and IsValidState(p) is true if no fact follows from p together with its opposite; else ConsistentState(p) throws runtime_error and IsValidState(p) is false. If also no axiom has a negated context, IsValidState(p) is true exactly if there is a State that agrees with p and satisfies all axioms.", "quantifier": "every domain that passes the type checker, every PartialState that does not contradict itself", "why_tests_cant": "What follows from a PartialState is an unbounded chain of instances of axioms, and that no State agrees with it is a claim about all States.", "anchors": ["src/pddl.cc:ConsistentState", "src/pddl.cc:IsValidState", "src/axiom.cc:Axiom::IsConsistent"]}
{"id": "C101", "title": "Plans for PartialStates work in every possible State", "statement": "If each action of a plan is known to be valid (Action::IsValid on a PartialState) in the PartialState that Action::Apply of the actions before it leads to, and none contradicts an axiom, then from every State that agrees with the first PartialState and that IsValidState accepts, ApplyActions returns, every action is valid in its turn, and the result is a valid State that agrees with the last PartialState. If the goal is known to be true in the last one, IsValidPlan accepts the plan from every such State.", "quantifier": "every domain that passes the type checker with rules that are not recursive, every PartialState that says nothing about derived predicates, every plan, every State that agrees", "why_tests_cant": "The States that agree with a PartialState are exponentially many, and what an action triggers differs between them.", "anchors": ["src/action.cc:Apply", "src/action.cc:IsValid", "src/pddl.cc:IsValidPlan", "src/pddl.cc:ApplyActions"]}
{"id": "C102", "title": "More facts never hurt where nothing is deleted", "statement": "In a domain without delete effects, in which only predicates that no action, axiom or rule ever adds occur negatively, more facts never hurt: an action that IsValidAction accepts in a State is accepted in every State with more atoms (and the same atoms of the negated predicates), and so is the goal; if the larger State is one that IsValidState accepts, NextState leads to a State that contains the State it leads to from the smaller one and is valid again; and a list of calls that IsValidPlan accepts from a State is accepted from every such larger one.", "quantifier": "every such domain that passes the type checker, every pair of States one of which contains the other, every call, every list of calls", "why_tests_cant": "Pairs of States are exponentially many, and an action triggers fewer axioms in the larger State, so that the inclusion depends on what was made true before.", "anchors": ["src/pddl.cc:NextState", "src/pddl.cc:IsValidPlan", "src/action.cc:Apply", "src/derived_predicate.cc:Apply"]}
{"id": "C103", "title": "Facts that nothing depends on do not matter", "statement": "Call a set of predicates relevant if it contains those of preconditions and of the goal and, with each predicate that an effect, an axiom or a rule changes, those that decide whether it is changed (conditions of effects, contexts of axioms, bodies of rules). On two States with the same atoms of relevant predicates, IsValidAction (for calls of actions), IsGoalSatisfied and ListValidActions give the same answers; NextState and ApplyActions lead to States with the same atoms of relevant predicates; IsValidPlan gives the same answer. Applying an action to two PartialStates that agree on relevant predicates leads to two that agree on them. This holds whatever calls were made on the same Pddl before.", "quantifier": "every domain that the constructor accepts, every relevant set, every pair of States or PartialStates that agree on it, every call and list of calls", "why_tests_cant": "Irrelevant facts change which axioms fire, in which order effects run and how often the rules are evaluated, so that no finite set of pairs shows that nothing leaks into relevant facts.", "anchors": ["src/action.cc:Apply", "src/pddl.cc:NextState", "src/pddl.cc:IsValidPlan", "src/pddl.cc:ListValidActions", "src/derived_predicate.cc:Apply"]}
{"id": "C104", "title": "Interchangeable objects", "statement": "If exchanging objects of the same types turns every operator, rule and predicate declaration into itself, exchanging them in States and calls exchanges them in the answers: IsValidAction gives the same answer for the exchanged call in the exchanged State, ListValidActions returns the exchanged calls (in some order), DerivedState and NextState lead to the exchanged State, and, if the goal does not tell the objects apart either, IsGoalSatisfied answers the same and the exchanged plan is valid from the exchanged State iff the plan is valid. If the initial State does not tell them apart, IsValidPlan accepts the exchanged plan iff it accepts the plan.", "quantifier": "every domain that passes the type checker, every such permutation of its objects, every State, call and plan", "why_tests_cant": "Objects are enumerated in the order of their declaration and stored in the order of their hashes, so that an exchange changes the order of every loop; no finite set of pairs shows that the order never leaks into a result.", "anchors": ["src/pddl.cc:IsValidAction", "src/pddl.cc:ListValidActions", "src/pddl.cc:NextState", "src/pddl.cc:IsValidPlan"]}
{"id": "C105", "title": "The two implementations of State are interchangeable", "statement": "After the same history of insert, erase and range insert calls on State(initializer_list), the State that is a sorted vector (compiled without SYMBOLIC_STATE_USE_SET) and the one that is a hash set give the same answers: contains, the flags that further calls return, size, and ==; both visit the same propositions, each once. Equal vectors have equal hashes and operator< on vectors is a strict total order. The vector is visited in ascending order of propositions, for every hash function. The two do not agree on the order of iteration, operator< and hash values.", "quantifier": "every initializer list, every history of calls, every hash function of strings", "why_tests_cant": "Only one of the implementations is compiled, and agreement is a claim over all histories and hash functions; a test sees a few of them.", "anchors": ["include/symbolic/state.h:State", "include/symbolic/utils/unique_vector.h:UniqueVector", "include/symbolic/utils/hash_set.h:HashSet"]}
{"id": "C106", "title": "More knowledge gives more knowledge", "statement": "Let one PartialState know all that another knows. Then ConsistentState of the first knows all that ConsistentState of the second knows, if what is known does not contradict the axioms. If moreover the first is closed under the axioms, applying an action to both leads to PartialStates of which the first knows all that the second knows, and a report of no change for the second means a report of no change for the first. For a list of actions, each followed by ConsistentState: actions known to be valid in their turn for the second are known to be valid for the first, and a goal known to be reached for the second is known to be reached for the first.", "quantifier": "every domain that passes the type checker and whose axioms have no conditional effects, every pair of PartialStates, every action, argument list and list of calls", "why_tests_cant": "Axioms fire only for facts that are new, so that knowing a fact can suppress what would be learned; that this never loses knowledge is a claim about all pairs of PartialStates.", "anchors": ["src/pddl.cc:ConsistentState", "include/symbolic/action.h:Apply", "src/axiom.cc:Apply", "src/state.cc:PartialState"]}
{"id": "C107", "title": "More objects", "statement": "Take two problems of the same domain, where the second declares all objects of the first and more, but none of a type that had no object before. Let two States have the same atoms about the old objects. If the quantifiers of preconditions and goals are existential, then calls that are valid in the first State are valid in the second, calls that are listed for the first are listed for the second, and a goal that holds in the first holds in the second; without quantifiers, the answers are the same. If also no condition of an effect and no rule has a quantifier, next states again have the same atoms about the old objects, and a plan that IsValidPlan accepts for the first problem is accepted for the second. A breadth-first search for the second problem then finds a plan that is no longer than one for the first.", "quantifier": "every pair of problems of a domain that passes the type checker, every State, call and plan about the old objects", "why_tests_cant": "The number of further objects, the formulas and the plans are unbounded; universal effects and axioms also range over the new objects, and that this never reaches the old ones is a claim about all executions.", "anchors": ["src/pddl.cc:IsValidPlan", "src/pddl.cc:NextState", "src/pddl.cc:ListValidActions", "src/pddl.cc:IsGoalSatisfied", "include/symbolic/action.h:Apply", "src/derived_predicate.cc:Apply"]}
{"id": "C108", "title": "More actions", "statement": "Take two problems with the same objects, axioms, rules and goal, where the second has all actions of the first, found under the same names, and more. Everything that is asked about a call of an operator of the first problem (IsValidAction, NextState, IsValidTuple, the normal forms) is answered in the same way in both, be it with a value, an exception or undefined behaviour. So is everything that does not concern actions. ListValidActions returns the old calls in the same order, with new ones among them. With the same initial state, sequences of old calls are applied and judged in the same way, also when argument buffers are shared, and a breadth-first search for the second problem finds a plan that is no longer than one for the first.", "quantifier": "every pair of problems, every State, partial State, call and sequence of calls", "why_tests_cant": "The added actions are unbounded, and one that is declared before an old one under its name does change the answers; that nothing else does is a claim about all domains and all sequences of calls.", "anchors": ["src/pddl.cc:NextState", "src/pddl.cc:ListValidActions", "src/pddl.cc:IsValidPlan", "src/action.cc:ParseAction", "src/planning/planner.cc"]}
{"id": "C109", "title": "Searching deeper", "statement": "BreadthFirstSearch returns the plans by number of steps, and those with the same number of steps in the order of the children of the nodes. With a larger maximum depth it therefore returns the same plans first, in the same order, and after them only plans with more steps than the smaller depth allows; what it returns under a timeout is a prefix of this. DepthFirstSearch with a larger maximum depth returns the same plans in the same order, with further plans among them.", "quantifier": "every type of nodes, every goal test and expansion, all pairs of depths, every clock", "why_tests_cant": "Nodes, branching and depths are unbounded; that the queue holds at most two levels is an invariant over all executions of the loop.", "anchors": ["include/symbolic/planning/breadth_first_search.h:operator++", "include/symbolic/planning/depth_first_search.h:operator++"]}
{"id": "C110", "title": "Iterators over the children of planner nodes are independent", "statement": "A program that holds nodes and iterators over their children, copies both, moves iterators, dereferences them and compares them with end() in any order sees, through each iterator, the children that a range-for over the node sees, in the same order; a child that was obtained stays what it is, also when its parent and the iterator move on or are gone. Refuted: an iterator refers to the variable begin() was called on, so that moving it after this variable was assigned gives nodes that are no children, and after its scope has ended is undefined.", "quantifier": "every problem, every node, every sequence of commands over any number of variables and iterators", "why_tests_cant": "Programs interleave any number of iterators, copies and assignments; only an invariant over all of them shows which interleavings are safe.", "anchors": ["src/planning/planner.cc:Planner::Node::begin", "src/planning/planner.cc:Planner::Node::iterator::operator++", "src/planning/planner.cc:Planner::Node::iterator::operator==", "include/symbolic/planning/planner.h:Planner::Node::iterator"]}
