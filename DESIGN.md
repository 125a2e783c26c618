# Formal model of `symbolic`: design

Target: the C++ library in /repo (PDDL states, formulas, actions, axioms, derived
predicates, normal forms, search). Prover: Lean 4.33 with single Mathlib modules.

## Layout

* `lean/Verif/Model/*.lean`: definitions transcribed from the code, one file per source unit,
  every definition with the /repo file and lines it transcribes.
* `lean/Verif/Spec/*.lean`: small independent specifications (sets, Cartesian product,
  first-order satisfaction, plans, DNF meaning) that do not mention the model's helpers.
* `lean/Verif/Lemmas/*.lean`: helper lemmas.
* `lean/Verif/Props/*.lean`: the property theorems `C01_...`, each with a concrete
  `example` that meets its hypotheses, plus refutations `..._refuted` where the code
  violates the property as users would read it.

## Modelling choices

* **Outcomes.** Anything that may throw, have undefined behaviour or not terminate returns
  `Res α = ok a | exc e | ub | fuel`. `exc` carries the C++ exception kind, `ub` is an
  out-of-bounds access or null dereference in a release (NDEBUG) build (asserts are off: the
  CMake default is Release), `fuel` means that the recursion budget ran out, i.e. the call had not
  returned within that many loop iterations/recursive calls. "It returns r" means some budget
  gives `ok r`; "it diverges" means that every budget gives `fuel`.
* **Names** are `List Char` compared like `std::string`. `std::hash<std::string>` is an
  arbitrary function (type class `StrHash`); all theorems hold for every hash function.
* **Objects** carry a name and the list of names of their type chain (own type first). The C++
  `==`, `<` and hash of objects look only at the name; so do ours.
* **Atoms in a state** keep the names only; type pointers are not observable through a State.
* **States** are the actual HashSet representation (vector of sorted buckets). The raw structure and
  its operations are modelled in `Model/HashSet.lean`; reachable values satisfy an invariant proved
  by induction over histories; the upper layers use the subtype of values satisfying the invariant.
* `std::sort`, `std::unique`, `std::find`, `std::lower_bound` on a sorted range,
  `std::unordered_map`, `std::set`, streams: by their contract in the C++ standard.
* Integers: `size_t`/`int` counters are unbounded in the model except hash arithmetic, which is 64 bit.

## Properties

| id | modelled as / proof idea |
|----|----|
| C01, C02 | `Model/HashSet.lean`; invariant: bucket count n is 2^k-1 with (n-1)/2 < size <= n (or n=1), every bucket strictly sorted and holding only elements of that residue; induction over histories; canonical form gives C02. |
| C03 | lexicographic order lifting lemma, four times (chars, arguments, buckets, bucket array). |
| C04 | index-based iterator model (`idx_bucket`, `idx_in_bucket`), traversal = flatten of the buckets. |
| C05 | two sets; three-valued knowledge spec. |
| C06-C09 | index-based iterator with the incremental digit update; invariant combination = digits(idx); C09 is refuted for a non-first option of size one and proved otherwise. |
| C10, C11 | chain of type names; association-list map built by the same double loop. |
| C12 | refuted (size() of the empty product is 0); consequences proved: a zero-parameter action is never listed or expanded. |
| C13-C15 | character-level tokenizer; round-trip lemmas for clean names. |
| C16, C17 | deep embedding of goals; evaluator by substitution arrays as in the code; spec with environments. C17 refuted, C16 is stated for formulas without such name clashes. |
| C18 | the shared argument buffers of formulas and actions as explicit state, with arbitrary contents left by earlier calls; every call that applies actions or axioms, searches included. |
| C19, C20 | evaluator in the exception monad over PartialState; induction over formulas. |
| C21-C25 | deep embedding of effect lists; evaluator in code order; C24, C25 refuted with witnesses, partial versions. |
| C26, C27 | axiom application function; refuted for repeated/unbound variables and cyclic axioms; partial versions: acyclic axioms, or axioms that do not undo each other (with buffers). |
| C28-C30 | loop with fuel; fixpoint property of every terminating run; divergence proved for every budget on a witness; C30 refuted by stale self-support; partial versions for non-recursive rules. |
| C31-C34 | loops with fuel over all axioms; entailment by invariants over completions. |
| C35-C37 | Pddl API on parsed strings. |
| C38, C39 | tables and a heap of live symbols; refuted, with what does hold as partial theorems. |
| C40-C42 | offsets + mixed-radix; zero-parameter predicates refuted separately. |
| C43-C49 | iterators as state machines; search as a transition function with fuel; plans spec as paths; DFS/A* lose a goal that empties the stack (refuted, partial). A* with estimates that are exact for plans and never too high (not necessarily consistent) visits a cheapest plan first, and the lost plan costs no less than any visited one. Spaces whose goal test or expansion may throw: a search that returns behaves as in the space where nodes that fail are leaves and no goals (`C45_bfs_returned`, `C48_dfs_returned_partial`, `C49_astar_returned_partial`); over the planner with its buffers: `C48_buffers_partial`, `C49_buffers_partial`. |
| C50-C53 | DNF as lists of PartialStates with the code's conventions (none = false, empty = true). C51 refuted outside a fragment. |
| C54 | printer of formulas; refuted for quantifiers. |
| C55 | buffered semantics (references into shared vectors) against by-value semantics; equal for ranked axioms, for every call that applies actions or axioms; refuted for re-entrant ones. |
| C56 | rank of the trigger graph bounds the nesting of axioms; rules by their rank; no out-of-bounds access from scoping. |
| C57 | shortest plans never repeat a state, so pruning keeps them; with C43, C45, C56. With buffers: nodes on the way were expanded if the search returned (C45_bfs_returned). |
| C58 | type checker for domains (hierarchy, scopes, axiom parameters as wide as their context) implies an invariant of all operations on states; with C13, C41. |
| C59 | conditions judged in the state itself; refuted outside a fragment and for actions that change their own conditions. |
| C60 | each disjunct through C33, after adding the true `=` and type atoms to the state. |
| C61 | equality of results, no hypotheses. |
| C62 | the strings of a State in any order denote it (C13); simulation by the invariant of C58; refuted for axioms that leak variables. |
| C63 | shape of a call string as relation; refuted: undeclared predicates and wrong arguments are read. |
| C64 | the constructor with and without `apply_axioms` compared; refuted for assigned and for invalid initial states. |
| C65 | Python's regular expression against the tokenizer of the library, on printed propositions; refuted elsewhere. |
| C66 | tokens of arbitrarily nested text; a reader of PDDL problems as specification; refuted exactly outside of the fragment. |
| C67 | any parse tree; conditions supported or not at any depth; refuted without the condition on numbers of arguments. The effects of axioms are unconditional, because printing contradictory ones is undefined. |
| C68 | finite universe of atoms the axioms can write; refuted for axioms that undo each other. |
| C69 | inductive reachability over triggers; by value and with buffers. |
| C70 | pointers to a Pddl made explicit, with the lifetime of each; refuted for predicates, generators, the index and unpickled Pddls. |
| C71 | the Python iterator as a wrapper of the C++ one; all interleavings of `next` and `list`. |
| C72 | reduction to C40; refuted outside the range for every index. |
| C73 | sequences of passes that change something; the limit is exact; refuted: a chain of 51 axioms is given up although it is finished. |
| C74 | the two constructors side by side, all functions that do not read the problem; refuted: `constants()`, adding, removing, pickling, the initial state. |
| C75 | the last character decides between text and path; every text the reader of Spec/Problem accepts, every Problem object; refuted: paths ending with a bracket, comments. |
| C76 | buffers and pointers made explicit; invariant: every generator with a value points into a buffer of its own; refuted: moved-from generators. |
| C77 | texts are decoded from the left; sorting makes the text of a state independent of the hash function; refuted for partial states. |
| C78 | every state on the way lies between the given one and any model of the axioms (signed monotonicity of formulas); with C31, C32, C69. |
| C79 | specifications mention objects only by membership; universal effects that do not interfere are sets of operations, and operations without conflicts commute; with C16, C28, C29, C37. |
| C80, C81 | every function is equivariant: a simulation between two Pddls with different hash functions whose states are related by `SameState`; C81 is the case of no new names. Lists keep their order because objects and operators do. Simplified normal forms are the minimal conjunctions that are neither true nor false, a set that does not depend on the order. |
| C82 | the instances before the iterator's position as a list; `--` finds the last new child among them; the end of the list is never reported. |
| C83 | programs over iterators (create, copy, move, dereference, destroy) against programs over positions; invariant: every live iterator is at its position. |
| C84 | a grammar for the arguments; the search with its printing against the search of C45; with C57. |
| C85 | Python programs that ask for elements and copy them, against programs over a list; invariant: what the latest `next` gave is in the iterator. |
| C86 | two runs side by side; invariant: the State agrees with what is known, and what is unknown is as in the State at the start. |
| C87 | counting references against asking which values variables hold; invariant: the count of an object is the number of variables and live objects that keep it. |
| C88 | positions in the vector of objects against lists of names; a reference is a buffer and a position; with the invariant of C39. |
| C89 | the closure as an inductive predicate; invariant: only caused literals change, never back, and what a change triggers is so when the call returns; the number of caused literals that are not so yet bounds the depth. |
| C90 | a result is the standard model iff it is a fixpoint and every atom is in every closed set over what is below; atoms of recursive rules stay supported while what they negate is settled. |
| C91 | simplification with a sound filter: each dropped disjunct is false in every state that satisfies the axioms (C34); the filter is asked about the outermost disjuncts only. |
| C92 | the converted disjunctions are good normal forms, so that the lemmas of C51 and C91 on `Conjoin` apply. |
| C93 | as C32 and C34, for one axiom; the passes approach the closure as in C68. |
| C94 | every application stays between the given facts and what follows (C86 says what it causes); C33 gives saturation. One pass reaches every instance: a context that becomes known later is triggered; the second pass changes nothing. |
| C95 | both loops run the same passes: a pass throws iff one of its codes is 2, and codes are at most 2. |
| C96 | invariant: all instances whose context is true are settled, except for those still to come; a context that becomes true was changed, so it triggers (C89). |
| C97 | an axiom whose context is new was triggered (C89); one whose context was true held before, so only the opposite of an implication can violate it. |
| C98 | after the first call all that was caused is so, hence the second causes only own effects that are so already and triggers nothing. |
| C99 | the second action causes after the first what it causes before, up to what the first causes: what triggers differs only in literals the first one changed, and these triggered already. |
| C100 | one pass over the axioms either reports a contradiction or leaves a PartialState where a second pass is idle; an idle pass means the PartialState contains all that follows. |
| C101 | induction over the plan: C86 for each step, C97 for the validity of the next State, derived predicates in between. |
| C102 | what an action causes is monotone in the State (C89); what is no longer triggered in a larger valid State holds there already; passes over the rules are monotone, so are their fixpoints. |
| C103 | relation between two runs: effects on relevant predicates run in lockstep, all others keep the relevant part; passes over the rules keep it too, however many each run needs. Buffers belong to effects, so effects on relevant predicates read and write buffers of such effects only; those are kept equal in the two runs. |
| C104 | the domain with exchanged objects is the domain with other names (C80) and has the same declarations in another order (C79); type checking does not depend on the order of objects. |
| C105 | both implementations refine the set of the history (C01); sorted lists with the same members are equal. |
| C106 | what follows by rules is monotone (C94); what an action causes with less knowledge is caused or known with more (C89). |
| C107 | formulas by induction, with existential quantifiers in one direction; what an action causes about old objects does not depend on new ones (C89); rules by rank (C28, C29). |
| C108 | names find the same operators (C44), axioms and objects are the same; lists of actions by induction over sublists; searches via C57. |
| C109 | the queue of a breadth-first search is the rest of a level and the begun next level; depth-first search by the enumeration of C48. |
| C110 | programs over node variables and iterators against programs over lists of children; invariant: the rest of a range-for from the iterator visits the rest of the list. |

## What is modelled

Line ranges are in the comments of the definitions.

| source | modelled in | not modelled |
|----|----|----|
| include/symbolic/utils/hash_set.h | Model/HashSet | `reserve` (no effect on contents), move/allocation |
| include/symbolic/utils/combination_generator.h | Model/Combination | the `const_iterator` duplicate (same code) |
| include/symbolic/utils/unique_vector.h | Model/HashSet (`UV`: the buckets), Model/VecState (constructor from lists, `State` as a vector) | capacity, iterators |
| src/utils/parameter_generator.cc | Model/Object (by value), Model/GenCopy (copies and moves, with buffers) | `size_groups_` of a moved-from generator |
| src/object.cc, object.h | Model/Object, Model/Parse | `ObjectType` hash |
| src/proposition.cc, proposition.h | Model/State, Model/Parse | - |
| src/state.cc, state.h | Model/State, Model/HashSet, Model/StateIndex, Model/IndexIter, Model/Print | Eigen arrays are lists of Booleans |
| src/predicate.cc | Model/Object (`PredDecl`), Model/StateIndex, Model/Python, Model/Print | - |
| src/formula.cc | Model/Formula (by value), Model/FormulaBuf (with buffers), Model/FormulaString | - |
| src/action.cc | Model/Action (by value), Model/ActionBuf (with buffers), Model/Pddl (`parseAction`), Model/Print | - |
| src/axiom.cc | Model/Axiom, Model/AxiomOne, Model/Action (application function), Model/Print | - |
| src/derived_predicate.cc | Model/Axiom (`Drv.apply`, `drvsFix`) | - (derived predicates are printed by `operator<<` of Action) |
| src/normal_form.cc | Model/NormalForm, Model/Normalize, Model/NormalAxioms, Model/Print | - |
| src/pddl.cc | Model/Pddl, Model/PddlBuf and Model/ApiBuf (all calls that apply actions or axioms, with the buffers), Model/Heap (objects and their lifetime), Model/ObjRef (references to objects), Model/Load (text or path, the constructor without problem) | VAL (lexer, parser, `IsValid`), the printers of VAL structures |
| src/planning/planner.cc, planner.h | Model/Planner, Model/PlannerBack, Model/NodeIter (copies, lifetimes), Model/Print | use of a default-constructed Node; copies of iterators that step back |
| include/symbolic/planning/*.h | Model/Search, Model/App (verbose breadth-first search) | the clock is an arbitrary Boolean function of the step |
| src/python/symbolic.cc | Model/StringApi, Model/Python, Model/PyIter (`__iter__` of nodes and generators), Model/PyLife (lifetimes) | functions of Pddl on sets of strings, assignment of the initial state, pickling (files taken to be unchanged), functions of actions, predicates, generators, the index and the search that take strings; of pybind11 only `make_iterator` with its return value policy and what is kept alive are modelled; the other bindings are not |
| symbolic/problem.py | Model/Problem | lists and tuples are not told apart; strings are lists of characters |
| apps/pddl.cc | Model/App | clock readings; what `IsValid` prints is a parameter |
| setup.py | - | build |

Simplifications that matter:

* The parse tree is the input. VAL's own checks (types, undeclared names) are not assumed: theorems state what they need as
  `Goal.WF`, `Eff.WF`, `Ptree.WellFormed` etc.
* Most theorems about actions, axioms and derived predicates use arguments passed by value (C18, C23, C31, C35, C36, C43, C44, C55,
  C57, C58, C69 and C103 also with buffers). The code passes references into
  shared buffers; C18 and C55 say when that makes no difference (always across calls; within a call when no axiom triggers
  itself).
* Budgets: `Pddl.make t b k` uses `k` both as the number of rounds of ConsistentState and as the nesting of triggered axioms.
* In the normal form printed for an axiom a name among its parameters is taken as the parameter, also where a quantifier puts
  an object of that name.
* `std::unordered_map` order is never observable in the modelled functions, except the axiom lists under one key, which keep
  insertion order.

## Findings

Behaviour of the code that contradicts what a user would expect. Those with a theorem are proved about the model; the others
were found by reading and are not claimed.

1. Decrementing `end()` of a combination iterator shows stale elements (`C07_through_end_refuted`, `C09_reverse_refuted`).
2. A generator without parameters has size 0, not 1. So predicates, actions, axioms and derived predicates without parameters
   are never enumerated (`C12_*`, `C28_nullary_*`, `C32_nullary_axiom_refuted`, `C37_nullary_refuted`, `C40_nullary_refuted`,
   `C41_nullary_*`, `C43_nullary_refuted`, `C57_nullary_refuted`).
3. DNF conversion is wrong for disjunctions with an always-true disjunct, for all-contradictory disjunctions, and for the
   negation of an always-true formula (`C51_*_refuted`). Axioms can undo a normalized postcondition (`C52_axiom_undoes_refuted`).
   A conditional effect whose condition is always true is dropped, one whose condition is always false is demanded, and a
   contradictory one makes normalization throw (`C59_*_refuted`). With `apply_axioms`, a disjunct that contradicts the axioms
   makes it throw or is turned into one that can be true (`C60_*_refuted`). `Create` ignores `apply_axioms` for atoms and
   negations, throws for conditional effects that the axioms exclude (`C91_*_refuted`), and drops empty disjunctions of a
   `ConjunctiveFormula` (`C92_empty_refuted`).
4. Depth-first and A* search lose a plan whose goal node empties the stack or queue (`C48_dfs_loses_plan_refuted`,
   `C49_astar_loses_plan_refuted`).
5. Deletes win over adds, and conditions of conditional effects see earlier effects (`C24_change_refuted`, `C25_*_refuted`).
6. A parameter called like a constant captures it (`C17_constants_captured_refuted`).
7. Triggered axioms: repeated variables are not compared, parameters outside the context stay unbound, types are ignored
   (`C26_*_refuted`, `C33_narrow_axiom_refuted`, `C34_narrow_axiom_refuted`, `C58_narrow_axiom_refuted`); cyclic axioms recurse for ever
   (`C27_termination_refuted`); a re-entrant axiom overwrites its own arguments (`Buffers.C55_reentrant_refuted`), so that
   `ConsistentState` adds atoms that do not follow (`Buffers.C55_calls_refuted`) and planners find plans that do not exist
   (`Buffers.C55_planner_refuted`), though `IsValidPlan`, with the same axioms, agrees with them (`C44_buffers`); the change
   codes of nested axioms are discarded, so a known fact may be overridden silently (`C33_override_refuted`), and then the order of axioms decides what is known (`C94_order_refuted`); with axioms
   that undo each other `ConsistentState` and the constructor never return (`C68_undoing_refuted`); an effect with more
   arguments than the context of an axiom makes the constructor read past a vector (`C67_arity_refuted`);
   an axiom whose condition denies what is always true, or whose effects contradict each other, makes it dereference an empty
   optional (`C67_unprintable_refuted`). `ConsistentState` of a partial state throws after 52 passes, also if the last pass
   changed nothing (`C73_limit_refuted`). Which of two axioms that say the same wins depends on their order
   (`C78_order_refuted`).
8. Derived predicates may loop for ever (`C29_*_refuted`) and depend on stale derived facts (`C30_stale_facts_refuted`). A recursive rule
   declared before a rule it negates derives facts that stay (`C90_stratified_refuted`).
9. A domain without actions is undefined behaviour in the planner (`C43_no_actions_refuted`); a domain without predicates is
   undefined behaviour in the constructor (in `Pddl.make`). The planner's root applies axioms but not derived predicates.
10. AddObject does not update the object map (`C38_*_refuted`), RemoveObject leaves dangling pointers in it and in the
    constants (`C39_*_refuted`).
11. The StateIndex cache is keyed by strings, so unprintable names alias (`C42_unprintable_refuted`); an atom with a missing
    argument gets the index of another one (`C40_missing_argument_refuted`).
12. Formula strings of quantified formulas have unbalanced brackets; variables lose their question mark (`C54_*_refuted`).
13. Strings in Python: a state returned by `next_state` may be rejected by the next call (`C62_feedback_refuted`); undeclared
    propositions are read silently (`C63_undeclared_refuted`); pickling loses `apply_axioms=False` and an assigned initial state
    (`C64_lost_refuted`); `parse_args` finds an empty argument in `p()` (`C65_nullary_refuted`); Problem writes quantifiers that are no
    PDDL and gives objects without a type the type of a later one (`C66_*_refuted`). Predicates, generators and the state index
    point to no Pddl, and the actions of an unpickled Pddl to a destroyed one, so that their functions on names read freed
    or null memory (`C70_*_refuted`); `get_proposition` out of range reads past a vector (`C72_out_of_range_refuted`).
14. A Pddl without a problem has no constants, an initial state that may violate the axioms, and dereferences a null problem in
    `AddObject`, `RemoveObject` and when unpickled (`C74_*_refuted`). A path that ends with `)` is parsed as a problem, a problem
    that ends with a comment is opened as a file (`C75_path_refuted`).
15. A moved-from ParameterGenerator still lists the tuples of the generator it was moved to, and listing it is undefined
    behaviour once that one is gone (`C76_moved_refuted`).
16. The text of a partial state or normal form depends on the hash function of the standard library, that of a state does not
    (`C77_order_refuted`).
17. The order in which two objects are declared decides what a universal effect does if its instances interfere
    (`C79_effect_refuted`), the order of two rules what is derived (`C79_rules_refuted`), and the order of
    two axioms with the same context and contradicting implications what an action does (`C79_axioms_refuted`).
18. A predicate called like a type is evaluated as a test of that type (`C80_type_name_refuted`). If it has no arguments, normal
    forms read an argument that is not there, or not, depending on the hash function (`C81_constructor_refuted`).
19. Stepping back over the children of a planner node (`operator--`) passes a default-constructed object for every parameter, other
    than the first, that has one possible argument, and hangs at or repeats for ever actions without parameters (`C82_*_refuted`);
    nothing tells that the first child was reached.
20. References from iterators of a StateIndex are into the iterator: a second dereference changes the first proposition, those of
    `*it++` and of reverse iterators dangle (`C83_*_refuted`); with 2^32 propositions a loop visits nothing (`C83_size_refuted`).
21. Command line: `--depth -1` searches to depth 2^64 - 1; text after the number is ignored; a depth that is no number or at least
    2^31 ends the program without the usage (`C84_*_refuted`). The result of `IsValid` is not used.
22. Python: `list(node)` of a PlannerNode and `list(generator)` of a ParameterGenerator consist of references into the iterator, so that all
    elements show the last one, or a node that is no child at all (`C85_*_refuted`).
23. `Apply` on a PartialState takes an unknown condition of a conditional effect for false, so that facts stay known that the action may
    have changed; and it triggers axioms that are not triggered in a State where the fact was so already (`C86_*_refuted`).
24. Python: `Planner`, `PlannerNode` and `BreadthFirstSearch` keep neither the Pddl nor the root nor a copied search alive:
    `Planner(Pddl(...)).root.state`, `next(BreadthFirstSearch(Planner(p).root, n))`, and `next` on a copy (`iter(b)`) of a search that
    has begun and is gone read destroyed objects (`C87_*_refuted`).
25. References to objects (`pddl.objects()[k]`; in Python every element of `pddl.objects`) are into a vector that `AddObject` moves when the
    capacity is used up and `RemoveObject` shifts: they dangle or show the next object (`C88_*_refuted`). Copies are safe (`C88_copy`).
26. `axiom.Apply(&s)` may leave a state in which the axiom does not hold: if one instance undoes what another does, or an effect has a condition
    that a later instance makes true (`C96_*_refuted`).
    An action that deletes what an axiom implies leads from a valid to an invalid state (`C97_refuted`).
    An effect whose condition reads what another effect of the action adds changes more in a second call (`C98_refuted`).
    The order of two actions matters if one deletes what an axiom adds that the other triggers (`C99_refuted`).
    `IsValidState(partial)` accepts a PartialState that contradicts the axioms if the contradiction arises through an axiom
    that another one triggers, since the change codes of triggered axioms are dropped (`C100_refuted`), and one that has no
    completion because each value of an unknown atom is excluded (`C100_negated_refuted`).
    A plan that is valid on a PartialState, with the goal known at the end, may fail from a valid State that agrees with it, if an
    action contradicts an axiom: the axiom is triggered only where its context was unknown (`C101_refuted`).
    A plan without deletes may fail from a State with more atoms, if that State violates an axiom: what is there already triggers
    nothing (`C102_invalid_refuted`).
    `axiom.IsConsistent(partial)` is false if another axiom, triggered by the effects, is violated (`C93_other_axiom_refuted`).
27. An iterator over the children of a node refers to the variable `begin()` was called on: after `node = *it`, `++it` goes on with the
    children of the child, with the wrong depth and ancestors (`C110_assigned_refuted`); after the end of its scope it is undefined.
28. Reading only: `operator<<` of Pddl prints the domain twice and never the problem.
    Python bindings: pickling also loses added objects; `ParameterGenerator.__nonzero__` is bound to `empty`; `DerivedPredicate.__repr__` is declared for an Axiom.

## Trusted base

Lean 4 kernel. Axioms: every theorem in MANIFEST.json depends on a subset of `propext`, `Classical.choice`, `Quot.sound`
(`tools/axioms.sh` prints them). No `sorry`, no axioms of our own, no compiled evaluation (`decide +kernel` is kernel
evaluation). What is left to trust: that the model follows the source (line references beside every definition, mutation
log in `seeded/LOG.jsonl`), and the C++ standard library contracts listed above.
