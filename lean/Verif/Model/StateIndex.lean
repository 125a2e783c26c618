import Verif.Model.Pddl

/-!
# StateIndex

Transcription of include/symbolic/state.h:220-389 and src/state.cc:18-41, 142-232. A proposition is its predicate and the
names of its arguments; `find` compares arguments by name (object.h:75-78). `Eigen::Array<bool>` is a list; writing outside
it is undefined. `idx + 1` does not overflow. The two caches are `std::unordered_map`s.
-/

namespace Symbolic

variable [StrHash]

/-- state.cc:22-31: `PredicateCumSum`; `acc` is `idx_pred.back()`. -/
def cumSum : List (List (List Obj)) → Nat → List Nat
  | [], acc => [acc]
  | o :: os, acc => acc :: cumSum os (acc + Comb.size o)

/-- state.cc:33-41: `PredicateIndices`; a later predicate of the same name overwrites the earlier one. -/
def predIdx (name : Name) : List PredDecl → Nat → Option Nat
  | [], _ => none
  | p :: ps, i =>
    match predIdx name ps (i + 1) with
    | some j => some j
    | none => if p.name = name then some i else none

/-- state.h:280-294, without the caches: the predicates, the option lists of their generators, and the flag. -/
structure StateIndex where
  preds : List PredDecl
  omap : ObjMap
  useCache : Bool

/-- state.h:291-292. -/
structure IndexCache where
  /-- `cache_propositions_` -/
  props : List (Nat × Atom)
  /-- `cache_idx_propositions_` -/
  idxs : List (Name × Nat)

/-- The caches of a new StateIndex. -/
def IndexCache.empty : IndexCache := ⟨[], []⟩

namespace StateIndex

/-- `predicates_[i].parameter_generator()`. -/
def gens (I : StateIndex) : List (List (List Obj)) := I.preds.map fun p => paramTypes I.omap p.params

/-- `idx_predicate_group_`. -/
def groups (I : StateIndex) : List Nat := cumSum I.gens 0

/-- state.h:269. -/
def size (I : StateIndex) : Res Nat :=
  match I.groups.getLast? with
  | some n => .ok n
  | none => .ub

/-- state.cc:156-171: `GetProposition` on a cache miss. -/
def lookupProp (I : StateIndex) (idx : Nat) : Res Atom := do
  let k := lowerBound (fun a b => decide (a < b)) I.groups (idx + 1) - 1
  let start ← Res.index I.groups k
  let pred ← Res.index I.preds k
  let args ← Comb.get Obj.dflt (paramTypes I.omap pred.params) ((idx - start : Nat) : Int)
  pure (Atom.ofObjs pred.name args)

/-- state.cc:190-199: `GetPropositionIndex` on a cache miss. -/
def lookupIdx (I : StateIndex) (a : Atom) : Res Nat :=
  match predIdx a.pred I.preds 0 with
  | none => .exc .outOfRange
  | some k => do
    let pred ← Res.index I.preds k
    let i ← Comb.find Obj.same (paramTypes I.omap pred.params) (a.args.map fun n => ⟨n, []⟩)
    let start ← Res.index I.groups k
    pure (start + i)

/-- `unordered_map::find`. -/
def assoc [DecidableEq κ] (k : κ) : List (κ × β) → Option β
  | [] => none
  | (k', v) :: rest => if k' = k then some v else assoc k rest

/-- state.cc:149-179: `GetProposition`. A miss that throws leaves the cache alone. -/
def getProposition (I : StateIndex) (c : IndexCache) (idx : Nat) : Res Atom × IndexCache :=
  match (if I.useCache then assoc idx c.props else none) with
  | some a => (.ok a, c)
  | none =>
    match I.lookupProp idx with
    | .ok a => (.ok a, if I.useCache then { c with props := (idx, a) :: c.props } else c)
    | r => (r, c)

/-- state.cc:181-206: `GetPropositionIndex`. -/
def getPropositionIndex (I : StateIndex) (c : IndexCache) (a : Atom) : Res Nat × IndexCache :=
  match (if I.useCache then assoc a.toString c.idxs else none) with
  | some i => (.ok i, c)
  | none =>
    match I.lookupIdx a with
    | .ok i => (.ok i, if I.useCache then { c with idxs := (a.toString, i) :: c.idxs } else c)
    | r => (r, c)

/-- The loop state.cc:214-217 from position `i`. -/
def stateLoop (I : StateIndex) : List Bool → Nat → State → IndexCache → Res State × IndexCache
  | [], _, s, c => (.ok s, c)
  | false :: bs, i, s, c => stateLoop I bs (i + 1) s c
  | true :: bs, i, s, c =>
    match I.getProposition c i with
    | (.ok a, c') => stateLoop I bs (i + 1) (s.insert a).2 c'
    | (.exc e, c') => (.exc e, c')
    | (.ub, c') => (.ub, c')
    | (.fuel, c') => (.fuel, c')

/-- state.cc:209-220: `GetState`. -/
def getState (I : StateIndex) (c : IndexCache) (v : List Bool) : Res State × IndexCache :=
  I.stateLoop v 0 State.empty c

/-- The loop state.cc:226-229. -/
def indexLoop (I : StateIndex) : List Atom → List Bool → IndexCache → Res (List Bool) × IndexCache
  | [], v, c => (.ok v, c)
  | a :: as, v, c =>
    match I.getPropositionIndex c a with
    | (.ok i, c') => if i < v.length then indexLoop I as (v.set i true) c' else (.ub, c')
    | (.exc e, c') => (.exc e, c')
    | (.ub, c') => (.ub, c')
    | (.fuel, c') => (.fuel, c')

/-- state.cc:222-232: `GetIndexedState`. -/
def getIndexedState (I : StateIndex) (c : IndexCache) (s : State) : Res (List Bool) × IndexCache :=
  match I.size with
  | .ok n => I.indexLoop s.elems (List.replicate n false) c
  | .exc e => (.exc e, c)
  | .ub => (.ub, c)
  | .fuel => (.fuel, c)

/-- `for (const Proposition& p : index)` (state.h:272-273, 297-388), from position `i`, with a step budget. -/
def traverse (I : StateIndex) : Nat → Nat → IndexCache → Res (List Atom)
  | 0, _, _ => .fuel
  | n + 1, i, c => do
    let size ← I.size
    if i = size then pure []
    else match I.getProposition c i with
      | (.ok a, c') => do
        let rest ← traverse I n (i + 1) c'
        pure (a :: rest)
      | (.exc e, _) => .exc e
      | (.ub, _) => .ub
      | (.fuel, _) => .fuel

/-- A query of a StateIndex. -/
inductive Query where
  | proposition (i : Nat)
  | index (a : Atom)
  | state (v : List Bool)
  | indexed (s : State)

/-- The answer to a query. -/
inductive Answer where
  | proposition (r : Res Atom)
  | index (r : Res Nat)
  | state (r : Res State)
  | indexed (r : Res (List Bool))

/-- One query: the answer and the caches afterwards. -/
def ask (I : StateIndex) (c : IndexCache) : Query → Answer × IndexCache
  | .proposition i => let r := I.getProposition c i; (.proposition r.1, r.2)
  | .index a => let r := I.getPropositionIndex c a; (.index r.1, r.2)
  | .state v => let r := I.getState c v; (.state r.1, r.2)
  | .indexed s => let r := I.getIndexedState c s; (.indexed r.1, r.2)

/-- A history of queries: the answers and the caches afterwards. -/
def askAll (I : StateIndex) : IndexCache → List Query → List Answer × IndexCache
  | c, [] => ([], c)
  | c, q :: qs =>
    let r := I.ask c q
    let r' := askAll I r.2 qs
    (r.1 :: r'.1, r'.2)

end StateIndex

/-- pddl.cc:261: the StateIndex of a Pddl. -/
def Pddl.stateIndex (P : Pddl) : StateIndex := ⟨P.tree.preds, P.omap, true⟩

end Symbolic
