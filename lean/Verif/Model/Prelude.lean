/-!
# Outcomes and names

`Res` is the outcome of a C++ call: a value, a thrown exception, undefined behaviour (in a release
build, where `assert` is compiled out: CMakeLists.txt sets the default build type to Release), or
"the recursion budget ran out".
-/

namespace Symbolic

/-- C++ exception kinds thrown by the library. -/
inductive Exc where
  /-- `PartialState::UnknownEvaluation` (state.h, state.cc:86,91) -/
  | unknownEvaluation
  /-- `std::runtime_error` -/
  | runtimeError
  /-- `std::out_of_range` -/
  | outOfRange
  /-- `std::invalid_argument` -/
  | invalidArgument
  /-- `std::domain_error` -/
  | domainError
  /-- `std::bad_function_call` -/
  | badFunctionCall
  deriving DecidableEq, Repr

/-- Outcome of a call. -/
inductive Res (α : Type u) where
  | ok (a : α)
  | exc (e : Exc)
  | ub
  | fuel
  deriving DecidableEq, Repr

namespace Res

/-- Sequencing: exceptions, undefined behaviour and running out of budget propagate. -/
def bind (x : Res α) (f : α → Res β) : Res β :=
  match x with
  | ok a => f a
  | exc e => exc e
  | ub => ub
  | fuel => fuel

instance : Monad Res where
  pure := Res.ok
  bind := Res.bind

/-- Vector indexing `v[i]` without bounds check: undefined behaviour when out of bounds. -/
def index (v : List α) (i : Nat) : Res α :=
  match v[i]? with
  | some a => ok a
  | none => ub

/-- The call returned normally. -/
def isOk : Res α → Bool
  | ok _ => true
  | _ => false

end Res

/-- `std::string` as a list of characters. -/
abbrev Name := List Char

/-- `n!"abc"` is the `Name` with these characters. -/
macro:max "n!" s:str : term => do
  let cs := s.getString.toList.map (fun c => Lean.Syntax.mkCharLit c)
  `(([$(cs.toArray),*] : Symbolic.Name))

/-- `std::hash<std::string>`: an arbitrary function into 64 bit integers. -/
class StrHash where
  hash : Name → UInt64

end Symbolic
