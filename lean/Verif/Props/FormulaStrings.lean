import Verif.Lemmas.FormulaString
import Verif.Examples.Demo

/-!
# C54: strings of formulas
-/

namespace Symbolic

/-- **C54.** The string of a formula without quantifiers reads back as the same formula, if the reader resolves every
argument by the name that the library prints.

Missing for the full claim: quantified formulas (`C54_quantified_refuted`), and a PDDL reader only resolves the names of
objects that way: variables are printed without their question mark (`C54_variable_refuted`). -/
theorem C54_round_trip_partial (S : Symbols) (F : Formula) (h : F.goal.Writable S) :
    readPddl S F.toString = some F.goal := readPddl_str F.goal F.params h

/-- **C54, PDDL readers.** The string of a formula without quantifiers and without variables reads back as the same
formula in every PDDL reader that knows its objects. -/
theorem C54_ground_partial (objects params : List Obj) (type : Name → Option (List Name)) (F : Formula)
    (hq : ∀ o ∈ objects, o.name.head? ≠ some '?')
    (h : F.goal.Writable ⟨fun w => (objects.find? (fun o => decide (o.name = w))).map .const, type⟩) :
    readPddl (Symbols.pddl objects params type) F.toString = some F.goal := by
  refine readPddl_str F.goal F.params (Goal.Writable.mono ?_ F.goal h)
  intro w t ht
  simp only at ht
  rw [← ht]
  simp only [Symbols.pddl]
  split
  · rename_i v
    simp only [Option.map_eq_some_iff] at ht
    obtain ⟨o, ho, -⟩ := ht
    have h1 := List.find?_some ho
    simp only [decide_eq_true_eq] at h1
    have h2 := hq o (List.mem_of_find?_eq_some ho)
    rw [h1] at h2
    simp at h2
  · rfl

/-- **C54, refuted for quantifiers:** no string of a formula with a quantifier anywhere in it can be read, whatever the
symbols mean: the stream overwrites the `(forall (` it was constructed with, and closing brackets are left over. -/
theorem C54_quantified_refuted (S : Symbols) (F : Formula) (hq : F.goal.Quantified) (hn : F.goal.Named)
    (hp : ∀ o ∈ F.params, NoBracket o.name ∧ NoBracket o.typeName) : readPddl S F.toString = none := by
  cases h : readPddl S F.toString with
  | none => rfl
  | some g =>
    have h1 := readPddl_balance h
    have h2 := (balance_str F.goal F.params hn hp).2 hq
    simp only [Formula.toString] at h1
    omega

namespace FormulaStrings
open Demo

def types (t : Name) : Option (List Name) := [tBox, tObj].find? (fun l => decide (l.head? = some t))

/-- The reader reads quantifiers. -/
example : ∃ g, readPddl (Symbols.pddl [table, a, b] [x] types)
    n!"(forall (?u - box) (not (on ?u ?x)))" = some g ∧ g.Quantified := ⟨_, rfl, trivial⟩

/-- The goal of the demo problem. -/
example : (⟨.conj [.atom n!"on" [.const a, .const b], .neg (.atom n!"inhand" [.const b])], [], []⟩ : Formula).toString =
    n!"(and (on a b) (not (inhand b)))" := by decide

example : (.conj [.atom n!"on" [.const a, .const b], .neg (.atom n!"inhand" [.const b])] : Goal).Writable
    ⟨fun w => ([table, a, b].find? (fun o => decide (o.name = w))).map .const, types⟩ := by
  simp only [Goal.Writable, Goal.WritableAll, and_true]
  refine ⟨⟨⟨by decide, by decide⟩, by decide, ?_⟩, ⟨⟨by decide, by decide⟩, by decide, ?_⟩⟩
  · intro t ht
    simp only [List.mem_cons, List.not_mem_nil, or_false] at ht
    rcases ht with rfl | rfl <;> exact ⟨⟨by decide, by decide⟩, by decide⟩
  · intro t ht
    simp only [List.mem_cons, List.not_mem_nil, or_false] at ht
    rcases ht with rfl; exact ⟨⟨by decide, by decide⟩, by decide⟩

/-- The precondition of `pick` prints with two brackets too many, and with `?x` instead of `?u`. -/
example : (⟨pick.pre, [x], []⟩ : Formula).toString =
    n!"(and (not (inhand x)) ?x - box)\n(not (on u x))\n))" := by decide

/-- Inside of an action with two parameters. -/
example : (⟨.all [u] (.atom n!"on" [.var u, .var x]), [x, y], []⟩ : Formula).toString =
    n!"?x - box ?y - object)\n(on u x)\n)" := by decide

example : pick.pre.Quantified ∧ pick.pre.Named := by
  simp [pick, Goal.Quantified, Goal.QuantifiedAny, Goal.Named, Goal.NamedAll, NoBracket, Term.obj, x, u, Obj.typeName, tBox]

/-- **C54, refuted for variables:** `(inhand ?x)` prints as `(inhand x)`, which a PDDL reader rejects, or takes to be
about an object `x` if there is one. -/
theorem C54_variable_refuted :
    (⟨.atom n!"inhand" [.var x], [x], []⟩ : Formula).toString = n!"(inhand x)" ∧
    (readPddl (Symbols.pddl [table, a, b] [x] types) n!"(inhand x)").isSome = false ∧
    ∃ c : Obj, readPddl (Symbols.pddl [table, a, b, c] [x] types) n!"(inhand x)" =
      some (.atom n!"inhand" [.const c]) :=
  ⟨by decide, by decide, ⟨n!"x", tBox⟩, rfl⟩

end FormulaStrings

end Symbolic
