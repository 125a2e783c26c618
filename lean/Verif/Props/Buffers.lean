import Verif.Lemmas.ActionBuf
import Verif.Lemmas.Construct
import Verif.Examples.Demo

/-!
# C18, C55: argument buffers of actions
-/

namespace Symbolic

/-! ## C18 -/

/-- **C18 (actions).** Applying an action gives the same result as with freshly constructed buffers, whatever actions and
axioms were applied before, to whatever states and arguments, successfully or not. -/
theorem C18_action_history_independent {σ : Type} [StateLike σ] (m : ObjMap) (axs : List Ax) (fuel : Nat)
    (history : List (ActionCall σ)) (c : ActionCall σ) :
    (c.op.run m axs fuel c.id c.args c.state (runCalls m axs fuel history Store.init)).1 =
      (c.op.run m axs fuel c.id c.args c.state Store.init).1 :=
  (Eff.run_det (fireB_det m axs fuel) c.id c.op.eff [] c.op.params (.val c.args) c.state _ _
    (runCalls_inv m axs fuel history BufInv.init) BufInv.init (by simp [Ref.read])).1

/-! ## C55 -/

/-- **C55.** If no axiom can (indirectly) trigger itself, applying an action with its shared buffers gives the result of
passing all arguments by value, after any history.

Missing for the full claim: an axiom that triggers itself overwrites its own arguments (`C55_reentrant_refuted`). -/
theorem C55_by_value_partial {σ : Type} [StateLike σ] (m : ObjMap) (axs : List Ax) (rank : Bool → Name → Nat)
    (hrank : Ranked rank axs) (fuel : Nat) (history : List (ActionCall σ)) (c : ActionCall σ) :
    (c.op.run m axs fuel c.id c.args c.state (runCalls m axs fuel history Store.init)).1 =
      c.op.apply m axs fuel c.args c.state := by
  obtain ⟨R, hR⟩ := Eff.bounded rank c.op.eff
  exact (Eff.run_val (fireB_val hrank fuel) c.id c.op.eff [] c.op.params (.val c.args) c.args c.state trivial hR _
    (runCalls_inv m axs fuel history BufInv.init) rfl).1

namespace Buffers
open Demo
attribute [local instance] lenHash

/-- In the demo domain only `inhand` triggers, and only `on` is changed by the axiom. -/
example : Ranked (fun _ p => if p = n!"inhand" then 1 else 0) P.axioms := by
  intro ax hm sign p ht
  have hB := (Pddl.built P_made).ax hm
  have h1 : ax.op = held := by
    have := hB.1
    simp only [tree, List.mem_cons, List.not_mem_nil, or_false] at this
    rcases this with h | h | h
    · rw [h] at hB; simp [pick] at hB
    · rw [h] at hB; simp [place] at hB
    · exact h
  rw [h1] at ht hB
  have h3 := hB.2.2.1
  simp only [held, contextOf, Res.ok.injEq, Prod.mk.injEq] at h3
  simp only [held, Eff.Touches, FList.Touches, CList.Touches, ListsPred] at ht
  rw [← h3.2.1]
  simp at ht
  rw [ht.2]
  show (0 : Nat) < 1; omega

/-- The buffers do change: after a call they hold its arguments. -/
example : runCalls P.omap P.axioms 5 [⟨7, pick, [a], State.ofList [on a table]⟩] Store.init
    ⟨7, [1, 0], true, n!"inhand", [x], [x], none⟩ = [a] := by decide +kernel

/-- Two equal universal effects, and a conditional one with the same literal. -/
def twice : Op := ⟨n!"twice", [x], .conj [], .mk (.cons [y] (.mk .nil [(n!"on", [.var x, .var y])] [] .nil)
  (.cons [y] (.mk .nil [(n!"on", [.var x, .var y])] [] .nil) .nil)) [] []
  (.cons (.conj []) (.mk .nil [(n!"on", [.var x, .var x])] [] .nil) .nil), false⟩

/-- Every effect has a buffer of its own, also effects that are written alike. -/
theorem buffers_separate :
    let st := runCalls P.omap P.axioms 5 [⟨7, twice, [a], State.ofList [on a table]⟩] Store.init
    (st ⟨7, [0, 0, 1, 0], true, n!"on", [x, y], [x, y], none⟩).head?.map Obj.name = some n!"a" ∧
    (st ⟨7, [0, 1, 1, 0], true, n!"on", [x, y], [x, y], none⟩).head?.map Obj.name = some n!"a" ∧
    (st ⟨7, [3, 0, 1, 0], true, n!"on", [x], [x, x], none⟩).map Obj.name = [n!"a", n!"a"] := by decide +kernel

/-- `(p ?x ?y ?z) => (p ?y ?z ?x)`. -/
def rot : Op := ⟨n!"axiom", [x, y, z], .atom n!"p" [.var x, .var y, .var z],
  .mk .nil [(n!"p", [.var y, .var z, .var x])] [] .nil, true⟩
/-- Adds `p(x, y, z)`. -/
def put : Op := ⟨n!"put", [x, y, z], .conj [], .mk .nil [(n!"p", [.var x, .var y, .var z])] [] .nil, false⟩
def rotTree : Ptree :=
  { tree with ops := [put, rot], drvs := [], preds := [⟨n!"p", [x, y, z]⟩], init := [], goal := .conj [] }

theorem rotMade : (Pddl.make rotTree true 5).isOk = true := by decide +kernel
def rotP : Pddl := get _ rotMade
theorem rotP_made : Pddl.make rotTree true 5 = .ok rotP := get_eq _ _

def p3 (o1 o2 o3 : Obj) : Atom := ⟨n!"p", [o1.name, o2.name, o3.name]⟩

/-- **C55, refuted for axioms that trigger themselves:** applying `put(a, b, a)` with the axiom
`(p ?x ?y ?z) => (p ?y ?z ?x)` adds the three rotations when arguments are passed by value. With the shared buffers, the
axiom overwrites its arguments while copying them, and the atom `p(a, a, a)` appears. -/
theorem C55_reentrant_refuted :
    (put.run rotP.omap rotP.axioms 4 0 [a, b, a] State.empty Store.init).1 =
      .ok (1, State.ofList [p3 a b a, p3 b a a, p3 a a b, p3 a a a]) ∧
    put.apply rotP.omap rotP.axioms 4 [a, b, a] State.empty =
      .ok (1, State.ofList [p3 a b a, p3 b a a, p3 a a b]) := by decide +kernel

end Buffers

end Symbolic
