import Verif.Spec.Cascade

/-!
# Specification: what follows from known facts by axioms

An axiom is a rule: if its context is a known fact, its consequences are known facts.
-/

namespace Symbolic

/-- The literals that follow from the atoms known to be true and the atoms known to be false, by instances of axioms whose
effects have no conditions. -/
inductive Ptree.Follows (t : Ptree) (true? false? : Atom → Prop) : Bool → Atom → Prop
  | isTrue {x : Atom} : true? x → Follows t true? false? true x
  | isFalse {x : Atom} : false? x → Follows t true? false? false x
  | rule {ax : Op} {as : List Obj} {x : Atom} {sign : Bool} {y : Atom} : ax ∈ t.ops → ax.isAxiom = true →
      Follows t true? false? ax.ctxSign x → ax.ContextIs (t.constants ++ t.objects) as x →
      Makes (t.constants ++ t.objects) (fun _ => False) sign (Env.none.bind ax.params as) ax.eff y →
      Follows t true? false? sign y

/-- Nothing follows together with its opposite. -/
def Ptree.Coherent (t : Ptree) (true? false? : Atom → Prop) : Prop :=
  ∀ x, t.Follows true? false? true x → ¬ t.Follows true? false? false x

/-- The context of every axiom is about a predicate that is neither `=` nor a type, and mentions declared constants only; the
effects of axioms have no conditions. -/
def Ptree.RulesOnly (t : Ptree) : Prop :=
  ∀ ax ∈ t.ops, ax.isAxiom = true → ax.ctxPred ≠ n!"=" ∧ ¬ IsType (t.constants ++ t.objects) ax.ctxPred ∧
    (∀ c, ax.pre.HasConst c → c ∈ t.constants ++ t.objects) ∧ ax.eff.NoCond

end Symbolic
