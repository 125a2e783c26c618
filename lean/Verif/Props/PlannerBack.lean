import Verif.Lemmas.PlannerBack
import Verif.Props.Plans
import Verif.Examples.Demo

/-!
# C82: stepping back over the children of a planner node
-/

namespace Symbolic

section
variable [StrHash]

/-- The first call, in the order of the parameter generators, whose preconditions hold. -/
def FirstValid (P : Pddl) (s : State) (x : Op × List Obj) : Prop :=
  ∃ l r, instances P P.actions = l ++ x :: r ∧ x.1.isValid P.omap s x.2 = .ok true ∧
    ∀ y ∈ l, y.1.isValid P.omap s y.2 = .ok false

theorem firstValid_head {P : Pddl} {fuel : Nat} {parent : PNode} {f : Op × List Obj → Option (PNode × Bool)} :
    ∀ L : List (Op × List Obj), (∀ x ∈ L, P.childOf fuel parent x = .ok (f x)) →
      match (Pddl.valids f L).head? with
      | some c => ∃ l x r, L = l ++ x :: r ∧ x.1.isValid P.omap parent.state x.2 = .ok true ∧
          (∀ y ∈ l, y.1.isValid P.omap parent.state y.2 = .ok false) ∧ P.applyOp fuel x.1 x.2 parent.state = .ok c.state ∧
          c.action = Pddl.callOf x.1 x.2
      | none => ∀ x ∈ L, x.1.isValid P.omap parent.state x.2 = .ok false
  | [], _ => by simp [Pddl.valids]
  | x :: L, hf => by
    have hx := hf x (by simp)
    simp only [Pddl.childOf, Res.bind_eq_ok] at hx
    obtain ⟨v, hv, hx⟩ := hx
    cases v with
    | false =>
      simp only [Bool.false_eq_true, if_false, Res.pure_eq, Res.ok.injEq] at hx
      have e : Pddl.valids f (x :: L) = Pddl.valids f L := by simp [Pddl.valids, ← hx]
      rw [e]
      have ih := firstValid_head L fun y hy => hf y (by simp [hy])
      cases h : (Pddl.valids f L).head? with
      | none =>
        rw [h] at ih
        intro y hy
        rcases List.mem_cons.1 hy with rfl | hy
        · exact hv
        · exact ih y hy
      | some c =>
        rw [h] at ih
        obtain ⟨l, y, r, rfl, h1, h2, h3⟩ := ih
        refine ⟨x :: l, y, r, rfl, h1, ?_, h3⟩
        intro z hz
        rcases List.mem_cons.1 hz with rfl | hz
        · exact hv
        · exact h2 z hz
    | true =>
      simp only [if_true, Res.bind_eq_ok] at hx
      obtain ⟨s, hs, hx⟩ := hx
      simp only [Res.pure_eq, Res.ok.injEq] at hx
      have e : Pddl.valids f (x :: L) = ⟨s, PNode.insert parent.anc parent.state, Pddl.callOf x.1 x.2, parent.depth + 1⟩ :: Pddl.valids f L := by
        simp [Pddl.valids, ← hx]
      rw [e]
      exact ⟨[], x, L, rfl, hv, by simp, hs, rfl⟩

/-- **C82, partial.** Stepping back from `end()` visits the children of a node in the reverse order, and then for ever the node made
for the first valid call (a null node if there is no valid call), whether or not its state is new. Missing: actions without
arguments to enumerate, and parameters other than the first with a single possible argument, for which it is false. -/
theorem C82_backward_partial (t : Ptree) (b : Bool) (n : Nat) (P : Pddl) (hP : Pddl.make t b n = .ok P) (h0 : P.actions ≠ [])
    (hpl : ∀ op ∈ P.actions, paramTypes P.omap op.params ≠ [] ∧ ∀ o ∈ (paramTypes P.omap op.params).tail, 2 ≤ o.length)
    (fuel : Nat) (node : PNode) (cs : List PNode) (hcs : P.children fuel node = .ok cs) :
    ∃ x : Option PNode,
      (∀ k m, (instances P P.actions).length < k →
        P.stepsBack fuel node k m = .ok ((cs.reverse.map some).take m ++ List.replicate (m - cs.length) x)) ∧
      (∀ c, x = some c → ∃ call, FirstValid P node.state call ∧ P.applyOp fuel call.1 call.2 node.state = .ok c.state ∧
        c.action = Pddl.callOf call.1 call.2) ∧
      (x = none → ∀ call ∈ instances P P.actions, call.1.isValid P.omap node.state call.2 = .ok false) := by
  have hm : P.omap.NonEmpty := by
    rw [(Pddl.built hP).omap]; exact ObjMap.nonEmpty_create _
  have hne : ∀ op ∈ P.actions, ∀ o ∈ P.gen op, o ≠ [] := fun op _ => paramTypes_ne hm op.params
  have hPl : P.Plural := fun op hop => ⟨(hpl op hop).1, hne op hop, (hpl op hop).2⟩
  rw [Pddl.children_eq hne h0] at hcs
  obtain ⟨f, hf, rfl⟩ := Pddl.scanAll_childOf hcs
  have hv := firstValid_head _ hf
  refine ⟨(Pddl.valids f (instances P P.actions)).head?, fun k m hk => ?_, ?_, ?_⟩
  · rw [Pddl.stepsBack_spec hPl h0 hf hk m]
    rfl
  · intro c hc
    rw [hc] at hv
    obtain ⟨l, x, r, h1, h2, h3, h4, h5⟩ := hv
    exact ⟨x, ⟨l, r, h1, h2, h3⟩, h4, h5⟩
  · intro hc
    rw [hc] at hv
    exact hv

theorem prevLoop_nullary {P : Pddl} {fuel : Nat} {node : PNode} {op : Op} {ops : List Op} (hg : P.gen op = [])
    (hv : op.isValid P.omap node.state [] = .ok false) : ∀ (k : Nat) (i : Int) (c : Option PNode), i < 0 →
      P.prevLoop fuel node k ⟨op :: ops, ⟨[], i⟩, c⟩ = .fuel
  | 0, _, _, _ => rfl
  | k + 1, i, c, hi => by
    have hn : ¬ i = 0 := by omega
    have e : Comb.advance Obj.dflt (P.gen op) ⟨[], i⟩ (-1) = .ok ⟨[], i + -1⟩ := by
      have h1 : ¬ i = i + -1 := by omega
      have h2 : Comb.outside ([] : List (List Obj)) (i + -1) = true := by simp [Comb.outside]; omega
      simp only [Comb.advance, Comb.moveTo, hg, if_neg h1, h2, if_true]
    simp only [Pddl.prevLoop, hn, and_false, if_false, e, Res.bind_ok, Res.pure_eq, Pddl.tryChild, hv, Bool.false_eq_true]
    exact prevLoop_nullary hg hv k (i + -1) c (by omega)

/-- **C82, refuted** for actions without parameters: if the last action of the domain has none (or none of its calls is
type-correct) and its precondition is false, the first step back never returns. -/
theorem C82_nullary_hangs_refuted (P : Pddl) (pre : List Op) (op : Op) (ha : P.actions = pre ++ [op])
    (hg : paramTypes P.omap op.params = []) (fuel : Nat) (node : PNode) (hv : op.isValid P.omap node.state [] = .ok false)
    (hne : ∀ op ∈ P.actions, ∀ o ∈ paramTypes P.omap op.params, o ≠ []) (k m : Nat) :
    P.stepsBack fuel node k (m + 1) = .fuel := by
  have hg' : P.gen op = [] := hg
  unfold Pddl.stepsBack
  obtain ⟨b, hb⟩ : ∃ b, P.nodeEnd = .ok ⟨[], b, none⟩ := by
    unfold Pddl.nodeEnd
    cases hc : P.actions with
    | nil => rw [ha] at hc; simp at hc
    | cons op' ops =>
      rcases Pddl.begin_tuples (options := P.gen op') (hne op' (by rw [hc]; simp)) with ⟨_, c, hb⟩ | ⟨_, c, _, hb⟩
      · exact ⟨⟨c, 0⟩, by simp [hb]⟩
      · exact ⟨⟨c, 0⟩, by simp [hb]⟩
  rw [hb]
  have hd : P.actions.drop (P.actions.length - 0 - 1) = [op] := by
    rw [ha]; simp
  simp only [Res.bind_ok, Pddl.nodeBackLoop, Pddl.nodePrev, Pddl.prevAction, List.length_nil, hd, hg']
  have e1 : Comb.endIt Obj.dflt ([] : List (List Obj)) = .ok ⟨[], 0⟩ := rfl
  have e2 : Comb.advance Obj.dflt ([] : List (List Obj)) ⟨[], 0⟩ (-1) = .ok ⟨[], -1⟩ := by decide
  simp only [e1, Res.bind_ok, e2, Res.pure_eq, Pddl.tryChild, hv, Bool.false_eq_true, if_false]
  rw [prevLoop_nullary hg' hv k (-1) none (by omega)]
  rfl

/-- **C82.** In a domain without actions neither the first child nor the end may be asked for. -/
theorem C82_no_actions_refuted (P : Pddl) (h : P.actions = []) (fuel : Nat) (parent : PNode) :
    P.children fuel parent = .ub ∧ ∀ k m, P.stepsBack fuel parent k m = .ub := by
  constructor
  · unfold Pddl.children Pddl.nodeBegin
    rw [h]; rfl
  · intro k m
    unfold Pddl.stepsBack Pddl.nodeEnd
    rw [h]; rfl

end

/-! ## Examples and refutations -/

section
open Demo
attribute [local instance] lenHash

def demoRoot : PNode := PNode.root P.initial

theorem demoKidsMade : (P.children 5 demoRoot).isOk = true := by decide +kernel

/-- The hypotheses of `C82_backward_partial` hold for the demo domain, and its root has two children. -/
example : P.actions ≠ [] ∧
    (∀ op ∈ P.actions, paramTypes P.omap op.params ≠ [] ∧ ∀ o ∈ (paramTypes P.omap op.params).tail, 2 ≤ o.length) := by
  decide +kernel

example : ((get _ demoKidsMade).map PNode.action) = [n!"pick(a)", n!"pick(b)"] := by decide +kernel

/-- The calls by which the visited nodes are reached. -/
def visitedCalls : Res (List (Option PNode)) → Res (List (Option Name))
  | .ok l => .ok (l.map (Option.map PNode.action))
  | .exc e => .exc e
  | .ub => .ub
  | .fuel => .fuel

/-- Three steps back: the two children, then the first one again. -/
example : visitedCalls (P.stepsBack 5 demoRoot 20 3) = .ok [some n!"pick(b)", some n!"pick(a)", some n!"pick(a)"] := by decide +kernel

/-- The calls by which the children are reached. -/
def kidCalls : Res (List PNode) → Res (List Name)
  | .ok l => .ok (l.map PNode.action)
  | .exc e => .exc e
  | .ub => .ub
  | .fuel => .fuel

def tRobot : List Name := [n!"robot", n!"object"]
def robot : Obj := ⟨n!"r", tRobot⟩
def w : Obj := ⟨n!"w", tRobot⟩

/-- `give(?x - box, ?w - robot)`, always possible. -/
def give : Op := ⟨n!"give", [x, w], .conj [], .mk .nil [(n!"on", [.var x, .var w])] [] .nil, false⟩
def soloTree : Ptree := { tree with types := some [tBox, tRobot, tObj], objects := [a, b, robot], ops := [give] }
theorem soloMade : (Pddl.make soloTree true 5).isOk = true := by decide +kernel
def soloP : Pddl := get _ soloMade

/-- **C82, refuted** for a parameter with a single possible argument: with one robot, stepping back calls the action with a
default-constructed object in its place. -/
theorem C82_single_refuted :
    kidCalls (soloP.children 5 (PNode.root soloP.initial)) = .ok [n!"give(a, r)", n!"give(b, r)"] ∧
      visitedCalls (soloP.stepsBack 5 (PNode.root soloP.initial) 20 2) = .ok [some n!"give(b, )", some n!"give(a, )"] := by
  constructor <;> decide +kernel

/-- **C82, refuted** for a valid action without parameters: stepping forward never visits it, stepping back visits nothing else. -/
theorem C82_nullary_refuted :
    kidCalls (resetP.children 5 (PNode.root resetP.initial)) = .ok [] ∧
      visitedCalls (resetP.stepsBack 5 (PNode.root resetP.initial) 20 3) = .ok [some n!"reset()", some n!"reset()", some n!"reset()"] := by
  constructor <;> decide +kernel

/-- An action without parameters that is not possible. -/
def stuckTree : Ptree := { tree with ops := tree.ops ++ [⟨n!"idle", [], .disj [], .mk .nil [] [] .nil, false⟩] }
theorem stuckMade : (Pddl.make stuckTree true 5).isOk = true := by decide +kernel
def stuckP : Pddl := get _ stuckMade

/-- The hypotheses of `C82_nullary_hangs_refuted`. -/
example : ∀ k m, stuckP.stepsBack 5 (PNode.root stuckP.initial) k (m + 1) = .fuel :=
  C82_nullary_hangs_refuted stuckP [pick, place] ⟨n!"idle", [], .disj [], .mk .nil [] [] .nil, false⟩
    (by rw [(Pddl.built (P := stuckP) (get_eq _ stuckMade)).actions]; rfl) (by decide +kernel) 5 _ (by decide +kernel) (by decide +kernel)

end

end Symbolic
