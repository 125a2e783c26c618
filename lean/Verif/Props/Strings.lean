import Verif.Lemmas.ParseAction
import Verif.Examples.Demo

/-!
# C13-C15: strings of propositions, states and action calls
-/

namespace Symbolic

/-- A proposition that can be printed and read back over the object table: the predicate name has no `(`,
the argument names are non-empty, contain no separator, and are declared. PDDL names (letters, digits, `-`, `_`)
always qualify. -/
def Printable (table : List Obj) (a : Atom) : Prop :=
  CleanHead a.pred ∧ ∀ n ∈ a.args, CleanArg n ∧ n ∈ table.map Obj.name

/-- **C13.** Parsing the string of a proposition gives back that proposition. -/
theorem C13_proposition_round_trip (table : List Obj) (a : Atom) (h : Printable table a) :
    parseAtom table a.toString = .ok a :=
  parseAtom_toString table a h.1 h.2

/-- **C13.** Different propositions have different strings. -/
theorem C13_strings_injective (a b : Atom) (ha : CleanHead a.pred ∧ ∀ n ∈ a.args, CleanArg n)
    (hb : CleanHead b.pred ∧ ∀ n ∈ b.args, CleanArg n) (h : a.toString = b.toString) : a = b := by
  have h1 := callShape_callString a.pred a.args ha.1 ha.2
  have h2 := callShape_callString b.pred b.args hb.1 hb.2
  have e : callString a.pred a.args = callString b.pred b.args := h
  rw [e] at h1
  have hp : a.pred = b.pred := h1.head_eq.symm.trans h2.head_eq
  have hargs : a.args = b.args := h1.words_eq.symm.trans h2.words_eq
  cases a; cases b; simp_all

/-- **C13.** Rebuilding a state from its strings, listed in any order and with any repetitions, gives an equal
state. -/
theorem C13_state_round_trip [StrHash] (table : List Obj) (s : State) (hs : ∀ a ∈ s, Printable table a)
    (strings : List Name) (hset : ∀ x, x ∈ strings ↔ x ∈ s.stringify) :
    parseState table strings = .ok s := by
  have hex : ∀ l : List Name, (∀ x ∈ l, x ∈ s.stringify) →
      ∃ atoms : List Atom, List.Forall₂ (fun str a => parseAtom table str = .ok a) l atoms ∧
        (∀ a ∈ atoms, a ∈ s) ∧ ∀ str ∈ l, ∃ a ∈ atoms, a.toString = str := by
    intro l
    induction l with
    | nil => intro _; exact ⟨[], .nil, by simp, by simp⟩
    | cons str l ih =>
      intro h
      obtain ⟨atoms, h1, h2, h3⟩ := ih (fun x hx => h x (by simp [hx]))
      obtain ⟨a, ha, rfl⟩ := List.mem_map.1 (h str (by simp))
      have ha := State.mem_elems.1 ha
      refine ⟨a :: atoms, .cons (C13_proposition_round_trip table a (hs a ha)) h1, ?_, ?_⟩
      · simp only [List.mem_cons, forall_eq_or_imp]; exact ⟨ha, h2⟩
      · intro str hstr
        rcases List.mem_cons.1 hstr with rfl | hstr
        · exact ⟨a, by simp, rfl⟩
        · obtain ⟨b, hb, e⟩ := h3 str hstr
          exact ⟨b, by simp [hb], e⟩
  obtain ⟨atoms, h1, h2, h3⟩ := hex strings (fun x hx => (hset x).1 hx)
  obtain ⟨s', h4, h5⟩ := insertParsed_spec table strings atoms State.empty h1
  rw [parseState, h4]
  congr 1
  apply State.ext
  intro x
  rw [h5]
  constructor
  · rintro (hx | hx)
    · exact h2 x hx
    · exact absurd hx (State.not_mem_empty x)
  · intro hx
    left
    obtain ⟨b, hb, e⟩ := h3 x.toString ((hset _).2 (List.mem_map_of_mem (State.mem_elems.2 hx)))
    have hb' := hs b (h2 b hb)
    have hx' := hs x hx
    have := C13_strings_injective b x ⟨hb'.1, fun n hn => (hb'.2 n hn).1⟩ ⟨hx'.1, fun n hn => (hx'.2 n hn).1⟩ e
    exact this ▸ hb

/-- **C14.** The string of an action call parses back to that action and those arguments. -/
theorem C14_action_round_trip [StrHash] (t : Ptree) (b : Bool) (fuel : Nat) (P : Pddl)
    (hP : Pddl.make t b fuel = .ok P) (op : Op) (args : List Obj) (hop : NamedOp t.ops op.name op)
    (hargs : WellTyped (t.constants ++ t.objects) op.params args)
    (huniq : ((t.constants ++ t.objects).map Obj.name).Nodup)
    (hclean : CleanHead op.name ∧ ∀ o ∈ args, CleanArg o.name) :
    P.parseAction (Pddl.callOf op args) = .ok (op, args) := by
  have B := Pddl.built hP
  have hs := callShape_callString op.name (args.map Obj.name) hclean.1 (by
    intro w hw
    obtain ⟨o, ho, rfl⟩ := List.mem_map.1 hw
    exact hclean.2 o ho)
  have hnames : List.Forall₂ (Named P.symbols) (args.map Obj.name) args := by
    have : ∀ o ∈ args, o ∈ P.symbols := by
      intro o ho
      rw [Pddl.symbols, B.tree]
      exact (WellTyped.mem hargs ho).1
    have hu : (P.symbols.map Obj.name).Nodup := by rw [Pddl.symbols, B.tree]; exact huniq
    clear hs hclean hargs
    induction args with
    | nil => exact .nil
    | cons o os ih =>
      exact .cons (named_self hu (this o (by simp))) (ih (fun o ho => this o (by simp [ho])))
  have htypes : List.Forall₂ (fun p a => HasType a p.typeName) op.params args := hargs.imp (fun _ _ h => h.2)
  rcases parseAction_cases P (by rw [B.tree]; exact B.ops) _ _ _ hs with ⟨op', args', h1, h2, h3, h4⟩ | ⟨-, h⟩
  · rw [Pddl.callOf, h1]
    rw [B.tree] at h2
    have e1 := (getOp_ok P op.name op).2 (by rw [B.tree]; exact hop)
    have e2 := (getOp_ok P op.name op').2 (by rw [B.tree]; exact h2)
    rw [e1] at e2; cases e2
    have e3 := (lookupAll_ok _ _ _).2 hnames
    have e4 := (lookupAll_ok _ _ _).2 h3
    rw [e3] at e4; cases e4
    rfl
  · exact absurd ⟨op, args, by rw [B.tree]; exact hop, hnames, htypes⟩ h

/-- **C15.** `Action::Parse` on an arbitrary string, for any constructed Pddl: it returns operator `op` with arguments
`args` iff the text before the first `(` is the name of `op` (the first operator so called), the argument words name
`args` (the first objects so called), and `args` have the number and types of the parameters. -/
theorem C15_parse_accepts_exactly [StrHash] (t : Ptree) (b : Bool) (fuel : Nat) (P : Pddl)
    (hP : Pddl.make t b fuel = .ok P) (s : Name) (op : Op) (args : List Obj) :
    P.parseAction s = .ok (op, args) ↔
      ∃ head ws, CallShape s head ws ∧ NamedOp t.ops head op ∧
        List.Forall₂ (Named (t.constants ++ t.objects)) ws args ∧
        List.Forall₂ (fun p a => HasType a p.typeName) op.params args := by
  have B := Pddl.built hP
  have hsym : P.symbols = t.constants ++ t.objects := by rw [Pddl.symbols, B.tree]
  obtain ⟨head, ws, hs⟩ := callShape_exists s
  have H := parseAction_cases P (by rw [B.tree]; exact B.ops) _ _ _ hs
  rw [hsym, B.tree] at H
  constructor
  · intro h
    rcases H with ⟨op', args', h1, h2, h3, h4⟩ | ⟨⟨e, h1⟩, -⟩
    · rw [h] at h1; cases h1
      exact ⟨head, ws, hs, h2, h3, h4⟩
    · rw [h] at h1; cases h1
  · rintro ⟨head', ws', hs', h2, h3, h4⟩
    have e1 : head' = head := by rw [← hs'.head_eq, ← hs.head_eq]
    have e2 : ws' = ws := by rw [← hs'.words_eq, ← hs.words_eq]
    subst e1 e2
    rcases H with ⟨op', args', h1, g2, g3, g4⟩ | ⟨-, h⟩
    · rw [h1]
      have a1 := (getOp_ok P head' op).2 (by rw [B.tree]; exact h2)
      have a2 := (getOp_ok P head' op').2 (by rw [B.tree]; exact g2)
      rw [a1] at a2; cases a2
      have a3 := (lookupAll_ok _ _ _).2 h3
      have a4 := (lookupAll_ok _ _ _).2 g3
      rw [a3] at a4; cases a4
      rfl
    · exact absurd ⟨op, args, h2, h3, h4⟩ h

/-- **C15.** On every other string it throws: it never has undefined behaviour and never fails to return. -/
theorem C15_parse_total [StrHash] (t : Ptree) (b : Bool) (fuel : Nat) (P : Pddl)
    (hP : Pddl.make t b fuel = .ok P) (s : Name) :
    (∃ r, P.parseAction s = .ok r) ∨ ∃ e, P.parseAction s = .exc e := by
  have B := Pddl.built hP
  obtain ⟨head, ws, hs⟩ := callShape_exists s
  rcases parseAction_cases P (by rw [B.tree]; exact B.ops) _ _ _ hs with ⟨op', args', h1, -⟩ | ⟨h, -⟩
  · exact Or.inl ⟨_, h1⟩
  · exact Or.inr h

/-! ## Concrete cases -/

section
open Demo
attribute [local instance] lenHash

example : Printable tree.objects (on a b) := by
  refine ⟨by simp [CleanHead, on], ?_⟩
  intro n hn
  simp only [on, a, b, List.mem_cons, List.not_mem_nil, or_false] at hn
  rcases hn with rfl | rfl
  · exact ⟨⟨by decide, by simp [IsSep]⟩, by decide⟩
  · exact ⟨⟨by decide, by simp [IsSep]⟩, by decide⟩

example : (on a b).toString = n!"on(a, b)" := by decide

example : Pddl.make tree true 5 = .ok P ∧ NamedOp tree.ops place.name place ∧
    WellTyped (tree.constants ++ tree.objects) place.params [a, table] ∧
    ((tree.constants ++ tree.objects).map Obj.name).Nodup ∧ CleanHead place.name ∧
    ∀ o ∈ [a, table], CleanArg o.name := by
  refine ⟨P_made, ⟨[pick], [held], rfl, rfl, by simp [pick, place]⟩, ?_, by decide, by simp [CleanHead, place], ?_⟩
  · exact .cons ⟨by decide, Or.inr (by decide)⟩ (.cons ⟨by decide, Or.inl (by decide)⟩ .nil)
  · intro o ho
    simp only [List.mem_cons, List.not_mem_nil, or_false] at ho
    rcases ho with rfl | rfl
    · exact ⟨by decide, by simp [a, IsSep]⟩
    · exact ⟨by decide, by simp [table, IsSep]⟩

/-- A call with odd spacing is read; one with a wrong type, a wrong count or a missing operator is rejected. -/
example : CallShape n!"place( a,b )x" n!"place" [n!"a", n!"b"] :=
  ⟨n!" a,b )x", n!" a,b ", Or.inl ⟨rfl, by decide⟩, Or.inl ⟨n!"x", rfl, by decide⟩,
    Words.word n!" " n!"a" n!",b " _ (by simp [IsSep]) (by decide) (by simp [IsSep]) (by simp [IsSep])
      (Words.word n!"," n!"b" n!" " _ (by simp [IsSep]) (by decide) (by simp [IsSep]) (by simp [IsSep])
        (Words.done _ (by simp [IsSep])))⟩

example : P.parseAction n!"place(table, a)" = .exc .invalidArgument ∧ P.parseAction n!"pick" = .exc .runtimeError ∧
    P.parseAction n!"pick(a, b)" = .exc .invalidArgument := by
  refine ⟨?_, ?_, ?_⟩ <;> rfl

end

end Symbolic
