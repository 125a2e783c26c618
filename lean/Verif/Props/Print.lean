import Verif.Lemmas.Print
import Verif.Examples.Demo

/-!
# C77: printed states, normal forms, axioms and nodes
-/

namespace Symbolic

/-- **C77.** Two states are printed alike iff they contain the same propositions, also if the strings were hashed differently
(in another process or with another standard library). -/
theorem C77_state (h₁ h₂ : StrHash) (s : @State h₁) (t : @State h₂) (hs : ∀ a, @State.contains h₁ s a = true → a.PlainText)
    (ht : ∀ a, @State.contains h₂ t a = true → a.PlainText) :
    @State.print h₁ s = @State.print h₂ t ↔ ∀ a, @State.contains h₁ s a = true ↔ @State.contains h₂ t a = true := by
  have ms : ∀ a, a ∈ @State.elems h₁ s ↔ @State.contains h₁ s a = true := fun a => @State.mem_elems h₁ s a
  have mt : ∀ a, a ∈ @State.elems h₂ t ↔ @State.contains h₂ t a = true := fun a => @State.mem_elems h₂ t a
  rw [@State.print_eq h₁, @State.print_eq h₂, printAtoms_eq (@State.elems_nodup h₁ s) (@State.elems_nodup h₂ t)
    (fun a ha => hs a ((ms a).1 ha)) (fun a ha => ht a ((mt a).1 ha))]
  simp only [ms, mt]

section
variable [StrHash]

/-- **C77.** Two partial states are printed alike iff they are equal. -/
theorem C77_partial_state (s t : PartialState) (hs : s.Plain) (ht : t.Plain) : s.print = t.print ↔ s = t := by
  refine ⟨fun h => ?_, fun h => by rw [h]⟩
  simp only [PartialState.print, List.append_assoc, List.append_cancel_left_eq] at h
  obtain ⟨h1, h2, -⟩ := printConj_append (pre := n!"\t") (tail := n!")\n") (r := []) (r' := []) (by simp) (by simp)
    (fun a ha => hs.1 a (State.mem_elems.1 ha)) (fun a ha => ht.1 a (State.mem_elems.1 ha))
    (fun a ha => hs.2 a (State.mem_elems.1 ha)) (fun a ha => ht.2 a (State.mem_elems.1 ha)) (by simpa using h)
  exact PartialState.Plain.eq h1 h2

/-- **C77.** Two normal forms are printed alike iff they have the same conjunctions in the same order. -/
theorem C77_normal_form (d d' : Dnf) (h : ∀ s ∈ d, s.Plain) (h' : ∀ s ∈ d', s.Plain) :
    Dnf.print d = Dnf.print d' ↔ d = d' := by
  refine ⟨fun e => ?_, fun e => by rw [e]⟩
  simp only [Dnf.print, List.append_assoc, List.append_cancel_left_eq] at e
  exact (Dnf.print_append (r := []) (r' := []) h h' (by simpa using e)).1

/-- **C77.** Two ConjunctiveFormulas are printed alike iff they have the same disjunctions in the same order, and no
ConjunctiveFormula is printed like a DisjunctiveFormula. -/
theorem C77_conjunctive (d d' : List PartialState) (h : ∀ s ∈ d, s.Plain) (h' : ∀ s ∈ d', s.Plain) :
    (printCnf d = printCnf d' ↔ d = d') ∧ ∀ e : Dnf, printCnf d ≠ Dnf.print e := by
  refine ⟨⟨fun e => ?_, fun e => by rw [e]⟩, fun e he => by simp [printCnf, Dnf.print] at he⟩
  simp only [printCnf, List.append_assoc, List.append_cancel_left_eq] at e
  exact (printCnf_append (r := []) (r' := []) h h' (by simpa using e)).1

omit [StrHash] in
/-- **C77.** Two actions are printed alike iff they have the same name and the same names of parameters; so are predicates. -/
theorem C77_action (op op' : Op) (d d' : PredDecl) (hn : CleanHead op.name) (hn' : CleanHead op'.name)
    (hp : ∀ o ∈ op.params ++ op'.params, CleanArg o.name) (hd : CleanHead d.name) (hd' : CleanHead d'.name)
    (hq : ∀ o ∈ d.params ++ d'.params, CleanArg o.name) :
    (op.print = op'.print ↔ op.name = op'.name ∧ op.params.map Obj.name = op'.params.map Obj.name) ∧
      (d.print = d'.print ↔ d.name = d'.name ∧ d.params.map Obj.name = d'.params.map Obj.name) := by
  have key : ∀ (m m' : Name) (l l' : List Obj), CleanHead m → CleanHead m' → (∀ o ∈ l ++ l', CleanArg o.name) →
      (callString m (l.map Obj.name) = callString m' (l'.map Obj.name) ↔ m = m' ∧ l.map Obj.name = l'.map Obj.name) := by
    intro m m' l l' h1 h2 h3
    refine ⟨fun e => ?_, fun e => by rw [e.1, e.2]⟩
    have w1 := callShape_callString m (l.map Obj.name) h1 (fun n hn => by
      obtain ⟨o, ho, rfl⟩ := List.mem_map.1 hn
      exact h3 o (by simp [ho]))
    have w2 := callShape_callString m' (l'.map Obj.name) h2 (fun n hn => by
      obtain ⟨o, ho, rfl⟩ := List.mem_map.1 hn
      exact h3 o (by simp [ho]))
    exact ⟨by rw [← w1.head_eq, ← w2.head_eq, e], by rw [← w1.words_eq, ← w2.words_eq, e]⟩
  exact ⟨key _ _ _ _ hn hn' hp, key _ _ _ _ hd hd' hq⟩

/-- **C77.** An axiom can be printed iff it could be constructed (see C67), and the text determines the names of its
parameters and the normal forms of both sides, if these exist. -/
theorem C77_axiom (c : NfCtx) (op : Op) :
    ((∃ t, Axm.print c op = .ok t) ↔ stringify c op = .ok ()) ∧
    ∀ (op' : Op) (d e d' e' : Dnf),
      op.pre.dnf { c with vars := op.params } op.params op.params = .ok (some d) →
      op.eff.dnf { c with vars := op.params } op.params op.params = .ok (some e) →
      op'.pre.dnf { c with vars := op'.params } op'.params op'.params = .ok (some d') →
      op'.eff.dnf { c with vars := op'.params } op'.params op'.params = .ok (some e') →
      (∀ s ∈ d ++ e ++ d' ++ e', s.Plain) → (∀ o ∈ op.params ++ op'.params, PlainName o.name) →
      (Axm.print c op = Axm.print c op' ↔ op.params.map Obj.name = op'.params.map Obj.name ∧ d = d' ∧ e = e') := by
  constructor
  · have key : ∀ r : Res (Option Dnf), (∃ t, printedText r = .ok t) ↔ printed r = .ok () := by
      intro r
      unfold printedText printed
      split <;> simp
    simp only [Axm.print, stringifyText, stringify, Res.bind_eq_ok, Res.pure_eq, Res.ok.injEq]
    constructor
    · rintro ⟨_, _, ⟨p, hp, e, he, _⟩, _⟩
      exact ⟨(), (key _).1 ⟨p, hp⟩, (key _).1 ⟨e, he⟩⟩
    · rintro ⟨_, hp, he⟩
      obtain ⟨p, hp⟩ := (key _).2 hp
      obtain ⟨e, he⟩ := (key _).2 he
      exact ⟨_, _, ⟨p, hp, e, he, rfl⟩, rfl⟩
  · intro op' d e d' e' h1 h2 h3 h4 hd hp
    have plain : ∀ x : Dnf, (∀ s ∈ x, s ∈ d ++ e ++ d' ++ e') → ∀ s ∈ x, s.Plain := fun x hx s hs => hd s (hx s hs)
    have e1 := plain d (by simp; tauto)
    have e2 := plain e (by simp; tauto)
    have e3 := plain d' (by simp; tauto)
    have e4 := plain e' (by simp; tauto)
    simp only [Axm.print, stringifyText, h1, h2, h3, h4, printedText, Res.bind_ok, Res.pure_eq, Res.ok.injEq]
    refine ⟨fun h => ?_, fun ⟨q1, q2, q3⟩ => by rw [q1, q2, q3]⟩
    simp only [List.append_assoc, List.append_cancel_left_eq] at h
    have p1 : ∀ n ∈ op.params.map Obj.name, PlainName n := by
      intro n hn
      obtain ⟨o, ho, rfl⟩ := List.mem_map.1 hn
      exact hp o (by simp [ho])
    have p2 : ∀ n ∈ op'.params.map Obj.name, PlainName n := by
      intro n hn
      obtain ⟨o, ho, rfl⟩ := List.mem_map.1 hn
      exact hp o (by simp [ho])
    obtain ⟨q1, q2⟩ := append_cons_inj (c := ')') (close_not_mem_joinArgs p1) (close_not_mem_joinArgs p2) h
    have w1 := callShape_callString [] (op.params.map Obj.name) (by simp [CleanHead]) fun n hn =>
      ⟨(p1 n hn).1, fun c hc => ((p1 n hn).2 c hc).1⟩
    have w2 := callShape_callString [] (op'.params.map Obj.name) (by simp [CleanHead]) fun n hn =>
      ⟨(p2 n hn).1, fun c hc => ((p2 n hn).2 c hc).1⟩
    have w3 : op.params.map Obj.name = op'.params.map Obj.name := by
      rw [← w1.words_eq, ← w2.words_eq, callString, callString, q1]
    replace q2 : n!": " ++ (Dnf.print d ++ (n!" => " ++ Dnf.print e)) = n!": " ++ (Dnf.print d' ++ (n!" => " ++ Dnf.print e')) :=
      q2
    simp only [Dnf.print, List.append_assoc, List.append_cancel_left_eq] at q2
    obtain ⟨q3, q4⟩ := Dnf.print_append e1 e3 q2
    simp only [List.append_cancel_left_eq] at q4
    exact ⟨w3, q3, (Dnf.print_append (r := []) (r' := []) e2 e4 (by simpa using q4)).1⟩

/-- **C77.** Where the normalization of a side of an axiom throws, the text says `false` for this side. -/
theorem C77_axiom_false (c : NfCtx) (op : Op) (e : Exc) (d : Dnf)
    (h : op.pre.dnf { c with vars := op.params } op.params op.params = .exc e)
    (hd : op.eff.dnf { c with vars := op.params } op.params op.params = .ok (some d)) :
    Axm.print c op = .ok (n!"axiom(" ++ joinArgs (op.params.map Obj.name) ++ n!"): false => " ++ Dnf.print d) := by
  simp [Axm.print, stringifyText, h, hd, printedText]

/-- **C77.** Two search nodes are printed alike iff they have the same depth, action and state. -/
theorem C77_node (m n : PNode) (hm : m.Plain) (hn : n.Plain) :
    m.print = n.print ↔ m.depth = n.depth ∧ m.action = n.action ∧ m.state = n.state := by
  refine ⟨fun h => ?_, fun ⟨h1, h2, h3⟩ => by rw [PNode.print, PNode.print, h1, h2, h3]⟩
  have states : m.state.print = n.state.print → m.state = n.state := fun h => State.ext
    ((C77_state _ _ _ _ hm.1 hn.1).1 h)
  have dash : ∀ k, ' ' ∉ List.replicate k '-' := fun k hk => by simpa using (List.mem_replicate.1 hk).2
  simp only [PNode.print, List.append_assoc, List.append_cancel_left_eq] at h
  rcases hm.2 with ⟨hd, ha⟩ | ⟨hd, a, pa, ha⟩ <;> rcases hn.2 with ⟨hd', ha'⟩ | ⟨hd', b, pb, ha'⟩
  · rw [hd, hd', ha, ha'] at h ⊢
    exact ⟨rfl, rfl, states (by simpa using h)⟩
  · exfalso
    obtain ⟨k, hk⟩ := Nat.exists_eq_succ_of_ne_zero (Nat.ne_of_gt hd')
    rw [hd, ha, hk] at h
    simp [List.replicate_succ] at h
  · exfalso
    obtain ⟨k, hk⟩ := Nat.exists_eq_succ_of_ne_zero (Nat.ne_of_gt hd)
    rw [hd', ha', hk] at h
    simp [List.replicate_succ] at h
  · rw [if_pos hd, if_pos hd', ha, ha'] at h
    obtain ⟨h1, h2⟩ := append_cons_inj (c := ' ') (dash _) (dash _) h
    have h3 : m.depth = n.depth := by simpa using congrArg List.length h1
    obtain ⟨h4, h5⟩ := Atom.toString_append pa pb h2
    simp only [List.append_cancel_left_eq] at h5
    exact ⟨h3, by rw [ha, ha', h4], states h5⟩

end

section
open Demo

/-- Another hash function. -/
def flipHash : StrHash := ⟨fun n => if n = n!"p" then 1 else 0⟩

/-- And one more. -/
def flopHash : StrHash := ⟨fun n => if n = n!"p" then 0 else 1⟩

/-- **C77, refuted** for partial states: their propositions are printed in the order of the hash table, so that the text depends
on the hash function of the standard library. -/
theorem C77_order_refuted :
    @PartialState.print flipHash (@PartialState.mk flipHash (@State.ofList flipHash [⟨n!"p", []⟩, ⟨n!"q", []⟩]) (@State.empty flipHash)) ≠
      @PartialState.print flopHash
        (@PartialState.mk flopHash (@State.ofList flopHash [⟨n!"p", []⟩, ⟨n!"q", []⟩]) (@State.empty flopHash)) ∧
    @State.print flipHash (@State.ofList flipHash [⟨n!"p", []⟩, ⟨n!"q", []⟩]) =
      @State.print flopHash (@State.ofList flopHash [⟨n!"q", []⟩, ⟨n!"p", []⟩]) := by
  constructor <;> decide +kernel

attribute [local instance] lenHash

/-- The names must be plain: here an argument contains brackets and a comma. -/
theorem C77_names_needed :
    (State.ofList [⟨n!"p", [n!"a), p(b"]⟩]).print = (State.ofList [⟨n!"p", [n!"a"]⟩, ⟨n!"p", [n!"b"]⟩]).print := by
  decide +kernel

/-- Non-vacuity. -/
example : (State.ofList [on b table, inhand a]).print = n!"{ inhand(a), on(b, table) }" ∧
    (PartialState.print ⟨State.ofList [inhand a], State.ofList [on b table]⟩) = n!"(and\n\tinhand(a)\n\tnot on(b, table)\n)\n" ∧
    (PNode.print ⟨State.ofList [inhand a], [], n!"pick(a)", 2⟩) = n!"\x1b[1m-- pick(a) -> \x1b[0m{ inhand(a) }" := by
  decide +kernel

/-- Non-vacuity: a ConjunctiveFormula, an action and a predicate. -/
example : printCnf [⟨State.ofList [inhand a], State.ofList [on b table]⟩] =
      n!"(and\n    (or\n        inhand(a)\n        not on(b, table)\n    )\n)\n" ∧
    place.print = n!"place(x, y)" ∧ PredDecl.print ⟨n!"on", [x, y]⟩ = n!"on(x, y)" := by decide +kernel

/-- Non-vacuity: the axiom of the example domain is printed. -/
example : Axm.print ⟨[table, a, b], ObjMap.create [table, a, b], [x]⟩ held =
    .ok n!"axiom(x): (or\n    (and\n        inhand(x)\n    )\n)\n => (or\n    (and\n        not on(x, a)\n        not on(x, b)\n        not on(x, table)\n    )\n)\n" := by
  decide +kernel

end

end Symbolic
