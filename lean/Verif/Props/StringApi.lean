import Verif.Model.StringApi
import Verif.Props.TypeSound
import Verif.Props.Plans
import Verif.Props.Axioms
import Verif.Props.StateIndex
import Verif.Props.Triggers

/-!
# C62-C64: the functions on sets of strings, reading propositions, pickling
-/

namespace Symbolic

/-- The strings, in any order and with any repetitions, are those of the propositions of `s`. -/
def Spells [StrHash] (strings : List Name) (s : State) : Prop := ∀ x, x ∈ strings ↔ ∃ a ∈ s, x = a.toString

theorem Spells.iff_stringify [StrHash] {strings : List Name} {s : State} :
    Spells strings s ↔ ∀ x, x ∈ strings ↔ x ∈ s.stringify := by
  refine forall_congr' fun x => ?_
  have : x ∈ s.stringify ↔ ∃ a ∈ s, x = a.toString := by
    simp only [State.stringify, List.mem_map, State.mem_elems]
    exact exists_congr fun a => and_congr_right fun _ => eq_comm
  rw [this]

theorem Spells.self [StrHash] (s : State) : Spells s.stringify s := Spells.iff_stringify.2 fun _ => Iff.rfl

theorem Spells.parse [StrHash] {table : List Obj} {strings : List Name} {s : State} (h : Spells strings s)
    (hs : ∀ a ∈ s, Printable table a) : parseState table strings = .ok s :=
  C13_state_round_trip table s hs strings (Spells.iff_stringify.1 h)

/-- **C62.** The queries on sets of strings answer what the queries on States answer, whether they return or throw. -/
theorem C62_queries [StrHash] (P : Pddl) (fuel : Nat) (s : State) (strings : List Name) (h : Spells strings s)
    (hs : ∀ a ∈ s, Printable P.symbols a) :
    (∀ call, P.isValidActionStr strings call = P.isValidAction s call) ∧
    P.isGoalSatisfiedStr strings = P.isGoalSatisfied s ∧
    P.isValidStateStr fuel strings = P.isValidState fuel s ∧
    P.listValidActionsStr strings = P.listValidActions s ∧
    ∀ call next s', Spells next s' → (∀ a ∈ s', Printable P.symbols a) →
      P.isValidTupleStr fuel strings call next = P.isValidTuple fuel s call s' := by
  have e := h.parse hs
  simp only [Pddl.isValidActionStr, Pddl.isGoalSatisfiedStr, Pddl.isValidStateStr, Pddl.listValidActionsStr,
    Pddl.isValidTupleStr, e, Res.bind_ok, implies_true, true_and]
  intro call next s' h' hs'
  rw [h'.parse hs', Res.bind_ok]

/-- **C62.** The functions that return a set of strings return the strings of the State that the function on States
returns, and otherwise throw what it throws. -/
theorem C62_results [StrHash] (P : Pddl) (fuel : Nat) (s : State) (strings : List Name) (h : Spells strings s)
    (hs : ∀ a ∈ s, Printable P.symbols a) (r : Res (List Name)) (q : Res State)
    (hr : (∃ call, r = P.nextStateStr fuel strings call ∧ q = P.nextState fuel s call) ∨
      (∃ calls, r = P.applyActionsStr fuel strings calls ∧ q = P.applyActions fuel s calls) ∨
      (r = P.derivedStateStr fuel strings ∧ q = P.derivedState fuel s) ∨
      (r = P.consistentStateStr fuel strings ∧ q = P.consistentState fuel s)) :
    (∀ out, r = .ok out → ∃ s', q = .ok s' ∧ Spells out s') ∧ (∀ s', q = .ok s' → ∃ out, r = .ok out ∧ Spells out s') ∧
      ∀ e, r = .exc e ↔ q = .exc e := by
  have e := h.parse hs
  have key : r = (do let s' ← q; pure s'.stringify) := by
    rcases hr with ⟨call, rfl, rfl⟩ | ⟨calls, rfl, rfl⟩ | ⟨rfl, rfl⟩ | ⟨rfl, rfl⟩ <;>
      simp only [Pddl.nextStateStr, Pddl.applyActionsStr, Pddl.derivedStateStr, Pddl.consistentStateStr, e, Res.bind_ok]
  subst key
  cases q <;> simp [Spells.self]

/-- **C62.** The same for the two functions on partial states. -/
theorem C62_partial_states [StrHash] (P : Pddl) (fuel : Nat) (s : PartialState) (pos neg : List Name)
    (hp : Spells pos s.pos) (hn : Spells neg s.neg) (hs : ∀ a, a ∈ s.pos ∨ a ∈ s.neg → Printable P.symbols a) :
    P.isValidStatePStr fuel pos neg = P.isValidStateP fuel s ∧
    ∀ s', P.consistentStateP fuel s = .ok s' → ∃ out, P.consistentStatePStr fuel pos neg = .ok out ∧
      Spells out.1 s'.pos ∧ Spells out.2 s'.neg := by
  have e : P.parsePartial pos neg = .ok s := by
    rw [Pddl.parsePartial, hp.parse (fun a ha => hs a (.inl ha)), Res.bind_ok, hn.parse (fun a ha => hs a (.inr ha)),
      Res.bind_ok, Res.pure_eq]
  refine ⟨by rw [Pddl.isValidStatePStr, e, Res.bind_ok], fun s' h => ?_⟩
  exact ⟨_, by rw [Pddl.consistentStatePStr, e, Res.bind_ok, h, Res.bind_ok, Res.pure_eq], Spells.self _, Spells.self _⟩

/-- `out` is what remains after passing the strings through `next_state` once for every call; in between the set may be
enumerated in another order. -/
inductive Drives [StrHash] (P : Pddl) (fuel : Nat) : List Name → List Name → List Name → Prop
  | done {strings out : List Name} : (∀ x, x ∈ out ↔ x ∈ strings) → Drives P fuel strings [] out
  | step {strings next next' out : List Name} {call : Name} {calls : List Name} :
      P.nextStateStr fuel strings call = .ok next → (∀ x, x ∈ next' ↔ x ∈ next) → Drives P fuel next' calls out →
      Drives P fuel strings (call :: calls) out

theorem Declared.printable [StrHash] {t : Ptree} {P : Pddl} (B : P.Built t)
    (hsig : Signature (t.constants ++ t.objects) t.preds) {x : Atom}
    (h : Declared (t.constants ++ t.objects) t.preds x) : Printable P.symbols x := by
  obtain ⟨d, hd, os, ho, rfl⟩ := h
  refine ⟨hsig.cleanHeads d hd, fun m hm => ?_⟩
  simp only [Atom.ofObjs, List.mem_map] at hm
  obtain ⟨o, hm, rfl⟩ := hm
  exact ⟨hsig.cleanArgs o (ho.mem hm).1, List.mem_map_of_mem (by rw [Pddl.symbols, B.tree]; exact (ho.mem hm).1)⟩

theorem drives_iff [StrHash] {t : Ptree} {b : Bool} {n : Nat} {P : Pddl} (hP : Pddl.make t b n = .ok P)
    {up : Name → List Name} (ht : t.TypeChecked up) (hsig : Signature (t.constants ++ t.objects) t.preds) (fuel : Nat)
    (calls : List Name) : ∀ (s : State) (strings out : List Name),
    (∀ x ∈ s, Declared (t.constants ++ t.objects) t.preds x) → Spells strings s →
    (Drives P fuel strings calls out ↔ ∃ s', P.applyActions fuel s calls = .ok s' ∧ Spells out s') := by
  have B := Pddl.built hP
  induction calls with
  | nil =>
    intro s strings out hs hl
    constructor
    · rintro ⟨h⟩
      exact ⟨s, rfl, fun x => (h x).trans (hl x)⟩
    · rintro ⟨s', h, ho⟩
      simp only [Pddl.applyActions, Res.ok.injEq] at h
      subst h
      exact .done fun x => (ho x).trans (hl x).symm
  | cons call calls ih =>
    intro s strings out hs hl
    have key := C62_results P fuel s strings hl (fun a ha => (hs a ha).printable B hsig) _ _ (.inl ⟨call, rfl, rfl⟩)
    constructor
    · rintro (_ | ⟨h1, h2, h3⟩)
      obtain ⟨s1, h4, h5⟩ := key.1 _ h1
      obtain ⟨s', h6, h7⟩ := (ih s1 _ out (C58_next_state_partial t b n P hP up ht fuel s s1 call hs h4)
        (fun x => (h2 x).trans (h5 x))).1 h3
      refine ⟨s', ?_, h7⟩
      simp only [Pddl.nextState, Res.bind_eq_ok] at h4
      obtain ⟨oa, h8, h9⟩ := h4
      simp only [Pddl.applyActions, h8, h9, Res.bind_ok, h6]
    · rintro ⟨s', h, ho⟩
      simp only [Pddl.applyActions, Res.bind_eq_ok] at h
      obtain ⟨oa, h1, s1, h2, h3⟩ := h
      have h4 : P.nextState fuel s call = .ok s1 := by simp only [Pddl.nextState, h1, Res.bind_ok, h2]
      obtain ⟨next, h5, h6⟩ := key.2.1 _ h4
      exact .step h5 (fun _ => Iff.rfl) ((ih s1 _ out (C58_next_state_partial t b n P hP up ht fuel s s1 call hs h4)
        h6).2 ⟨s', h3, ho⟩)

/-- **C62.** In a domain that passes the type checker, passing the strings of the initial state through `next_state` once
for every call succeeds iff `ApplyActions` does, and gives the strings of its result.

Missing for the full claim: domains with axioms that put undeclared propositions into the state, see
`C62_feedback_refuted`. -/
theorem C62_simulation_partial [StrHash] (t : Ptree) (b : Bool) (n : Nat) (P : Pddl) (hP : Pddl.make t b n = .ok P)
    (up : Name → List Name) (ht : t.TypeChecked up) (hsig : Signature (t.constants ++ t.objects) t.preds) (fuel : Nat)
    (calls strings out : List Name) (hl : Spells strings P.initial) :
    Drives P fuel strings calls out ↔ ∃ s, P.applyActions fuel P.initial calls = .ok s ∧ Spells out s :=
  drives_iff hP ht hsig fuel calls P.initial strings out (C58_initial_state_partial t b n P hP up ht) hl

/-- **C62.** `list_valid_arguments` on a set of strings and the name of an action with parameters lists exactly the
argument names for which `is_valid_action` accepts the printed call. -/
theorem C62_list_arguments [StrHash] (t : Ptree) (b : Bool) (n : Nat) (P : Pddl) (hP : Pddl.make t b n = .ok P)
    (hnd : ((t.constants ++ t.objects).map Obj.name).Nodup)
    (hclean : ∀ o ∈ t.constants ++ t.objects, CleanArg o.name) (op : Op) (hop : NamedOp t.ops op.name op)
    (hpar : op.params ≠ []) (hhead : CleanHead op.name) (strings : List Name) (l : List (List Name))
    (h : P.listValidArgumentsStr strings op.name = .ok l) (ws : List Name) :
    ws ∈ l ↔ (∀ w ∈ ws, CleanArg w) ∧ P.isValidActionStr strings (callString op.name ws) = .ok true := by
  have B := Pddl.built hP
  have hsym : P.symbols = t.constants ++ t.objects := by rw [Pddl.symbols, B.tree]
  simp only [Pddl.listValidArgumentsStr, Res.bind_eq_ok, Res.pure_eq, Res.ok.injEq, Pddl.listValidArguments] at h
  obtain ⟨s, h1, op', h2, ⟨⟩, -, argss, ⟨_, -, tuples, h3, h4⟩, rfl⟩ := h
  have hhd : parseHead op.name = op.name := by
    rw [parseHead, findFirst_none _ _ hhead]
  have e2 := (getOp_ok P op.name op).2 (by rw [B.tree]; exact hop)
  rw [hhd, e2] at h2
  cases h2
  rw [B.omap] at h3
  have hm := fun as => mem_gen_create (args := as) hpar h3
  have hf := (filterValid_ok h4).2
  have hgen : ∀ as, WellTyped (t.constants ++ t.objects) op.params as →
      (P.isValidActionStr strings (callString op.name (as.map Obj.name)) = .ok true ↔ op.isValid P.omap s as = .ok true) := by
    intro as hw
    have := C14_action_round_trip t b n P hP op as hop hw hnd ⟨hhead, fun o ho => hclean o (WellTyped.mem hw ho).1⟩
    rw [Pddl.callOf] at this
    rw [Pddl.isValidActionStr, h1, Res.bind_ok, Pddl.isValidAction, this, Res.bind_ok]
  constructor
  · intro hws
    obtain ⟨as, ha, rfl⟩ := List.mem_map.1 hws
    obtain ⟨ha1, ha2⟩ := (hf as).1 ha
    have hw := (hm as).1 ha1
    refine ⟨fun w hw' => ?_, (hgen as hw).2 ha2⟩
    obtain ⟨o, ho, rfl⟩ := List.mem_map.1 hw'
    exact hclean o (WellTyped.mem hw ho).1
  · rintro ⟨hc, hv⟩
    have hv' := hv
    simp only [Pddl.isValidActionStr, h1, Res.bind_ok, Pddl.isValidAction, Res.bind_eq_ok] at hv
    obtain ⟨⟨op2, as⟩, hp, hval⟩ := hv
    obtain ⟨head, ws', hs, g2, g3, g4⟩ := (C15_parse_accepts_exactly t b n P hP _ op2 as).1 hp
    have hs' := callShape_callString op.name ws hhead hc
    have e1 : head = op.name := hs.head_eq.symm.trans hs'.head_eq
    have e3 : ws' = ws := hs.words_eq.symm.trans hs'.words_eq
    subst e1 e3
    have e4 := (getOp_ok P op.name op2).2 (by rw [B.tree]; exact g2)
    rw [e2] at e4; cases e4
    have hnames : as.map Obj.name = ws' := by
      clear hv' hp hs hs' hc hval g4
      induction g3 with
      | nil => rfl
      | cons h _ ih => simp [h.name_eq, ih]
    have hw : WellTyped (t.constants ++ t.objects) op.params as := by
      have hmem : ∀ o ∈ as, o ∈ t.constants ++ t.objects := by
        intro o ho
        clear hv' hp hs hs' hc hval g4 hnames
        induction g3 with
        | nil => simp at ho
        | cons h _ ih =>
          rcases List.mem_cons.1 ho with rfl | ho
          · exact h.mem
          · exact ih ho
      clear hv' hp hs hs' hc hval g3 hnames hpar hm h3
      revert g4
      generalize op.params = ps
      intro g4
      induction g4 with
      | nil => exact .nil
      | cons h _ ih => exact .cons ⟨hmem _ (by simp), h⟩ (ih (fun o ho => hmem o (by simp [ho])))
    exact List.mem_map.2 ⟨as, (hf as).2 ⟨(hm as).2 hw, hval⟩, hnames⟩

/-! ## C63 -/

/-- **C63.** Reading a proposition: `Proposition(pddl, s)` succeeds iff every argument word of `s` is the name of an
object; the head may be anything. -/
theorem C63_reads_exactly (table : List Obj) (s : Name) (x : Atom) :
    parseAtom table s = .ok x ↔ CallShape s x.pred x.args ∧ ∀ w ∈ x.args, w ∈ table.map Obj.name := by
  obtain ⟨head, ws, hs⟩ := callShape_exists s
  simp only [parseAtom, parseArguments, hs.words_eq, hs.head_eq, Res.bind_eq_ok, Res.pure_eq, Res.ok.injEq, lookupAll_ok]
  have names : ∀ {os : List Obj} {ws : List Name}, List.Forall₂ (Named table) ws os →
      os.map Obj.name = ws ∧ ∀ w ∈ ws, w ∈ table.map Obj.name := by
    intro os ws h
    induction h with
    | nil => simp
    | cons h _ ih =>
      refine ⟨by simp [h.name_eq, ih.1], fun w hw => ?_⟩
      rcases List.mem_cons.1 hw with rfl | hw
      · exact h.name_eq ▸ List.mem_map_of_mem h.mem
      · exact ih.2 w hw
  constructor
  · rintro ⟨os, h, rfl⟩
    obtain ⟨h1, h2⟩ := names h
    simp only [Atom.ofObjs, h1]
    exact ⟨hs, h2⟩
  · rintro ⟨h1, h2⟩
    have e1 : x.pred = head := h1.head_eq.symm.trans hs.head_eq
    have e2 : x.args = ws := h1.words_eq.symm.trans hs.words_eq
    obtain ⟨os, ho⟩ : ∃ os, List.Forall₂ (Named table) x.args os := by
      clear e2 h1 hs
      generalize x.args = as at h2
      induction as with
      | nil => exact ⟨[], .nil⟩
      | cons w as ih =>
        obtain ⟨o, ho⟩ := named_of_mem table w (h2 w (by simp))
        obtain ⟨os, hos⟩ := ih (fun w hw => h2 w (by simp [hw]))
        exact ⟨o :: os, .cons ho hos⟩
    refine ⟨os, e2 ▸ ho, ?_⟩
    cases x
    simp only [Atom.ofObjs, (names ho).1] at *
    rw [e1]

/-- **C63.** It throws on every other string. -/
theorem C63_reads_total (table : List Obj) (s : Name) :
    (∃ x, parseAtom table s = .ok x) ∨ parseAtom table s = .exc .runtimeError := by
  simp only [parseAtom, parseArguments]
  rcases lookupAll_cases table (tokenizeArguments s) with ⟨os, h⟩ | h
  · exact .inl ⟨_, by rw [h]; rfl⟩
  · exact .inr (by rw [h]; rfl)

/-! ## C64 -/

/-- What the constructor does to the same files with and without `apply_axioms`. -/
theorem Pddl.make_true_iff [StrHash] {t : Ptree} {b : Bool} {n : Nat} {P : Pddl} (hP : Pddl.make t b n = .ok P)
    (Q : Pddl) : Pddl.make t true n = .ok Q ↔
      ∃ c, P.consistentState n (State.ofList t.init) = .ok c ∧ Q = { P with initial := c } := by
  simp only [Pddl.make, Res.bind_eq_ok] at hP ⊢
  obtain ⟨axs0, h1, _, h2, _, h3, h4⟩ := hP
  split at h4
  · cases h4
  rename_i hne
  simp only [Res.bind_eq_ok] at h4
  obtain ⟨_, h5, axs, h6, _, h7, init, h8, h9⟩ := h4
  simp only [Res.pure_eq, Res.ok.injEq] at h9
  subst h9
  constructor
  · rintro ⟨axs0', g1, _, -, _, -, g4⟩
    rw [if_neg hne] at g4
    simp only [Res.bind_eq_ok, if_true, Res.pure_eq, Res.ok.injEq] at g4
    obtain ⟨_, -, axs', g6, _, -, c, g8, rfl⟩ := g4
    rw [h1] at g1; cases g1
    rw [h6] at g6; cases g6
    exact ⟨c, g8, rfl⟩
  · rintro ⟨c, g8, rfl⟩
    refine ⟨axs0, h1, _, h2, _, h3, ?_⟩
    rw [if_neg hne]
    simp only [Res.bind_eq_ok, if_true, Res.pure_eq, Res.ok.injEq]
    exact ⟨_, h5, axs, h6, _, h7, c, g8, rfl⟩

theorem Pddl.make_false_initial [StrHash] {t : Ptree} {n : Nat} {P : Pddl} (hP : Pddl.make t false n = .ok P) :
    P.initial = State.ofList t.init := by
  simp only [Pddl.make, Res.bind_eq_ok] at hP
  obtain ⟨_, -, _, -, _, -, h4⟩ := hP
  split at h4
  · cases h4
  simp only [Res.bind_eq_ok, Bool.false_eq_true, if_false, Res.pure_eq, Res.ok.injEq] at h4
  obtain ⟨_, -, _, -, _, -, _, rfl, rfl⟩ := h4
  rfl

/-- **C64.** Unpickling constructs the Pddl from the same files: it has a value iff the closure of the initial state of the
problem under the axioms does, and differs from the pickled Pddl at most in the initial state, which is that closure. -/
theorem C64_unpickled [StrHash] (t : Ptree) (b : Bool) (n : Nat) (P : Pddl) (hP : Pddl.make t b n = .ok P)
    (P' : Pddl) (hset : P' = P ∨ ∃ strings, P.setInitialStr strings = .ok P') (Q : Pddl) :
    Pddl.pickled t n = .ok Q ↔
      ∃ c, P'.consistentState n (State.ofList t.init) = .ok c ∧ Q = { P' with initial := c } := by
  rw [Pddl.pickled, Pddl.make_true_iff hP]
  rcases hset with rfl | ⟨strings, h⟩
  · exact Iff.rfl
  · simp only [Pddl.setInitialStr, Res.bind_eq_ok, Res.pure_eq, Res.ok.injEq] at h
    obtain ⟨s, -, rfl⟩ := h
    exact Iff.rfl

/-- **C64.** A Pddl comes back from pickling unchanged if nothing was assigned to it and it was made with `apply_axioms`,
or without but its initial state is valid.

Missing for the full claim: assigned initial states and invalid initial states, see `C64_lost_refuted`. -/
theorem C64_round_trip_partial [StrHash] (t : Ptree) (b : Bool) (n k : Nat) (P : Pddl) (hP : Pddl.make t b n = .ok P)
    (hk : k < n) (hv : b = true ∨ P.isValidState k P.initial = .ok true) : Pddl.pickled t n = .ok P := by
  cases b with
  | true => exact hP
  | false =>
    have hv := hv.resolve_left (by simp)
    have hi := Pddl.make_false_initial hP
    refine (C64_unpickled t false n P hP P (.inl rfl) P).2 ⟨P.initial, ?_, rfl⟩
    rw [← hi]
    exact C31_valid_state_is_consistent P k _ hv n hk

section
open Demo
attribute [local instance] lenHash

/-- **C63, refuted:** strings that are no propositions of the domain are read without complaint: an unknown predicate, a
wrong number of arguments, arguments of the wrong type, missing brackets, and a bare name, whose word
is also taken as its argument. -/
theorem C63_undeclared_refuted :
    parseAtom P.symbols n!"flies(a)" = .ok ⟨n!"flies", [n!"a"]⟩ ∧
    parseAtom P.symbols n!"on(a)" = .ok ⟨n!"on", [n!"a"]⟩ ∧
    parseAtom P.symbols n!"inhand(table)" = .ok ⟨n!"inhand", [n!"table"]⟩ ∧
    parseAtom P.symbols n!"on(a b" = .ok ⟨n!"on", [n!"a", n!"b"]⟩ ∧
    parseAtom P.symbols n!"a" = .ok ⟨n!"a", [n!"a"]⟩ := by decide +kernel

theorem leakMade : (Pddl.make (linkTree leakAx) true 5).isOk = true := by decide +kernel
def leakP : Pddl := get _ leakMade

/-- **C62, refuted** for axioms with parameters outside of the context: `apply_actions` performs two actions, but the
strings that `next_state` returns after the first are rejected by the second call of `next_state`. -/
theorem C62_feedback_refuted :
    leakP.applyActionsStr 5 [] [n!"link(a, b)", n!"link(a, b)"] = .ok [n!"seen(u)", n!"near(a, b)"] ∧
    leakP.nextStateStr 5 [] n!"link(a, b)" = .ok [n!"seen(u)", n!"near(a, b)"] ∧
    leakP.nextStateStr 5 [n!"seen(u)", n!"near(a, b)"] n!"link(a, b)" = .exc .runtimeError := by
  have h0 : parseState leakP.symbols [] = .ok State.empty := by decide +kernel
  have h1 : leakP.nextState 5 State.empty n!"link(a, b)" = .ok (State.ofList [near a b, ⟨n!"seen", [n!"u"]⟩]) := by
    decide +kernel
  have h2 : leakP.applyActions 5 State.empty [n!"link(a, b)", n!"link(a, b)"] =
      .ok (State.ofList [near a b, ⟨n!"seen", [n!"u"]⟩]) := by decide +kernel
  refine ⟨?_, ?_, by decide +kernel⟩
  · rw [Pddl.applyActionsStr, h0, Res.bind_ok, h2, Res.bind_ok]; decide +kernel
  · rw [Pddl.nextStateStr, h0, Res.bind_ok, h1, Res.bind_ok]; decide +kernel

/-- The demo domain, driven through strings. -/
example : P.nextStateStr 5 P.initial.stringify n!"pick(a)" = .ok [n!"busy(a)", n!"inhand(a)", n!"on(b, table)"] ∧
    P.nextStateStr 5 [n!"on(b, table)", n!"busy(a)", n!"inhand(a)", n!"busy(a)"] n!"place(a, b)" =
      .ok [n!"busy(b)", n!"on(a, b)", n!"on(b, table)"] ∧
    P.isValidActionStr [n!"inhand(a)", n!"on(b, table)"] n!"place(a, b)" = .ok true := by decide +kernel

example : Drives P 5 P.initial.stringify [n!"pick(a)"] [n!"on(b, table)", n!"inhand(a)", n!"busy(a)"] :=
  .step (next := [n!"busy(a)", n!"inhand(a)", n!"on(b, table)"])
    (next' := [n!"busy(a)", n!"inhand(a)", n!"on(b, table)"]) (by decide +kernel) (fun _ => Iff.rfl)
    (.done fun x => by simp; tauto)

/-- The hypotheses on the propositions hold in the demo domain. -/
example : ∀ a ∈ P.initial, Printable P.symbols a := fun a ha =>
  (C58_initial_state_partial tree true 5 P P_made demoUp demo_checked a ha).printable (Pddl.built P_made) demo_signature

def heldTree : Ptree := { tree with init := [inhand a, on a table] }
theorem heldMade : (Pddl.make heldTree false 5).isOk = true := by decide +kernel
def heldP : Pddl := get _ heldMade

/-- **C64, refuted:** the initial state after pickling is not the one before, neither for a Pddl made without
`apply_axioms` nor after an assignment to `initial_state`. -/
theorem C64_lost_refuted :
    heldP.initial = State.ofList [inhand a, on a table] ∧
    (do let Q ← Pddl.pickled heldTree 5; pure Q.initial) = .ok (State.ofList [inhand a]) ∧
    (do let Q ← P.setInitialStr [n!"on(a, b)"]; pure Q.initial) = .ok (State.ofList [on a b]) ∧
    (do let Q ← Pddl.pickled tree 5; pure Q.initial) = .ok (State.ofList [on a table, on b table]) := by
  refine ⟨?_, ?_, ?_, ?_⟩ <;> decide +kernel

example : P.isValidState 4 P.initial = .ok true := by decide +kernel

end

end Symbolic
