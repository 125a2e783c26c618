import Verif.Lemmas.RenameIndex
import Verif.Lemmas.RenameNorm
import Verif.Lemmas.Accept
import Verif.Spec.Construct
import Verif.Examples.Demo

/-!
# C80, C81: names and hash functions do not matter

Everything is stated for two Pddls that may use different hash functions (`h₁`, `h₂`), the second of which has other names.
`Renamed ρ P Q` (Spec/Rename.lean) says that both were constructed from the same domain and problem up to names and changed by
the same later calls.
-/

namespace Symbolic

section
variable {ρ : Renaming} (hρ : ρ.Proper) {h₁ h₂ : StrHash}
include hρ

/-! ## C80: construction -/

/-- **C80, partial.** The constructor accepts the renamed domain iff it accepts the original one, and otherwise fails in the same
way. In axioms, `=` must have two arguments and predicates called like types one, unless the context is a literal and the effects
are unconditional (see `C81_constructor_refuted`). -/
theorem C80_constructor_partial (t : Ptree) (b : Bool) (n : Nat)
    (hax : ∀ op ∈ t.ops, op.isAxiom = true →
      ((∃ sign p ts, op.pre.IsLiteral sign p ts) ∨ op.pre.EnoughArgs (t.constants ++ t.objects)) ∧
        (op.eff.NoCond ∨ op.eff.EnoughArgs (t.constants ++ t.objects))) :
    SameOutcome (Renamed ρ) (@Pddl.make h₁ t b n) (@Pddl.make h₂ (t.rename ρ) b n) := by
  have := make_rename hρ (h₁ := h₁) (h₂ := h₂) t b n fun op hop ha => by
    obtain ⟨hl, hc⟩ := hax op hop ha
    refine ⟨hl.imp_left ?_, hc⟩
    rintro ⟨sign, p, ts, hl⟩
    exact ⟨_, contextOf_iff.2 ⟨ts, hl, rfl⟩⟩
  revert this
  cases h1 : @Pddl.make h₁ t b n <;> cases h2 : @Pddl.make h₂ (t.rename ρ) b n <;> intro this
  all_goals first | exact this | exact .make h1 h2

section
variable {P : @Pddl h₁} {Q : @Pddl h₂} (h : Renamed ρ P Q)
include h

/-- **C80.** `AddObject`. -/
theorem C80_add_object (name type : Name) :
    SameOutcome (Renamed ρ) (@Pddl.addObject h₁ P name type) (@Pddl.addObject h₂ Q (ρ.obj name) (ρ.pred type)) := by
  have := addObject_rename hρ (h.same hρ) name type
  revert this
  cases h1 : @Pddl.addObject h₁ P name type <;> cases h2 : @Pddl.addObject h₂ Q (ρ.obj name) (ρ.pred type) <;> intro this
  all_goals first | exact this | exact .addObject h h1 h2

/-- **C80.** The initial states, the objects and the predicates correspond. -/
theorem C80_contents : SameState ρ (@Pddl.initial h₁ P) (@Pddl.initial h₂ Q) ∧
    @Pddl.symbols h₂ Q = (@Pddl.symbols h₁ P).map (Obj.rename ρ) :=
  ⟨(h.same hρ).initial, symbols_rename (h.same hρ)⟩

/-! ## C80: texts -/

/-- **C80.** Parsing a proposition gives the renamed proposition, or fails in the same way. -/
theorem C80_parse {c d : Name} (hc : SameText ρ c d) :
    SameOutcome (fun x y => y = x.rename ρ) (parseAtom (@Pddl.symbols h₁ P) c) (parseAtom (@Pddl.symbols h₂ Q) d) :=
  parseAtom_rename hρ (h.same hρ) hc

/-- **C80.** Parsing a state. -/
theorem C80_parse_state {cs ds : List Name} (hcs : List.Forall₂ (SameText ρ) cs ds) :
    SameOutcome (SameState ρ) (@insertParsed h₁ (@Pddl.symbols h₁ P) (@State.empty h₁) cs)
      (@insertParsed h₂ (@Pddl.symbols h₂ Q) (@State.empty h₂) ds) :=
  insertParsed_rename hρ (h.same hρ) hcs (SameState.empty ρ)

/-! ## C80: states -/

/-- **C80.** `NextState`. -/
theorem C80_next_state (n : Nat) {s : @State h₁} {t : @State h₂} (hs : SameState ρ s t) {c d : Name} (hc : SameCall ρ c d) :
    SameOutcome (SameState ρ) (@Pddl.nextState h₁ P n s c) (@Pddl.nextState h₂ Q n t d) :=
  nextState_rename hρ (h.same hρ) n hs hc

/-- **C80.** `apply_actions` of the Python module. -/
theorem C80_apply_actions (n : Nat) {s : @State h₁} {t : @State h₂} (hs : SameState ρ s t) {cs ds : List Name}
    (hcs : List.Forall₂ (SameCall ρ) cs ds) :
    SameOutcome (SameState ρ) (@Pddl.applyActions h₁ P n s cs) (@Pddl.applyActions h₂ Q n t ds) :=
  applyActions_rename hρ (h.same hρ) n hcs hs

/-- **C80.** `DerivedState` and `ConsistentState`. -/
theorem C80_closures (n : Nat) {s : @State h₁} {t : @State h₂} (hs : SameState ρ s t) :
    SameOutcome (SameState ρ) (@Pddl.derivedState h₁ P n s) (@Pddl.derivedState h₂ Q n t) ∧
      SameOutcome (SameState ρ) (@Pddl.consistentState h₁ P n s) (@Pddl.consistentState h₂ Q n t) :=
  ⟨derivedState_rename hρ (h.same hρ) n hs, consistentState_rename hρ (h.same hρ) n hs⟩

/-- **C80.** Partial states: `ConsistentState` and `IsValidState`. -/
theorem C80_partial_states (n : Nat) {s : @PartialState h₁} {t : @PartialState h₂} (hs : SamePartial ρ s t) :
    SameOutcome (SamePartial ρ) (@Pddl.consistentStateP h₁ P n s) (@Pddl.consistentStateP h₂ Q n t) ∧
      @Pddl.isValidStateP h₂ Q n t = @Pddl.isValidStateP h₁ P n s :=
  ⟨consistentStateP_rename hρ (h.same hρ) n hs, isValidStateP_rename hρ (h.same hρ) n hs⟩

/-! ## C80: verdicts -/

/-- **C80.** The same answer, or the same exception. -/
theorem C80_verdicts (n : Nat) {s u : @State h₁} {t v : @State h₂} (hs : SameState ρ s t) (hu : SameState ρ u v) {c d : Name}
    (hc : SameCall ρ c d) :
    @Pddl.isValidAction h₂ Q t d = @Pddl.isValidAction h₁ P s c ∧
      @Pddl.isValidState h₂ Q n t = @Pddl.isValidState h₁ P n s ∧
      @Pddl.isValidTuple h₂ Q n t d v = @Pddl.isValidTuple h₁ P n s c u ∧
      @Pddl.isGoalSatisfied h₂ Q t = @Pddl.isGoalSatisfied h₁ P s :=
  ⟨isValidAction_rename hρ (h.same hρ) hs hc, isValidState_rename hρ (h.same hρ) n hs,
    isValidTuple_rename hρ (h.same hρ) n hs hc hu, isGoalSatisfied_rename hρ (h.same hρ) hs⟩

/-- **C80.** `IsValidPlan`. -/
theorem C80_plans (n : Nat) {cs ds : List Name} (hcs : List.Forall₂ (SameCall ρ) cs ds) :
    @Pddl.isValidPlan h₂ Q n ds = @Pddl.isValidPlan h₁ P n cs := isValidPlan_rename hρ (h.same hρ) n hcs

/-! ## C80: normal forms -/

/-- **C80.** `NormalizeGoal`, `NormalizePreconditions`, `NormalizePostconditions` and `NormalizeConditions` give the renamed
conjunctions (in any order), or fail in the same way. `=` must have two arguments and tests of types one (see
`C81_constructor_refuted`). -/
theorem C80_normal_forms (n : Nat) {c d : Name} (hc : SameCall ρ c d)
    (hgoal : (@Pddl.tree h₁ P).goal.EnoughArgs (@Pddl.objects h₁ P))
    (hops : ∀ op ∈ (@Pddl.tree h₁ P).ops, op.pre.EnoughArgs (@Pddl.objects h₁ P) ∧ op.eff.EnoughArgs (@Pddl.objects h₁ P)) :
    SameOutcome (OptRel (SameDnf ρ)) (@Pddl.normalizeGoal h₁ P n false) (@Pddl.normalizeGoal h₂ Q n false) ∧
    SameOutcome (OptRel (SameDnf ρ)) (@Pddl.normalizePre h₁ P n c false) (@Pddl.normalizePre h₂ Q n d false) ∧
    SameOutcome (OptRel (SameDnf ρ)) (@Pddl.normalizePost h₁ P n c false) (@Pddl.normalizePost h₂ Q n d false) ∧
    SameOutcome (OptRel fun (x : @Dnf h₁ × @Dnf h₁) (y : @Dnf h₂ × @Dnf h₂) => SameDnf ρ x.1 y.1 ∧ SameDnf ρ x.2 y.2)
      (@Pddl.normalizeConditions h₁ P n c false) (@Pddl.normalizeConditions h₂ Q n d false) := by
  have hs := h.same hρ
  have hm := h.mapOk hρ
  refine ⟨(normalizeGoal_rename hρ hs hm n hgoal).imp fun _ _ k => k.imp fun _ _ => DnfRel.sameDnf,
    (normalizePre_rename hρ hs hm n hc fun op hop => (hops op hop).1).imp fun _ _ k => k.imp fun _ _ => DnfRel.sameDnf,
    (normalizePost_rename hρ hs hm n hc fun op hop => (hops op hop).2).imp fun _ _ k => k.imp fun _ _ => DnfRel.sameDnf,
    (normalizeConditions_rename hρ hs hm n hc hops).imp fun _ _ k => k.imp fun _ _ k => ⟨k.1.sameDnf, k.2.sameDnf⟩⟩

/-- **C80.** The same with `apply_axioms`: if one of the two returns, so does the other, with the renamed conjunctions. -/
theorem C80_normal_forms_axioms (n : Nat) (b : Bool) {c d : Name} (hc : SameCall ρ c d)
    (hgoal : (@Pddl.tree h₁ P).goal.EnoughArgs (@Pddl.objects h₁ P))
    (hops : ∀ op ∈ (@Pddl.tree h₁ P).ops, op.pre.EnoughArgs (@Pddl.objects h₁ P) ∧ op.eff.EnoughArgs (@Pddl.objects h₁ P)) :
    BothReturn (OptRel (SameDnf ρ)) (@Pddl.normalizeGoal h₁ P n b) (@Pddl.normalizeGoal h₂ Q n b) ∧
    BothReturn (OptRel (SameDnf ρ)) (@Pddl.normalizePre h₁ P n c b) (@Pddl.normalizePre h₂ Q n d b) ∧
    BothReturn (OptRel (SameDnf ρ)) (@Pddl.normalizePost h₁ P n c b) (@Pddl.normalizePost h₂ Q n d b) ∧
    BothReturn (OptRel fun (x : @Dnf h₁ × @Dnf h₁) (y : @Dnf h₂ × @Dnf h₂) => SameDnf ρ x.1 y.1 ∧ SameDnf ρ x.2 y.2)
      (@Pddl.normalizeConditions h₁ P n c b) (@Pddl.normalizeConditions h₂ Q n d b) := by
  have hs := h.same hρ
  have hm := h.mapOk hρ
  rw [@normalizeGoal_complete h₁, @normalizeGoal_complete h₂, @normalizePre_complete h₁, @normalizePre_complete h₂,
    @normalizePost_complete h₁, @normalizePost_complete h₂, @normalizeConditions_complete h₁, @normalizeConditions_complete h₂]
  refine ⟨?_, ?_, ?_, ?_⟩
  · exact ((BothReturn.of_same (normalizeGoal_rename hρ hs hm n hgoal)).bind fun _ _ k => completeDnf_rename hρ hs n b k).imp
      fun _ _ k => k.imp fun _ _ => DnfRel.sameDnf
  · exact ((BothReturn.of_same (normalizePre_rename hρ hs hm n hc fun op hop => (hops op hop).1)).bind fun _ _ k =>
      completeDnf_rename hρ hs n b k).imp fun _ _ k => k.imp fun _ _ => DnfRel.sameDnf
  · exact ((BothReturn.of_same (normalizePost_rename hρ hs hm n hc fun op hop => (hops op hop).2)).bind fun _ _ k =>
      completeDnf_rename hρ hs n b k).imp fun _ _ k => k.imp fun _ _ => DnfRel.sameDnf
  · exact ((BothReturn.of_same (normalizeConditions_rename hρ hs hm n hc hops)).bind fun _ _ k =>
      completePair_rename hρ hs n b k).imp fun _ _ k => k.imp fun _ _ k => ⟨k.1.sameDnf, k.2.sameDnf⟩

/-! ## C80: lists, planner, index -/

/-- **C80.** `ListValidActions` prints the renamed calls, in the same order. -/
theorem C80_list {s : @State h₁} {t : @State h₂} (hs : SameState ρ s t) :
    SameOutcome (SameCalls ρ) (@Pddl.listValidActions h₁ P s) (@Pddl.listValidActions h₂ Q t) :=
  listValidActions_rename hρ (h.same hρ) hs

/-- **C80.** The root and the children of a node, in the same order. -/
theorem C80_planner (n : Nat) :
    (∀ {s : @State h₁} {t : @State h₂}, SameState ρ s t →
      SameOutcome (SameNode ρ) (@Pddl.plannerRoot h₁ P n s) (@Pddl.plannerRoot h₂ Q n t)) ∧
    ∀ {p : @PNode h₁} {q : @PNode h₂}, SameNode ρ p q →
      SameOutcome (List.Forall₂ (SameNode ρ)) (@Pddl.children h₁ P n p) (@Pddl.children h₂ Q n q) :=
  ⟨fun hs => plannerRoot_rename hρ (h.same hρ) n hs, fun hp => children_rename hρ (h.same hρ) n hp⟩

/-- **C80.** Breadth-first and depth-first search return the same plans in the same order, with the same timeouts. -/
theorem C80_searches (n d fuel : Nat) (clock : Nat → Nat → Bool) {p : @PNode h₁} {q : @PNode h₂} (hp : SameNode ρ p q) :
    SameOutcome (List.Forall₂ (List.Forall₂ (SameNode ρ))) (Bfs.run (@Pddl.space h₁ P n) d clock fuel p)
        (Bfs.run (@Pddl.space h₂ Q n) d clock fuel q) ∧
      SameOutcome (List.Forall₂ (List.Forall₂ (SameNode ρ))) (Dfs.run (@Pddl.space h₁ P n) d fuel p)
        (Dfs.run (@Pddl.space h₂ Q n) d fuel q) :=
  ⟨Bfs.run_rel (sameSpace hρ (h.same hρ) n) d clock fuel hp, Dfs.run_rel (sameSpace hρ (h.same hρ) n) d fuel hp⟩

/-- **C80.** A*, when the priority queues take corresponding entries. -/
theorem C80_astar (n d fuel : Nat) {pick : Nat → List (@PNode h₁ × List (@PNode h₁)) → Nat}
    {pick' : Nat → List (@PNode h₂ × List (@PNode h₂)) → Nat}
    (hpk : ∀ k q q', List.Forall₂ (fun x y => @SameNode ρ h₁ h₂ x.1 y.1 ∧ List.Forall₂ (@SameNode ρ h₁ h₂) x.2 y.2) q q' →
      pick' k q' = pick k q) {p : @PNode h₁} {q : @PNode h₂} (hp : SameNode ρ p q) :
    SameOutcome (List.Forall₂ (List.Forall₂ (SameNode ρ))) (Astar.run (@Pddl.space h₁ P n) d pick fuel p)
        (Astar.run (@Pddl.space h₂ Q n) d pick' fuel q) :=
  Astar.run_rel (sameSpace hρ (h.same hρ) n) d fuel hpk hp

/-- **C80.** The `StateIndex` numbers the renamed propositions in the same way, whatever the caches of the two hold. -/
theorem C80_index {c c' : IndexCache} (hc : @StateIndex.Reached h₁ (@Pddl.stateIndex h₁ P) c)
    (hc' : @StateIndex.Reached h₂ (@Pddl.stateIndex h₂ Q) c') :
    (∀ i, SameOutcome (fun a b => b = a.rename ρ) ((@Pddl.stateIndex h₁ P).getProposition c i).1
      ((@Pddl.stateIndex h₂ Q).getProposition c' i).1) ∧
    (∀ a, StateIndex.CleanAtom a → StateIndex.CleanAtom (a.rename ρ) →
      ((@Pddl.stateIndex h₂ Q).getPropositionIndex c' (a.rename ρ)).1 = ((@Pddl.stateIndex h₁ P).getPropositionIndex c a).1) ∧
    (∀ v, SameOutcome (SameState ρ) (@StateIndex.getState h₁ (@Pddl.stateIndex h₁ P) c v).1
      (@StateIndex.getState h₂ (@Pddl.stateIndex h₂ Q) c' v).1) ∧
    ∀ {s : @State h₁} {t : @State h₂}, SameState ρ s t → (∀ a, s.Has a → StateIndex.CleanAtom a ∧ StateIndex.CleanAtom (a.rename ρ)) →
      ∀ v, (@StateIndex.getIndexedState h₁ (@Pddl.stateIndex h₁ P) c s).1 = .ok v →
        (@StateIndex.getIndexedState h₂ (@Pddl.stateIndex h₂ Q) c' t).1 = .ok v := by
  have hm : (@Pddl.stateIndex h₁ P).omap.NonEmpty := (h.same hρ).nonEmpty
  have e := stateIndex_rename (h.same hρ)
  have o1 := @StateIndex.Reached.ok h₁ _ _ hc
  have o2 := @StateIndex.Reached.ok h₂ _ _ hc'
  refine ⟨fun i => ?_, fun a ha ha' => ?_, fun v => ?_, fun {s t} hs hcl v hv => ?_⟩
  · rw [(StateIndex.getProposition_ok o1 i).1, (StateIndex.getProposition_ok o2 i).1, e]
    exact lookupProp_rename hρ hm i
  · rw [(StateIndex.getPropositionIndex_ok o1 ha).1, (StateIndex.getPropositionIndex_ok o2 ha').1, e]
    exact lookupIdx_rename hρ _ a
  · rw [(@StateIndex.getState_ok h₁ _ _ o1 v).1, (@StateIndex.getState_ok h₂ _ _ o2 v).1, e]
    exact stateLoop'_rename hρ hm v 0 (SameState.empty ρ)
  · have k1 : ∀ a ∈ (@State.elems h₁ s), StateIndex.CleanAtom a := fun a ha => (hcl a ((@State.mem_elems h₁ _ _).1 ha)).1
    have k2 : ∀ b ∈ (@State.elems h₂ t), StateIndex.CleanAtom b := fun b hb => by
      obtain ⟨a, ha, rfl⟩ := (hs b).1 ((@State.mem_elems h₂ _ _).1 hb)
      exact (hcl a ha).2
    rw [(@StateIndex.getIndexedState_ok h₁ _ _ o1 s fun a ha => k1 a ((@State.mem_elems h₁ _ _).2 ha)).1] at hv
    rw [(@StateIndex.getIndexedState_ok h₂ _ _ o2 t fun a ha => k2 a ((@State.mem_elems h₂ _ _).2 ha)).1, e]
    have : total ((@Pddl.stateIndex h₁ P).rename ρ).gens = total (@Pddl.stateIndex h₁ P).gens := by
      rw [gens_rename hρ]
      unfold total
      rw [List.map_map]
      congr 1
      exact List.map_congr_left fun o _ => Comb.size_map _ o
    rw [this]
    exact indexLoop'_rename hρ _ hs hv

end
end

/-! ## C81: the hash function -/

section
variable {h₁ h₂ : StrHash}

/-- **C81, partial.** The constructor has the same outcome with every hash function (axioms as in `C80_constructor_partial`). -/
theorem C81_constructor_partial (t : Ptree) (b : Bool) (n : Nat)
    (hax : ∀ op ∈ t.ops, op.isAxiom = true →
      ((∃ sign p ts, op.pre.IsLiteral sign p ts) ∨ op.pre.EnoughArgs (t.constants ++ t.objects)) ∧
        (op.eff.NoCond ∨ op.eff.EnoughArgs (t.constants ++ t.objects))) :
    SameOutcome (Renamed .id) (@Pddl.make h₁ t b n) (@Pddl.make h₂ t b n) := by
  have := C80_constructor_partial Renaming.id_proper (h₁ := h₁) (h₂ := h₂) t b n hax
  rwa [Ptree.rename_id] at this

/-- **C81.** If both constructors return, then all of the following applies. -/
theorem C81_constructed {t : Ptree} {b : Bool} {n : Nat} {P : @Pddl h₁} {Q : @Pddl h₂} (hP : @Pddl.make h₁ t b n = .ok P)
    (hQ : @Pddl.make h₂ t b n = .ok Q) : Renamed .id P Q := .make hP (by rw [Ptree.rename_id]; exact hQ)

variable {P : @Pddl h₁} {Q : @Pddl h₂} (h : Renamed .id P Q)
include h

/-- **C81.** `AddObject` keeps the two alike. -/
theorem C81_add_object (name type : Name) :
    SameOutcome (Renamed .id) (@Pddl.addObject h₁ P name type) (@Pddl.addObject h₂ Q name type) :=
  C80_add_object Renaming.id_proper h name type

/-- **C81.** All functions that return a state return the same propositions. -/
theorem C81_states (n : Nat) {s : @State h₁} {t : @State h₂} (hs : ∀ a, s.Has a ↔ t.Has a) (call : Name) (plan : List Name) :
    SameOutcome (fun x y => ∀ a, x.Has a ↔ y.Has a) (@Pddl.nextState h₁ P n s call) (@Pddl.nextState h₂ Q n t call) ∧
      SameOutcome (fun x y => ∀ a, x.Has a ↔ y.Has a) (@Pddl.applyActions h₁ P n s plan) (@Pddl.applyActions h₂ Q n t plan) ∧
      SameOutcome (fun x y => ∀ a, x.Has a ↔ y.Has a) (@Pddl.derivedState h₁ P n s) (@Pddl.derivedState h₂ Q n t) ∧
      SameOutcome (fun x y => ∀ a, x.Has a ↔ y.Has a) (@Pddl.consistentState h₁ P n s) (@Pddl.consistentState h₂ Q n t) := by
  have e : (fun (x : @State h₁) (y : @State h₂) => ∀ a, x.Has a ↔ y.Has a) = SameState .id := by
    funext x y; exact propext sameState_id.symm
  rw [e]
  have hs' := sameState_id.2 hs
  have hp := Renaming.id_proper
  exact ⟨C80_next_state hp h n hs' (sameCall_id call), C80_apply_actions hp h n hs' (List.forall₂_same.2 fun c _ => sameCall_id c),
    C80_closures hp h n hs'⟩

/-- **C81.** Partial states. -/
theorem C81_partial_states (n : Nat) {s : @PartialState h₁} {t : @PartialState h₂} (hs : SamePartial .id s t) :
    SameOutcome (SamePartial .id) (@Pddl.consistentStateP h₁ P n s) (@Pddl.consistentStateP h₂ Q n t) ∧
      @Pddl.isValidStateP h₂ Q n t = @Pddl.isValidStateP h₁ P n s := C80_partial_states Renaming.id_proper h n hs

/-- **C81.** All verdicts are the same. -/
theorem C81_verdicts (n : Nat) {s u : @State h₁} {t v : @State h₂} (hs : ∀ a, s.Has a ↔ t.Has a) (hu : ∀ a, u.Has a ↔ v.Has a)
    (call : Name) (plan : List Name) :
    @Pddl.isValidAction h₂ Q t call = @Pddl.isValidAction h₁ P s call ∧
      @Pddl.isValidState h₂ Q n t = @Pddl.isValidState h₁ P n s ∧
      @Pddl.isValidTuple h₂ Q n t call v = @Pddl.isValidTuple h₁ P n s call u ∧
      @Pddl.isGoalSatisfied h₂ Q t = @Pddl.isGoalSatisfied h₁ P s ∧
      @Pddl.isValidPlan h₂ Q n plan = @Pddl.isValidPlan h₁ P n plan := by
  obtain ⟨a, b, c, d⟩ := C80_verdicts Renaming.id_proper h n (sameState_id.2 hs) (sameState_id.2 hu) (sameCall_id call)
  exact ⟨a, b, c, d, C80_plans Renaming.id_proper h n (List.forall₂_same.2 fun c _ => sameCall_id c)⟩

/-- **C81.** `ListValidActions` returns the same list. -/
theorem C81_list {s : @State h₁} {t : @State h₂} (hs : ∀ a, s.Has a ↔ t.Has a) :
    @Pddl.listValidActions h₂ Q t = @Pddl.listValidActions h₁ P s := by
  have := C80_list Renaming.id_proper h (sameState_id.2 hs)
  revert this
  cases @Pddl.listValidActions h₁ P s <;> cases @Pddl.listValidActions h₂ Q t <;> intro this
  all_goals first | exact this.elim | rfl | skip
  · obtain ⟨xs, rfl, rfl⟩ := this
    simp only [Renaming.id, List.map_id']
  · rw [show _ = _ from this]

/-- **C81.** The normal forms of goals and calls have the same conjunctions (their order depends on the hash function, C77). -/
theorem C81_normal_forms (n : Nat) (call : Name) (hgoal : (@Pddl.tree h₁ P).goal.EnoughArgs (@Pddl.objects h₁ P))
    (hops : ∀ op ∈ (@Pddl.tree h₁ P).ops, op.pre.EnoughArgs (@Pddl.objects h₁ P) ∧ op.eff.EnoughArgs (@Pddl.objects h₁ P)) :
    SameOutcome (OptRel (SameDnf .id)) (@Pddl.normalizeGoal h₁ P n false) (@Pddl.normalizeGoal h₂ Q n false) ∧
    SameOutcome (OptRel (SameDnf .id)) (@Pddl.normalizePre h₁ P n call false) (@Pddl.normalizePre h₂ Q n call false) ∧
    SameOutcome (OptRel (SameDnf .id)) (@Pddl.normalizePost h₁ P n call false) (@Pddl.normalizePost h₂ Q n call false) ∧
    SameOutcome (OptRel fun (x : @Dnf h₁ × @Dnf h₁) (y : @Dnf h₂ × @Dnf h₂) => SameDnf .id x.1 y.1 ∧ SameDnf .id x.2 y.2)
      (@Pddl.normalizeConditions h₁ P n call false) (@Pddl.normalizeConditions h₂ Q n call false) :=
  C80_normal_forms Renaming.id_proper h n (sameCall_id call) hgoal hops

/-- **C81.** Searches return the same plans in the same order. -/
theorem C81_searches (n d fuel : Nat) (clock : Nat → Nat → Bool) {p : @PNode h₁} {q : @PNode h₂} (hp : SameNode .id p q) :
    SameOutcome (List.Forall₂ (List.Forall₂ (SameNode .id))) (Bfs.run (@Pddl.space h₁ P n) d clock fuel p)
        (Bfs.run (@Pddl.space h₂ Q n) d clock fuel q) ∧
      SameOutcome (List.Forall₂ (List.Forall₂ (SameNode .id))) (Dfs.run (@Pddl.space h₁ P n) d fuel p)
        (Dfs.run (@Pddl.space h₂ Q n) d fuel q) := C80_searches Renaming.id_proper h n d fuel clock hp

end

/-! ## Refutations and examples -/

section
open Demo

/-- Hash functions that order `p` and `q` differently. -/
@[reducible] def hashPQ : StrHash := ⟨fun n => if n = n!"p" then 0 else 1⟩
@[reducible] def hashQP : StrHash := ⟨fun n => if n = n!"p" then 1 else 0⟩

/-- **C81, refuted** for the order of iteration over a state, which is the order of the hash table. -/
theorem C81_iteration_refuted : ∃ as : List Atom,
    (∀ a, (@State.ofList hashPQ as).Has a ↔ (@State.ofList hashQP as).Has a) ∧
      @State.elems hashPQ (@State.ofList hashPQ as) ≠ @State.elems hashQP (@State.ofList hashQP as) := by
  refine ⟨[⟨n!"p", []⟩, ⟨n!"q", []⟩], fun a => ?_, by decide +kernel⟩
  exact (@State.mem_ofList hashPQ _ a).trans (@State.mem_ofList hashQP _ a).symm

/-- Hash functions that differ in the hash of `box`. -/
@[reducible] def boxHash (k : UInt64) : StrHash := ⟨fun n => if n = n!"box" then k else 0⟩

/-- Axiom `(inhand ?x) => (when (and (= a b) (box)) (not (on ?x table)))`. -/
def nullaryAxiom : Op where
  name := n!"axiom"
  params := [x]
  pre := .atom n!"inhand" [.var x]
  eff := .mk .nil [] [] (.cons (.conj [.atom n!"=" [.const a, .const b], .atom n!"box" []])
    (.mk .nil [] [(n!"on", [.var x, .const table])] .nil) .nil)
  isAxiom := true

/-- The demo domain with a predicate `box` without arguments. -/
def nullaryTree : Ptree := { tree with
  constants := [table, a, b], objects := [], preds := tree.preds ++ [⟨n!"box", []⟩], ops := [pick, place, nullaryAxiom] }

/-- **C81, refuted** for the constructor when a predicate without arguments is called like a type: whether the missing argument is
read depends on the order of the hash table, since the negated condition is evaluated up to the first literal that is true. -/
theorem C81_constructor_refuted :
    (@Pddl.make (boxHash 2) nullaryTree true 5).isOk = true ∧ @Pddl.make (boxHash 0) nullaryTree true 5 = .ub := by
  have h : (match @Pddl.make (boxHash 0) nullaryTree true 5 with | .ub => true | _ => false) = true := by decide +kernel
  exact ⟨by decide +kernel, by revert h; split <;> simp_all⟩

attribute [local instance] lenHash

/-- The demo domain with a further predicate, which the goal asks of box `a` and no proposition makes true. -/
def markedTree (p : Name) : Ptree := { tree with preds := tree.preds ++ [⟨p, [x]⟩], goal := .atom p [.const a] }

theorem markedMade : (Pddl.make (markedTree n!"marked") true 5).isOk = true := by decide +kernel
theorem boxMade : (Pddl.make (markedTree n!"box") true 5).isOk = true := by decide +kernel

/-- **C80, refuted** when predicates are renamed independently of types, as PDDL allows: a predicate called like a type is taken
for a test of the type. Calling the predicate `marked` or `box` makes the difference between a goal that does not hold and one
that does. -/
theorem C80_type_name_refuted :
    (get _ markedMade).isGoalSatisfied (get _ markedMade).initial = .ok false ∧
      (get _ boxMade).isGoalSatisfied (get _ boxMade).initial = .ok true := by
  constructor <;> decide +kernel

/-- Every name with `n` in front, except `=` and `object`. -/
def nRenaming : Renaming :=
  ⟨fun x => 'n' :: x, fun x => if x = n!"=" ∨ x = n!"object" then x else 'n' :: x, fun x => 'n' :: x⟩

theorem nRenaming_proper : nRenaming.Proper where
  obj := fun x y h => (List.cons.inj h).2
  op := fun x y h => (List.cons.inj h).2
  eq := rfl
  object := rfl
  pred := by
    intro x y h
    simp only [nRenaming] at h
    split at h <;> split at h
    · exact h
    · rename_i hx _
      rcases hx with rfl | rfl <;> simp at h
    · rename_i _ hy
      rcases hy with rfl | rfl <;> simp at h
    · exact (List.cons.inj h).2

theorem nMade : (@Pddl.make hashPQ (tree.rename nRenaming) true 5).isOk = true := by decide +kernel

/-- The demo domain and its renamed version with another hash function are both accepted, so that all of C80 applies. -/
theorem nRenamed : Renamed nRenaming P (get _ nMade) := .make P_made (get_eq _ _)

/-- The hypotheses of the theorems on constructors and normal forms hold for the demo domain, all of whose atoms have enough
arguments. -/
theorem tree_enough : tree.goal.EnoughArgs P.objects ∧ ∀ op ∈ tree.ops, op.pre.EnoughArgs P.objects ∧ op.eff.EnoughArgs P.objects := by
  constructor
  · simp [tree, Goal.EnoughArgs, EnoughArgs]
  · intro op hop
    simp only [tree, List.mem_cons, List.not_mem_nil, or_false] at hop
    rcases hop with rfl | rfl | rfl <;>
      simp [pick, place, held, Goal.EnoughArgs, Goal.EnoughArgsAll, EnoughArgs, Eff.EnoughArgs, FList.EnoughArgs, CList.EnoughArgs]

theorem P_tree : P.tree = tree := (Pddl.built P_made).1
theorem P_objects : P.objects = tree.constants ++ tree.objects := (Pddl.built P_made).objects

example : SameOutcome (Renamed nRenaming) (Pddl.make tree true 5) (@Pddl.make hashPQ (tree.rename nRenaming) true 5) :=
  C80_constructor_partial nRenaming_proper (h₁ := lenHash) (h₂ := hashPQ) tree true 5 fun op hop _ => by
    have := tree_enough.2 op hop
    rw [P_objects] at this
    exact ⟨.inr this.1, .inr this.2⟩

/-- An axiom with a disjunction as context is covered too; neither constructor returns. -/
example : (Pddl.make { tree with ops := [{ held with pre := .disj [held.pre, .atom n!"busy" [.var x]] }] } true 5).isOk = false := by
  decide +kernel

/-- The precondition of a call in both normal forms. -/
example : SameOutcome (OptRel (SameDnf nRenaming)) (P.normalizePre 5 n!"place(a, b)" false)
    (@Pddl.normalizePre hashPQ (get _ nMade) 5 n!"nplace(na, nb)" false) :=
  (C80_normal_forms nRenaming_proper nRenamed 5 (c := n!"place(a, b)") (d := n!"nplace(na, nb)") (by constructor <;> decide +kernel)
    (P_tree ▸ tree_enough.1) (fun op hop => tree_enough.2 op (P_tree ▸ hop))).2.1

example : (P.normalizePre 5 n!"place(a, b)" false).isOk = true := by decide +kernel

/-- The calls correspond, and the plan is accepted by both. -/
example : SameCall nRenaming n!"place(a, b)" n!"nplace(na, nb)" := by
  constructor <;> decide +kernel

example : @Pddl.isValidPlan hashPQ (get _ nMade) 5 [n!"npick(na)", n!"nplace(na, nb)"] = .ok true := by
  have h : P.isValidPlan 5 [n!"pick(a)", n!"place(a, b)"] = .ok true := by decide +kernel
  rw [← h]
  refine C80_plans nRenaming_proper nRenamed 5 (.cons ?_ (.cons ?_ .nil)) <;> constructor <;> decide +kernel

end

end Symbolic
