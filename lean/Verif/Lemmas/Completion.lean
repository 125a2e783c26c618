import Verif.Model.Normalize
import Verif.Props.Partial
import Verif.Spec.Normal

/-!
Completing the conjunctions of a normal form by the axioms.
-/

namespace Symbolic

/-- The atom is looked up in the state. -/
def Atom.Plain (objects : List Obj) (x : Atom) : Prop := x.pred ≠ n!"=" ∧ ¬ IsType objects x.pred

theorem satAtom_plain {objects : List Obj} {S T : Atom → Prop} (h : ∀ x, x.Plain objects → (S x ↔ T x)) (env : Env)
    (pred : Name) (ts : List Term) : SatAtom objects S env pred ts ↔ SatAtom objects T env pred ts := by
  unfold SatAtom
  refine or_congr Iff.rfl (or_congr Iff.rfl ?_)
  refine and_congr_right fun h1 => and_congr_right fun h2 => ?_
  exact exists_congr fun os => and_congr_right fun _ => h _ ⟨h1, h2⟩

mutual
theorem sat_plain {objects : List Obj} {S T : Atom → Prop} (h : ∀ x, x.Plain objects → (S x ↔ T x)) :
    ∀ (g : Goal) (env : Env), Sat objects S env g ↔ Sat objects T env g
  | .atom pred ts, env => by simp only [Sat]; exact satAtom_plain h env pred ts
  | .conj gs, env => by simp only [Sat]; exact satAll_plain h gs env
  | .disj gs, env => by simp only [Sat]; exact satAny_plain h gs env
  | .neg g, env => by simp only [Sat]; rw [sat_plain h g env]
  | .all vars g, env => by
    simp only [Sat]
    exact forall_congr' fun os => forall_congr' fun _ => sat_plain h g _
  | .ex vars g, env => by
    simp only [Sat]
    exact exists_congr fun os => and_congr_right fun _ => sat_plain h g _
  | .other, _ => by simp only [Sat]
theorem satAll_plain {objects : List Obj} {S T : Atom → Prop} (h : ∀ x, x.Plain objects → (S x ↔ T x)) :
    ∀ (gs : List Goal) (env : Env), SatAll objects S env gs ↔ SatAll objects T env gs
  | [], _ => by simp only [SatAll]
  | g :: gs, env => by simp only [SatAll]; rw [sat_plain h g env, satAll_plain h gs env]
theorem satAny_plain {objects : List Obj} {S T : Atom → Prop} (h : ∀ x, x.Plain objects → (S x ↔ T x)) :
    ∀ (gs : List Goal) (env : Env), SatAny objects S env gs ↔ SatAny objects T env gs
  | [], _ => by simp only [SatAny]
  | g :: gs, env => by simp only [SatAny]; rw [sat_plain h g env, satAny_plain h gs env]
end

mutual
theorem says_plain {objects : List Obj} {S T : Atom → Prop} (h : ∀ x, x.Plain objects → (S x ↔ T x)) :
    ∀ (e : Eff) (env : Env), e.Says objects S env ↔ e.Says objects T env
  | .mk fs adds dels cs, env => by
    simp only [Eff.Says, saysF_plain h fs env, saysC_plain h cs env, satAtom_plain h]
theorem saysF_plain {objects : List Obj} {S T : Atom → Prop} (h : ∀ x, x.Plain objects → (S x ↔ T x)) :
    ∀ (e : FList) (env : Env), e.Says objects S env ↔ e.Says objects T env
  | .nil, _ => by simp only [FList.Says]
  | .cons vars e rest, env => by
    simp only [FList.Says]
    exact and_congr (forall_congr' fun os => forall_congr' fun _ => says_plain h e _) (saysF_plain h rest env)
theorem saysC_plain {objects : List Obj} {S T : Atom → Prop} (h : ∀ x, x.Plain objects → (S x ↔ T x)) :
    ∀ (e : CList) (env : Env), e.Says objects S env ↔ e.Says objects T env
  | .nil, _ => by simp only [CList.Says]
  | .cons g e rest, env => by
    simp only [CList.Says]
    rw [sat_plain h g env, says_plain h e env, saysC_plain h rest env]
end

/-- Whether the axioms hold depends on the plain atoms only. -/
theorem axiomsHold_plain {objects : List Obj} {ops : List Op} {S T : Atom → Prop}
    (h : ∀ x, x.Plain objects → (S x ↔ T x)) (hS : AxiomsHold objects ops S) : AxiomsHold objects ops T := by
  intro op hop ha os ho
  have := hS op hop ha os ho
  unfold Op.HoldsFor at this ⊢
  rwa [← sat_plain h, ← says_plain h]

theorem atomTrue_static {objects : List Obj} {S T : Atom → Prop} {x : Atom} (h : ¬ x.Plain objects) :
    AtomTrue objects S x ↔ AtomTrue objects T x := by
  unfold Atom.Plain at h
  unfold AtomTrue
  refine or_congr Iff.rfl (or_congr Iff.rfl ⟨?_, ?_⟩)
  · rintro ⟨h1, h2, -⟩; exact absurd ⟨h1, h2⟩ h
  · rintro ⟨h1, h2, -⟩; exact absurd ⟨h1, h2⟩ h

variable [StrHash]

open Classical in
/-- A State with the same plain atoms as `T`, and which contains those of the listed `=` and type atoms that are true. -/
theorem exists_static (objects : List Obj) (T : State) (l : List Atom) : ∃ T' : State,
    (∀ x, x.Plain objects → (x ∈ T ↔ x ∈ T')) ∧
    (∀ x, ¬ x.Plain objects → (x ∈ T' ↔ x ∈ l ∧ AtomTrue objects (· ∈ T) x)) := by
  refine ⟨State.ofList (T.elems.filter (fun x => x.Plain objects) ++
    l.filter (fun x => ¬ x.Plain objects ∧ AtomTrue objects (· ∈ T) x)), ?_, ?_⟩
  · intro x hx
    simp [State.mem_ofList, State.mem_elems, hx]
  · intro x hx
    simp [State.mem_ofList, State.mem_elems, hx]

/-- Completing one conjunction. -/
theorem consistentStateP_conj {t : Ptree} {b : Bool} {n : Nat} {P : Pddl}
    (hP : Pddl.make t b n = .ok P) (hnd : ((t.constants ++ t.objects).map Obj.name).Nodup)
    {sig : Name → List Name} (hax : AxiomsSorted (t.constants ++ t.objects) sig t.ops) {fuel : Nat}
    {c c' : PartialState} (h : P.consistentStateP fuel c = .ok c') {T : State}
    (hT : AxiomsHold (t.constants ++ t.objects) t.ops (· ∈ T))
    (hc : ConjTrue (t.constants ++ t.objects) (· ∈ T) c) :
    ConjTrue (t.constants ++ t.objects) (· ∈ T) c' ∧ Subsumes c c' := by
  obtain ⟨T', p1, p2⟩ := exists_static (t.constants ++ t.objects) T (c.pos.elems ++ c'.neg.elems)
  have hat : ∀ x, x.Plain (t.constants ++ t.objects) →
      (AtomTrue (t.constants ++ t.objects) (· ∈ T) x ↔ x ∈ T) := by
    intro x hx
    simp [AtomTrue, hx.1, hx.2]
  have hcomp : Compatible (· ∈ c.pos) (· ∈ c.neg) (· ∈ T') := by
    refine ⟨fun x hx => ?_, fun x hx hx' => ?_⟩
    · by_cases hp : x.Plain (t.constants ++ t.objects)
      · exact (p1 x hp).1 ((hat x hp).1 (hc.1 x hx))
      · exact (p2 x hp).2 ⟨by simp [State.mem_elems, hx], hc.1 x hx⟩
    · by_cases hp : x.Plain (t.constants ++ t.objects)
      · exact hc.2 x hx ((hat x hp).2 ((p1 x hp).2 hx'))
      · exact hc.2 x hx ((p2 x hp).1 hx').2
  obtain ⟨h1, h2, h3⟩ := C33_entailed_partial t b n P hP hnd sig hax fuel c c' h T'
    (axiomsHold_plain p1 hT) hcomp
  refine ⟨⟨fun x hx => ?_, fun x hx hx' => ?_⟩, h2, h3⟩
  · by_cases hp : x.Plain (t.constants ++ t.objects)
    · exact (hat x hp).2 ((p1 x hp).2 (h1.1 x hx))
    · exact ((p2 x hp).1 (h1.1 x hx)).2
  · by_cases hp : x.Plain (t.constants ++ t.objects)
    · exact h1.2 x hx ((p1 x hp).1 ((hat x hp).1 hx'))
    · exact h1.2 x hx ((p2 x hp).2 ⟨by simp [State.mem_elems, hx], hx'⟩)

omit [StrHash] in
theorem forall₂_left {α β : Type} {R : α → β → Prop} : ∀ {l : List α} {l' : List β}, List.Forall₂ R l l' →
    ∀ y ∈ l', ∃ x ∈ l, R x y
  | _, _, .nil, y, hy => by simp at hy
  | _, _, .cons h hs, y, hy => by
    rcases List.mem_cons.1 hy with rfl | hy
    · exact ⟨_, by simp, h⟩
    · obtain ⟨x, hx, hr⟩ := forall₂_left hs y hy
      exact ⟨x, by simp [hx], hr⟩

theorem consistentConjs_forall {P : Pddl} {fuel : Nat} : ∀ {d d' : Dnf}, P.consistentConjs fuel d = .ok d' →
    List.Forall₂ (fun c c' => P.consistentStateP fuel c = .ok c') d d'
  | [], d', h => by
    simp only [Pddl.consistentConjs, Res.ok.injEq] at h
    subst h; exact .nil
  | c :: rest, d', h => by
    simp only [Pddl.consistentConjs, Res.bind_eq_ok, Res.pure_eq, Res.ok.injEq] at h
    obtain ⟨c', h1, rest', h2, rfl⟩ := h
    exact .cons h1 (consistentConjs_forall h2)

end Symbolic
