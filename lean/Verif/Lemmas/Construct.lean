import Verif.Model.Pddl
import Verif.Lemmas.Res

namespace Symbolic

/-- What the construction of an effect sees of an axiom. -/
def Ax.key (ax : Ax) : Bool × Name × List Obj × List Obj := (ax.pos, ax.pred, ax.op.params, ax.ctxArgs)

theorem createSimple_loop_congr (sign : Bool) (params : List Obj) (pred : Name) (ep : List Obj) :
    ∀ {axs axs' : List Ax}, axs.map Ax.key = axs'.map Ax.key →
      createSimple.loop sign params pred ep axs = createSimple.loop sign params pred ep axs'
  | [], [], _ => rfl
  | [], _ :: _, h => by simp at h
  | _ :: _, [], h => by simp at h
  | a :: as, b :: bs, h => by
    simp only [List.map_cons, List.cons.injEq, Ax.key, Prod.mk.injEq] at h
    obtain ⟨⟨h1, h2, h3, h4⟩, h5⟩ := h
    simp only [createSimple.loop, h1, h2, h3, h4, createSimple_loop_congr sign params pred ep h5]

theorem createSimple_congr (m : ObjMap) {axs axs' : List Ax} (h : axs.map Ax.key = axs'.map Ax.key) (sign : Bool)
    (params : List Obj) (es : List (Name × List Term)) :
    createSimple m axs sign params es = createSimple m axs' sign params es := by
  induction es with
  | nil => rfl
  | cons e es ih =>
    obtain ⟨pred, ts⟩ := e
    simp only [createSimple, createSimple_loop_congr sign params pred _ h, ih]

mutual
theorem Eff.create_congr (m : ObjMap) {axs axs' : List Ax} (h : axs.map Ax.key = axs'.map Ax.key) :
    ∀ (e : Eff) (params : List Obj), e.create m axs params = e.create m axs' params
  | .mk fs adds dels cs, params => by
    simp only [Eff.create, FList.create_congr m h fs, CList.create_congr m h cs, createSimple_congr m h]
theorem FList.create_congr (m : ObjMap) {axs axs' : List Ax} (h : axs.map Ax.key = axs'.map Ax.key) :
    ∀ (e : FList) (params : List Obj), e.create m axs params = e.create m axs' params
  | .nil, _ => rfl
  | .cons vars e rest, params => by
    simp only [FList.create, Eff.create_congr m h e, FList.create_congr m h rest]
theorem CList.create_congr (m : ObjMap) {axs axs' : List Ax} (h : axs.map Ax.key = axs'.map Ax.key) :
    ∀ (e : CList) (params : List Obj), e.create m axs params = e.create m axs' params
  | .nil, _ => rfl
  | .cons g e rest, params => by
    simp only [CList.create, Eff.create_congr m h e, CList.create_congr m h rest]
end

theorem Op.create_congr (m : ObjMap) {axs axs' : List Ax} (h : axs.map Ax.key = axs'.map Ax.key) (op : Op) :
    op.create m axs = op.create m axs' := by
  simp only [Op.create, Eff.create_congr m h]

theorem forall₂_exists_of_mem {R : α → β → Prop} {l : List α} {l' : List β} (h : List.Forall₂ R l l') {a : α}
    (ha : a ∈ l) : ∃ b, R a b := by
  induction h with
  | nil => simp at ha
  | cons h _ ih =>
    rcases List.mem_cons.1 ha with rfl | hm
    · exact ⟨_, h⟩
    · exact ih hm

variable [StrHash]

theorem Ax.make_ok {c : NfCtx} {axs : List Ax} {op : Op} {ax : Ax} (h : Ax.make c axs op = .ok ax) :
    op.create c.omap axs = .ok () ∧ ax.op = op ∧ contextOf op.pre = .ok (ax.pos, ax.pred, ax.ctxArgs) ∧
      ∃ tuples, genLoop (paramTypes c.omap op.params) = .ok tuples ∧
        prepareLoop c op.pre op.params tuples = .ok ax.arguments := by
  simp only [Ax.make, Res.bind_eq_ok, Res.pure_eq, Res.ok.injEq] at h
  obtain ⟨⟨⟩, h1, tuples, h2, args, h3, ctx, h4, _, -, rfl⟩ := h
  exact ⟨h1, rfl, h4, tuples, h2, h3⟩

theorem Ax.make_stringify {c : NfCtx} {axs : List Ax} {op : Op} {ax : Ax} (h : Ax.make c axs op = .ok ax) :
    stringify c op = .ok () := by
  simp only [Ax.make, Res.bind_eq_ok, Res.pure_eq, Res.ok.injEq] at h
  obtain ⟨_, -, _, -, _, -, _, -, ⟨⟩, h, -⟩ := h
  exact h

theorem makeAxioms_ok {c : NfCtx} {axs : List Ax} :
    ∀ {ops : List Op} {r : List Ax}, Pddl.makeAxioms c axs ops = .ok r →
      List.Forall₂ (fun op ax => Ax.make c axs op = .ok ax) ops r
  | [], r, h => by
    simp only [Pddl.makeAxioms, Res.ok.injEq] at h
    subst h; exact .nil
  | op :: ops, r, h => by
    simp only [Pddl.makeAxioms, Res.bind_eq_ok, Res.pure_eq, Res.ok.injEq] at h
    obtain ⟨ax, h1, r', h2, rfl⟩ := h
    exact .cons h1 (makeAxioms_ok h2)

theorem makeAxioms_key {c : NfCtx} {axs axs' : List Ax} :
    ∀ {ops : List Op} {r r' : List Ax}, Pddl.makeAxioms c axs ops = .ok r →
      Pddl.makeAxioms c axs' ops = .ok r' → r.map Ax.key = r'.map Ax.key := by
  intro ops r r' h h'
  replace h := makeAxioms_ok h
  replace h' := makeAxioms_ok h'
  induction h generalizing r' with
  | nil => cases h'; rfl
  | cons h1 _ ih =>
    cases h' with
    | cons h2 h3 =>
      obtain ⟨-, ha, hb, -⟩ := Ax.make_ok h1
      obtain ⟨-, ha', hb', -⟩ := Ax.make_ok h2
      rw [hb] at hb'
      simp only [Res.ok.injEq, Prod.mk.injEq] at hb'
      simp only [List.map_cons, Ax.key, ha, ha', hb'.1, hb'.2.1, hb'.2.2, List.cons.injEq, true_and]
      exact ih h3

omit [StrHash] in
theorem createOps_ok {m : ObjMap} {axs : List Ax} :
    ∀ {ops : List Op}, Pddl.createOps m axs ops = .ok () → ∀ op ∈ ops, op.create m axs = .ok ()
  | [], _, op, h => by simp at h
  | o :: ops, h, op, hm => by
    simp only [Pddl.createOps, Res.bind_eq_ok] at h
    obtain ⟨⟨⟩, h1, h2⟩ := h
    rcases List.mem_cons.1 hm with rfl | hm
    · exact h1
    · exact createOps_ok h2 op hm

/-- The facts about a successfully constructed Pddl. -/
structure Pddl.Built (P : Pddl) (t : Ptree) : Prop where
  tree : P.tree = t
  constants : P.constants = t.constants
  objects : P.objects = t.constants ++ t.objects
  omap : P.omap = ObjMap.create (t.constants ++ t.objects)
  actions : P.actions = t.ops.filter (!·.isAxiom)
  axioms : List.Forall₂ (fun op ax => ∃ axs, Ax.make ⟨t.constants ++ t.objects, P.omap, []⟩ axs op = .ok ax)
    (t.ops.filter (·.isAxiom)) P.axioms
  ops : ∀ op ∈ t.ops, op.create P.omap P.axioms = .ok ()
  goal : t.goal.create P.omap = .ok ()
  drvs : Pddl.createDrvs P.omap t.drvs = .ok ()
  preds : Pddl.createPreds P.omap t.preds = .ok ()
  preds_ne : t.preds ≠ []

theorem Pddl.built {t : Ptree} {b : Bool} {fuel : Nat} {P : Pddl} (h : Pddl.make t b fuel = .ok P) : P.Built t := by
  simp only [Pddl.make, Res.bind_eq_ok] at h
  obtain ⟨axs0, h0, ⟨⟩, h1, ⟨⟩, h2, h⟩ := h
  split at h
  · simp at h
  · rename_i hp
    simp only [Res.bind_eq_ok, Res.pure_eq, Res.ok.injEq] at h
    obtain ⟨⟨⟩, h3, axs, h4, ⟨⟩, h5, init, h6, rfl⟩ := h
    refine ⟨rfl, rfl, rfl, rfl, rfl, ?_, ?_, h3, h2, h1, by simpa using hp⟩
    · have := makeAxioms_ok h4
      exact this.imp (fun _ _ h => ⟨_, h⟩)
    · intro op hop
      by_cases ha : op.isAxiom
      · have hmem : op ∈ t.ops.filter (·.isAxiom) := by simp [hop, ha]
        have hk : axs0.map Ax.key = axs.map Ax.key := makeAxioms_key h0 h4
        have := makeAxioms_ok h4
        obtain ⟨ax, h7⟩ : ∃ ax, Ax.make ⟨t.constants ++ t.objects, ObjMap.create (t.constants ++ t.objects), []⟩ axs0 op
            = .ok ax := by
          exact forall₂_exists_of_mem this hmem
        rw [← Op.create_congr _ hk]
        exact (Ax.make_ok h7).1
      · exact createOps_ok h5 op (by simp [hop, ha])

/-- Every axiom of a constructed Pddl comes from an operator of the domain. -/
theorem Pddl.Built.ax {P : Pddl} {t : Ptree} (B : P.Built t) {ax : Ax} (h : ax ∈ P.axioms) :
    ax.op ∈ t.ops ∧ ax.op.isAxiom = true ∧ contextOf ax.op.pre = .ok (ax.pos, ax.pred, ax.ctxArgs) ∧
      ∃ tuples, genLoop (paramTypes P.omap ax.op.params) = .ok tuples ∧
        prepareLoop ⟨t.constants ++ t.objects, P.omap, []⟩ ax.op.pre ax.op.params tuples = .ok ax.arguments := by
  have key : ∀ {ops : List Op} {axs : List Ax},
      List.Forall₂ (fun op ax => ∃ axs, Ax.make ⟨t.constants ++ t.objects, P.omap, []⟩ axs op = .ok ax) ops axs →
      ax ∈ axs → ∃ op ∈ ops, ∃ axs, Ax.make ⟨t.constants ++ t.objects, P.omap, []⟩ axs op = .ok ax := by
    intro ops axs h hm
    induction h with
    | nil => simp at hm
    | cons h1 _ ih =>
      rcases List.mem_cons.1 hm with rfl | hm
      · exact ⟨_, by simp, h1⟩
      · obtain ⟨op, ho, h2⟩ := ih hm
        exact ⟨op, by simp [ho], h2⟩
  obtain ⟨op, ho, axs, h1⟩ := key B.axioms h
  obtain ⟨-, h2, h3, h4⟩ := Ax.make_ok h1
  subst h2
  have ho' := List.mem_filter.1 ho
  exact ⟨ho'.1, by simpa using ho'.2, h3, h4⟩

end Symbolic
