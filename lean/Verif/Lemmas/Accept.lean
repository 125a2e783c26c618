import Verif.Lemmas.Stringify
import Verif.Spec.Construct
import Verif.Lemmas.Construct
import Verif.Lemmas.Prepare
import Verif.Lemmas.Fire

namespace Symbolic

theorem contextOf_iff {g : Goal} {sign : Bool} {p : Name} {os : List Obj} :
    contextOf g = .ok (sign, p, os) ↔ ∃ ts, g.IsLiteral sign p ts ∧ os = ts.map Term.obj := by
  unfold contextOf Goal.IsLiteral
  split
  · simp only [Res.ok.injEq, Prod.mk.injEq, Goal.atom.injEq, reduceCtorEq, and_false, or_false]
    constructor
    · rintro ⟨rfl, rfl, rfl⟩; exact ⟨_, ⟨rfl, rfl, rfl⟩, rfl⟩
    · rintro ⟨ts, ⟨rfl, rfl, rfl⟩, rfl⟩; exact ⟨rfl, rfl, rfl⟩
  · simp only [Res.ok.injEq, Prod.mk.injEq, Goal.neg.injEq, Goal.atom.injEq, reduceCtorEq, and_false, false_or]
    constructor
    · rintro ⟨rfl, rfl, rfl⟩; exact ⟨_, ⟨rfl, rfl, rfl⟩, rfl⟩
    · rintro ⟨ts, ⟨rfl, rfl, rfl⟩, rfl⟩; exact ⟨rfl, rfl, rfl⟩
  · rename_i h1 h2
    simp only [reduceCtorEq, false_iff, not_exists, not_and]
    rintro ts (⟨-, rfl⟩ | ⟨-, rfl⟩)
    · exact absurd rfl (h1 _ _)
    · exact absurd rfl (h2 _ _)

theorem unit_ex {x : Res Unit} : (∃ a, x = .ok a) ↔ x = .ok () :=
  ⟨fun ⟨_, h⟩ => h, fun h => ⟨_, h⟩⟩

mutual
theorem Goal.create_iff {m : ObjMap} (hm : m.NonEmpty) : ∀ (g : Goal), g.create m = .ok () ↔ g.Supported
  | .atom _ _ => by simp [Goal.create, Goal.Supported]
  | .conj gs => by rw [Goal.create, Goal.createAll_iff hm gs, Goal.Supported]
  | .disj gs => by rw [Goal.create, Goal.createAll_iff hm gs, Goal.Supported]
  | .neg g => by rw [Goal.create, Goal.create_iff hm g, Goal.Supported]
  | .all vars g => by
    rw [Goal.Supported, ← Goal.create_iff hm g, Goal.create]
    simp [paramGen_ok hm, Res.bind_eq_ok, unit_ex]
  | .ex vars g => by
    rw [Goal.Supported, ← Goal.create_iff hm g, Goal.create]
    simp [paramGen_ok hm, Res.bind_eq_ok, unit_ex]
  | .other => by simp [Goal.create, Goal.Supported]
theorem Goal.createAll_iff {m : ObjMap} (hm : m.NonEmpty) : ∀ (gs : List Goal),
    Goal.createAll gs m = .ok () ↔ Goal.SupportedAll gs
  | [] => by simp [Goal.createAll, Goal.SupportedAll]
  | g :: gs => by
    rw [Goal.SupportedAll, ← Goal.create_iff hm g, ← Goal.createAll_iff hm gs, Goal.createAll]
    simp [Res.bind_eq_ok, unit_ex]
end

theorem axMatchLoop_ok (ap xp : List Obj) : ∀ (ps qs : List Obj) (acc : AxMatch), ps.length ≤ qs.length →
    ∃ r, axMatchLoop ap xp ps qs acc = .ok r
  | [], _, acc, _ => ⟨_, by rw [axMatchLoop]⟩
  | _ :: _, [], _, h => by simp at h
  | p :: ps, q :: qs, acc, h => by
    have h' : ps.length ≤ qs.length := by simpa using h
    rw [axMatchLoop]
    split
    · split
      · exact axMatchLoop_ok ap xp ps qs _ h'
      · exact ⟨_, rfl⟩
    · exact axMatchLoop_ok ap xp ps qs _ h'
    · exact axMatchLoop_ok ap xp ps qs _ h'
    · exact axMatchLoop_ok ap xp ps qs _ h'

theorem createSimple_loop_ok (sign : Bool) (params : List Obj) (pred : Name) (ep : List Obj) : ∀ (axs : List Ax),
    (∀ ax ∈ axs, ax.pos = sign → ax.pred = pred → ep.length ≤ ax.ctxArgs.length) →
    createSimple.loop sign params pred ep axs = .ok ()
  | [], _ => rfl
  | ax :: axs, h => by
    have ih := createSimple_loop_ok sign params pred ep axs fun ax hm => h ax (by simp [hm])
    rw [createSimple.loop, ih]
    split
    · rename_i hc
      obtain ⟨r, hr⟩ := axMatchLoop_ok params ax.op.params ep ax.ctxArgs ⟨ax.op.params, [], []⟩
        (h ax (by simp) hc.1 hc.2)
      rw [axMatch, hr]
      rfl
    · rfl

theorem createSimple_ok (m : ObjMap) (axs : List Ax) (sign : Bool) (params : List Obj) :
    ∀ (es : List (Name × List Term)),
      (∀ p ts, (p, ts) ∈ es → ∀ ax ∈ axs, ax.pos = sign → ax.pred = p → ts.length ≤ ax.ctxArgs.length) →
      createSimple m axs sign params es = .ok ()
  | [], _ => rfl
  | (p, ts) :: es, h => by
    have ih := createSimple_ok m axs sign params es fun p ts hm => h p ts (by simp [hm])
    rw [createSimple, ih]
    split
    · rw [createSimple_loop_ok sign params p _ axs fun ax ha h1 h2 => by
        simpa using h p ts (by simp) ax ha h1 h2]
      rfl
    · rfl

/-- The axioms have room for the arguments of every effect that triggers them. -/
def Fits (axs : List Ax) (writes : Bool → Name → Nat → Prop) : Prop :=
  ∀ sign p k, writes sign p k → ∀ ax ∈ axs, ax.pos = sign → ax.pred = p → k ≤ ax.ctxArgs.length

mutual
theorem Eff.create_iff {m : ObjMap} (hm : m.NonEmpty) {axs : List Ax} : ∀ (e : Eff) (params : List Obj),
    Fits axs (fun sign => e.Writes sign) → (e.create m axs params = .ok () ↔ e.Supported)
  | .mk fs adds dels cs, params, h => by
    have h1 := FList.create_iff hm fs params (axs := axs) fun s p k hw => h s p k (by dsimp only; rw [Eff.Writes]; exact .inl hw)
    have h2 := CList.create_iff hm cs params (axs := axs) fun s p k hw =>
      h s p k (by dsimp only; rw [Eff.Writes]; exact .inr (.inr (.inr hw)))
    have h3 := createSimple_ok m axs true params adds fun p ts ht =>
      h true p ts.length (by dsimp only; rw [Eff.Writes]; exact .inr (.inl ⟨rfl, ts, ht, rfl⟩))
    have h4 := createSimple_ok m axs false params dels fun p ts ht =>
      h false p ts.length (by dsimp only; rw [Eff.Writes]; exact .inr (.inr (.inl ⟨rfl, ts, ht, rfl⟩)))
    rw [Eff.create, Eff.Supported, ← h1, ← h2]
    simp [Res.bind_eq_ok, unit_ex, h3, h4]
theorem FList.create_iff {m : ObjMap} (hm : m.NonEmpty) {axs : List Ax} : ∀ (e : FList) (params : List Obj),
    Fits axs (fun sign => e.Writes sign) → (e.create m axs params = .ok () ↔ e.Supported)
  | .nil, params, _ => by simp [FList.create, FList.Supported]
  | .cons vars e rest, params, h => by
    have h1 := Eff.create_iff hm e (params ++ vars) (axs := axs) fun s p k hw =>
      h s p k (by dsimp only; rw [FList.Writes]; exact .inl hw)
    have h2 := FList.create_iff hm rest params (axs := axs) fun s p k hw =>
      h s p k (by dsimp only; rw [FList.Writes]; exact .inr hw)
    rw [FList.create, FList.Supported, ← h1, ← h2]
    simp [Res.bind_eq_ok, unit_ex, paramGen_ok hm]
theorem CList.create_iff {m : ObjMap} (hm : m.NonEmpty) {axs : List Ax} : ∀ (e : CList) (params : List Obj),
    Fits axs (fun sign => e.Writes sign) → (e.create m axs params = .ok () ↔ e.Supported)
  | .nil, params, _ => by simp [CList.create, CList.Supported]
  | .cons g e rest, params, h => by
    have h1 := Eff.create_iff hm e params (axs := axs) fun s p k hw =>
      h s p k (by dsimp only; rw [CList.Writes]; exact .inl hw)
    have h2 := CList.create_iff hm rest params (axs := axs) fun s p k hw =>
      h s p k (by dsimp only; rw [CList.Writes]; exact .inr hw)
    rw [CList.create, CList.Supported, ← h1, ← h2, ← Goal.create_iff hm g]
    simp [Res.bind_eq_ok, unit_ex]
end

theorem Op.create_iff {m : ObjMap} (hm : m.NonEmpty) {axs : List Ax} (op : Op)
    (h : Fits axs (fun sign => op.eff.Writes sign)) :
    op.create m axs = .ok () ↔ op.pre.Supported ∧ op.eff.Supported := by
  rw [Op.create, ← Goal.create_iff hm op.pre, ← Eff.create_iff hm op.eff op.params h]
  simp [Res.bind_eq_ok, unit_ex, paramGen_ok hm]

theorem forall₂_exists_of_mem' {R : α → β → Prop} {l : List α} {l' : List β} (h : List.Forall₂ R l l') {b : β}
    (hb : b ∈ l') : ∃ a ∈ l, R a b := by
  induction h with
  | nil => simp at hb
  | cons h _ ih =>
    rcases List.mem_cons.1 hb with rfl | hb
    · exact ⟨_, by simp, h⟩
    · obtain ⟨a, ha, h'⟩ := ih hb
      exact ⟨a, by simp [ha], h'⟩

section
variable [StrHash]

theorem prepareLoop_returns {c : NfCtx} {pre : Goal} {params : List Obj} : ∀ (l : List (List Obj)),
    (∀ as ∈ l, ∃ r, pre.dnf c params as = .ok r) → ∃ r, prepareLoop c pre params l = .ok r
  | [], _ => ⟨[], rfl⟩
  | as :: l, h => by
    obtain ⟨r, hr⟩ := h as (by simp)
    obtain ⟨r', hr'⟩ := prepareLoop_returns l fun as hm => h as (by simp [hm])
    exact ⟨_, by rw [prepareLoop, hr, Res.bind_ok, hr', Res.bind_ok, Res.pure_eq]⟩

/-- One axiom is constructed iff its conditions are supported, its context is a literal and its string can be computed. -/
theorem Ax.make_iff {t : Ptree} (ht : t.ContextsFit) {axs : List Ax} {op : Op} (hop : op ∈ t.ops)
    (ha : op.isAxiom = true) (hf : Fits axs (fun sign => op.eff.Writes sign)) :
    (∃ ax, Ax.make ⟨t.constants ++ t.objects, ObjMap.create (t.constants ++ t.objects), []⟩ axs op = .ok ax) ↔
      (op.pre.Supported ∧ op.eff.Supported) ∧ (∃ sign p ts, op.pre.IsLiteral sign p ts) ∧
        (∀ p ts, op.pre = .neg (.atom p ts) → ¬ AlwaysTrue (t.constants ++ t.objects) op.params p ts) ∧
        ConflictFree (t.constants ++ t.objects) (fun _ => False) (Env.none.bind op.params op.params) op.eff := by
  have hm := ObjMap.nonEmpty_create (t.constants ++ t.objects)
  constructor
  · rintro ⟨ax, h⟩
    obtain ⟨h1, -, h2, -⟩ := Ax.make_ok h
    obtain ⟨ts, h3, -⟩ := contextOf_iff.1 h2
    obtain ⟨hwf, hc⟩ := ht.contexts op hop ha ⟨_, _, ts, h3⟩
    exact ⟨(Op.create_iff hm op hf).1 h1, ⟨_, _, ts, h3⟩,
      (stringify_iff h3 (ht.params op hop ha) hwf hc (ht.effects op hop ha).1 (ht.effects op hop ha).2 ht.eqNoType _).1
        (Ax.make_stringify h)⟩
  · rintro ⟨h1, ⟨sign, p, ts, h2⟩, h4⟩
    obtain ⟨hwf, hc⟩ := ht.contexts op hop ha ⟨sign, p, ts, h2⟩
    have hstr := (stringify_iff h2 (ht.params op hop ha) hwf hc (ht.effects op hop ha).1 (ht.effects op hop ha).2
      ht.eqNoType _).2 h4
    have hctx := contextOf_iff.2 ⟨ts, h2, rfl⟩
    obtain ⟨tuples, htu⟩ : ∃ l, genLoop (paramTypes (ObjMap.create (t.constants ++ t.objects)) op.params) = .ok l := by
      have := paramGen_ok hm op.params
      simp only [paramGen, Comb.ctor] at this
      split at this
      · cases this
      · rename_i hn
        exact ⟨_, genLoop_ok fun o ho he => hn (List.any_eq_true.2 ⟨o, ho, by simp [he]⟩)⟩
    obtain ⟨r, hr⟩ := prepareLoop_returns (c := ⟨t.constants ++ t.objects, ObjMap.create (t.constants ++ t.objects), []⟩)
      (pre := op.pre) (params := op.params) tuples fun as hm' => by
        have hw := gen_mem htu hm'
        obtain ⟨r, h, -⟩ := dnf_sat ht.names op.pre op.params as hw.length (fun o ho => (hw.mem ho).1) hwf hc
          (contextOf_regular hctx _ _)
        exact ⟨r, h⟩
    exact ⟨_, by rw [Ax.make, (Op.create_iff hm op hf).2 h1, Res.bind_ok, htu, Res.bind_ok, hr, Res.bind_ok, hctx,
      Res.bind_ok, hstr, Res.bind_ok, Res.pure_eq]⟩

theorem makeAxioms_iff {c : NfCtx} {axs : List Ax} : ∀ (ops : List Op),
    (∃ r, Pddl.makeAxioms c axs ops = .ok r) ↔ ∀ op ∈ ops, ∃ ax, Ax.make c axs op = .ok ax
  | [] => by simp [Pddl.makeAxioms]
  | op :: ops => by
    have ih := makeAxioms_iff (c := c) (axs := axs) ops
    simp only [List.mem_cons, forall_eq_or_imp, ← ih]
    simp only [Pddl.makeAxioms, Res.bind_eq_ok, Res.pure_eq, Res.ok.injEq]
    constructor
    · rintro ⟨r, ax, h1, r', h2, -⟩; exact ⟨⟨ax, h1⟩, r', h2⟩
    · rintro ⟨⟨ax, h1⟩, r', h2⟩; exact ⟨_, ax, h1, r', h2, rfl⟩

omit [StrHash] in
theorem createOps_iff {m : ObjMap} {axs : List Ax} : ∀ (ops : List Op),
    Pddl.createOps m axs ops = .ok () ↔ ∀ op ∈ ops, op.create m axs = .ok ()
  | [] => by simp [Pddl.createOps]
  | op :: ops => by
    simp only [List.mem_cons, forall_eq_or_imp, ← createOps_iff ops]
    simp [Pddl.createOps, Res.bind_eq_ok, unit_ex]

omit [StrHash] in
theorem createPreds_ok {m : ObjMap} (hm : m.NonEmpty) : ∀ (ps : List PredDecl), Pddl.createPreds m ps = .ok ()
  | [] => rfl
  | p :: ps => by rw [Pddl.createPreds, paramGen_ok hm, Res.bind_ok, createPreds_ok hm ps]

omit [StrHash] in
theorem createDrvs_iff {m : ObjMap} (hm : m.NonEmpty) : ∀ (ds : List Drv),
    Pddl.createDrvs m ds = .ok () ↔ ∀ d ∈ ds, d.body.Supported
  | [] => by simp [Pddl.createDrvs]
  | d :: ds => by
    simp only [List.mem_cons, forall_eq_or_imp]
    rw [← createDrvs_iff hm ds, ← Goal.create_iff hm]
    simp [Pddl.createDrvs, Res.bind_eq_ok, paramGen_ok hm, unit_ex]

end

end Symbolic
