import Verif.Proofs.ReadGraphql
import Verif.Proofs.SubExprRun
import Verif.Props.Semantics

/-! C55: fields which are expressions over a sub-graph have the values of the expressions over the data -/

namespace Hiku.SubExpr

open Hiku.Expr

variable {env : Env} {D : Data} {U : String → Opts → Prop} {F : Fns} {decls : Nat → Decl} {base : Ty → Val → Prop}

/-- what a procedure gives when it ends with data -/
def procOf (w : World) (p : Nat) (this root : Val) (opts : List Val) : Val :=
  match w.proc p this root opts with
  | .ok v => if v.refLike then .none else v
  | .error _ => .none

theorem procOf_refLike (w : World) (p : Nat) (this root : Val) (opts : List Val) : (procOf w p this root opts).refLike = false := by
  unfold procOf
  split
  · split
    · rfl
    · rename_i h; simpa using h
  · rfl

theorem requires_of (hgood : GoodSys U env.sys) {gi : Nat} {g : Graph} (hg : env.sys.graphs[gi]? = some g) : RequiresOk U g :=
  fun gn hn n gl hget r hr => ((hgood.links gi g hg gn hn n gl hget).2 r hr).2

theorem typed_agree {gi : Nat} {g : Graph} {sub sub' : SubSem} (h : Agree D U gi g sub sub')
    (ht : TypedData D sub' U gi g base) : TypedData D sub U gi g base := by
  intro gn n gf i hn hu hget ho hi
  rw [h gn n gf none i hn hget hu ho hi]
  exact ht gn n gf i hn hu hget ho hi

theorem links_agree {gi : Nat} {g : Graph} {sub sub' : SubSem} (h : Agree D U gi g sub sub') (hr : RequiresOk U g)
    (ht : LinksOk D U gi g sub') : LinksOk D U gi g sub := by
  intro gn n gl o i hn hget hu hi
  rw [h.link hr hn hget hi]
  exact ht gn n gl o i hn hget hu hi

theorem optVals_eq (gf : GField) (o : Opts) : (gf.options.map fun op => (dget (o.getD []) op.name).getD .none) = optVals gf o := rfl

section
variable (hgood : GoodSys U env.sys) (hL : Loads env D (exprSub F decls env.sys D) U)
  (hE : ExprFields env D F decls base U)
include hgood hL hE

theorem links_of {gi : Nat} {g : Graph} (hg : env.sys.graphs[gi]? = some g) :
    LinksOk D U gi g (exprSub F decls env.sys D gi) :=
  fun gn n gl o i hn hget hu hi => (hL.linkValue gi g gn n gl o i _ hg hn hget hu hi rfl).2.2

/-- a field which is an expression: what is known about the lower graph, and the value of the expression -/
theorem field_run {gi : Nat} {g : Graph} (hg : env.sys.graphs[gi]? = some g) {nn : String} {gn : GNode} {n : String} {o : Opts}
    {gf : GField} {i : Val} {sg : Nat} {reqs : QNode} {p : Nat} (hn : g.node nn = some gn) (hget : gn.get n = some (.field gf))
    (hfunc : gf.func = .checked sg reqs p) (hu : U n o) (ho : OptsGiven gf o) (hi : D.obj gi nn i)
    (hag : ∀ gj g', gj < gi → env.sys.graphs[gj]? = some g' →
      Agree D U gj g' (semSub env.sys D gj) (exprSub F decls env.sys D gj)) :
    ∃ s g' t q w v, env.sys.subs[sg]? = some s ∧ s.graph < gi ∧ env.sys.graphs[s.graph]? = some g' ∧ g'.node s.node = some t ∧
      dget reqs.fieldsMap THIS = some (.link THIS q none none) ∧
      meaning F D (exprSub F decls env.sys D s.graph) g' t (decls p) i (optVals gf o) = .ok w ∧ reify w = some v ∧
      v.refLike = false ∧ D.obj s.graph s.node i ∧
      (∀ q1 r1, Includes q1 q → q1.Plain → NodeOk U g' t q1 →
        Includes r1 (.mk (reqs.fields.filter fun r => r.name ≠ THIS) false) → r1.Plain → NodeOk U g' g'.root r1 →
        env.world.proc p (semNode D (semSub env.sys D s.graph) g' t i q1)
          (semNode D (semSub env.sys D s.graph) g' g'.root rootIdent r1) (optVals gf o) = .ok v) ∧
      env.world.proc p (semNode D (semSub env.sys D s.graph) g' t i q)
          (semNode D (semSub env.sys D s.graph) g' g'.root rootIdent
            (.mk (reqs.fields.filter fun r => r.name ≠ THIS) false)) (optVals gf o) = .ok v := by
  obtain ⟨_, s, g', t, h1, h2, h3, h4, _, h5⟩ := hgood.subs gi g hg gn (.inr ⟨nn, hn⟩) n gf hget sg reqs p hfunc
  have hA := hag s.graph g' h2 h3
  have hR := requires_of hgood h3
  have hf := hE.fields gi g nn gn n gf sg reqs p s g' t hg hn hget hfunc h1 h3 h4
  obtain ⟨it, hit, hnm⟩ := h5.2.1
  have hq : ∃ q, dget reqs.fieldsMap THIS = some (.link THIS q none none) := by
    have hsome : (dget reqs.fieldsMap THIS).isSome := by
      unfold QNode.fieldsMap
      rw [dget_isSome_iff, mem_keys_dmk, List.map_map]
      exact List.mem_map.2 ⟨it, hit, hnm⟩
    obtain ⟨x, hx⟩ := Option.isSome_iff_exists.1 hsome
    have hname : x.name = THIS := by
      unfold QNode.fieldsMap at hx
      rw [dget_dmk] at hx
      have := dget_mem hx
      simp only [List.mem_reverse, List.mem_map, Prod.mk.injEq] at this
      obtain ⟨y, _, h, rfl⟩ := this
      exact h
    have := h5.2.2 x (fieldsMap_mem hx)
    rw [if_pos hname] at this
    obtain ⟨q, rfl, _⟩ := this
    exact ⟨q, hx⟩
  obtain ⟨q, hq⟩ := hq
  have hvals := hE.options gi g nn gn n o gf sg reqs p s g' hg hn hget hfunc hu ho h1 h3
  rw [hf.options] at hvals
  have hobj := hE.obj gi g nn gn n gf sg reqs p s i hg hn hget hfunc h1 hi
  obtain ⟨w, hw, hqq, hqp, hoo, hrun⟩ := expr_run hf hE.parametric hA hR
    (links_agree hA hR (links_of hgood hL hE h3))
    (typed_agree hA (hE.typed s.graph g' h3 ⟨s, List.mem_of_getElem? h1, rfl⟩)) (hgood.nodes _ _ h3) rfl h4 h5 hq hobj hvals
  obtain ⟨v, hv, hnr⟩ := hE.values gi g nn gn n o gf sg reqs p s g' t i w hg hn hget hfunc hu ho h1 hi h3 h4 hw
  refine ⟨s, g', t, q, w, v, h1, h2, h3, h4, hq, hw, hv, hnr, hobj, hrun v hv, ?_⟩
  refine hrun v hv q _ hqq hqp ?_ hoo ?_ ?_
  · have := h5.2.2 _ (fieldsMap_mem hq)
    rw [if_pos (show (QItem.link THIS q none none).name = THIS from rfl)] at this
    obtain ⟨_, e, h⟩ := this
    cases e
    exact h
  · exact QNode.plain_iff.2 ⟨rfl, fun i hi => (QNode.plain_iff.1 h5.1).2 i (List.mem_of_mem_filter hi)⟩
  · refine nodeOk_iff.2 ⟨fun i hi => ?_, fun e => by cases e⟩
    obtain ⟨k1, k2⟩ := List.mem_filter.1 hi
    have := h5.2.2 i k1
    rwa [if_neg (by simpa using k2)] at this

variable (hD : D.proc = procOf env.world)
include hD

theorem agree : ∀ (gi : Nat) g, env.sys.graphs[gi]? = some g →
    Agree D U gi g (semSub env.sys D gi) (exprSub F decls env.sys D gi) := by
  intro gi
  induction gi using Nat.strongRecOn with
  | ind gi ih =>
    intro g hg gn n gf o i hn hget hu ho hi
    unfold semField
    cases hfunc : gf.func with
    | plain f => rfl
    | checked sg reqs p =>
      dsimp only
      rw [optVals_eq]
      have hsome := (hgood.subs gi g hg gn hn n gf hget sg reqs p hfunc).1
      rcases hn with rfl | ⟨nn, hn⟩
      · cases hsome
      · have hobj : D.obj gi nn i := (identOk_node hn).1 hi
        obtain ⟨s, g', t, q, w, v, h1, h2, h3, h4, h5, h6, h7, h8, _, _, h10⟩ :=
          field_run hgood hL hE hg hn hget hfunc hu ho hobj fun gj g' h h' => ih gj h g' h'
        rw [semSub, exprSub]
        simp only [h1, h2, h3, h4, h5, dite_true]
        rw [h6, hD]
        simp only [procOf, h10, h8, valueOf, h7, Option.getD_some]
        rfl

/-- the procedures of the fields are as they should be -/
theorem subFields : SubFieldsOk env D U where
  noRefsProc p this root opts := by rw [hD]; exact procOf_refLike _ _ _ _ _
  subObj := hE.obj
  proc := by
    intro gi g nn gn n o gf sg reqs p s g' t q i q1 r1 hg hn hget hfunc hu ho hs hi hg' ht hq k1 k2 k3 k4 k5 k6
    obtain ⟨s', g'', t', q', w, v, h1, h2, h3, h4, h5, h6, h7, h8, _, h9, h10⟩ :=
      field_run hgood hL hE hg hn hget hfunc hu ho hi fun gj g' _ h' => agree hgood hL hE hD gj g' h'
    rw [hs] at h1; cases h1
    rw [hg'] at h3; cases h3
    rw [ht] at h4; cases h4
    rw [hq] at h5; cases h5
    rw [h9 q1 r1 k1 k2 k3 k4 k5 k6, hD]
    simp only [procOf, h10, h8]
    rfl

theorem loads : Loads env D (semSub env.sys D) U where
  fieldsRoot := hL.fieldsRoot
  fieldsNode := hL.fieldsNode
  linkPlain := hL.linkPlain
  linkRoot := by
    intro n gi g nm gl o r v hg hget hu hr hv
    refine hL.linkRoot n gi g nm gl o r v hg hget hu hr ?_
    have := requires_of hgood hg g.root (.inl rfl) nm gl hget r hr
    simp only [ItemOk] at this
    obtain ⟨hu', gf, h1, h2⟩ := this
    rw [hv]
    exact (agree hgood hL hE hD gi g hg).name (.inl rfl) h1 hu' h2 rfl
  linkNode := by
    intro n gi g nn gn nm gl o r ids vs hg hn hget hu hr hne hids hv
    refine hL.linkNode n gi g nn gn nm gl o r ids vs hg hn hget hu hr hne hids ?_
    have := requires_of hgood hg gn (.inr ⟨nn, hn⟩) nm gl hget r hr
    simp only [ItemOk] at this
    obtain ⟨hu', gf, h1, h2⟩ := this
    rw [hv]
    refine List.map_congr_left fun i hi => ?_
    exact (agree hgood hL hE hD gi g hg).name (.inr ⟨nn, hn⟩) h1 hu' h2 ((identOk_node hn).2 (hids i hi))
  linkValue := by
    intro gi g gn nm gl o i v hg hn hget hu hi hv
    refine hL.linkValue gi g gn nm gl o i v hg hn hget hu hi ?_
    rw [hv]
    exact (agree hgood hL hE hD gi g hg).link (requires_of hgood hg) hn hget hi
  noRefs := hL.noRefs

theorem conforms : Conforms env D U where
  toLoads := loads hgood hL hE hD
  toSubFieldsOk := subFields hgood hL hE hD

end

/-- meanings which agree give the same values of queries -/
theorem semNode_agree {gi : Nat} {g : Graph} {sub sub' : SubSem} (hag : Agree D U gi g sub sub') (hr : RequiresOk U g)
    (hl : LinksOk D U gi g sub') :
    ∀ (q : QNode) gn i, IsNode g gn → IdentOk D gi gn i → NodeOk U g gn q →
      semNode D sub g gn i q = semNode D sub' g gn i q := by
  refine QNode.ind ?_
  intro fs ord ih gn i hn hi hok
  rw [semNode, semNode, semItems_map, semItems_map]
  congr 2
  refine List.map_congr_left fun it hit => ?_
  have hit' := (nodeOk_iff.1 hok).1 it hit
  congr 1
  rcases hit'.cases with hF | ⟨gl, hLi⟩
  · obtain ⟨hu, gf, h1, h2⟩ := hF
    rw [semItem_field h1, semItem_field h1]
    exact hag.name hn h1 hu h2 hi
  · cases it with
    | field n o a =>
      simp only [ItemOk] at hit'
      obtain ⟨hu, gf, h1, h2⟩ := hit'
      rw [semItem, semItem]
      exact hag.name hn h1 hu h2 hi
    | link n q o a =>
      simp only [ItemOk] at hit'
      obtain ⟨hu, ⟨gl, t, h1, h2, h3⟩ | ⟨gf, h1, h2⟩⟩ := hit'
      · have hlk := hag.link hr (o := o) hn h1 hi
        have htar := hl gn n gl o i hn h1 hu hi
        have hsub : ∀ j ∈ targets gl.typeEnum (semLink D sub' gn i gl o), semNode D sub g t j q = semNode D sub' g t j q :=
          fun j hj => ih n q o a hit t j (.inr ⟨_, h2⟩) ((identOk_node h2).2 (htar j hj)) h3
        simp only [semItem, h1, h2, hlk]
        cases hte : gl.typeEnum with
        | one =>
          rw [hte] at hsub
          exact hsub _ (by simp [targets])
        | maybe =>
          rw [hte] at hsub
          dsimp only
          by_cases hnone : semLink D sub' gn i gl o = .nothing
          · simp only [hnone, if_true]
          · simp only [hnone, if_false]
            exact hsub _ (by simp [targets, hnone])
        | many =>
          rw [hte] at hsub
          dsimp only
          congr 1
          exact List.map_congr_left hsub
      · rw [semItem_field h1, semItem_field h1]
        exact hag.name hn h1 hu h2 hi

/-! ### The data knows nothing about the procedures -/

theorem dataGet_proc (D : Data) (f : Nat → Val → Val → List Val → Val) : dataGet { D with proc := f } = dataGet D := by
  funext sub g o n
  unfold dataGet
  cases o.node.get n with
  | none => rfl
  | some it => cases it <;> rfl

theorem meaning_proc (F : Fns) (D : Data) (f : Nat → Val → Val → List Val → Val) :
    meaning F { D with proc := f } = meaning F D := by
  funext sub g node d i opts
  have : ∀ get get' : Obj → String → Except Err (PV Obj), get = get' → ∀ t : Term,
      denote (pyDom F get) (.fns (d.fns.map (·.1))) (.obj ⟨g.root, rootIdent⟩)
        (("this", .obj ⟨node, i⟩) :: d.params.zip (opts.map .val)) t =
      denote (pyDom F get') (.fns (d.fns.map (·.1))) (.obj ⟨g.root, rootIdent⟩)
        (("this", .obj ⟨node, i⟩) :: d.params.zip (opts.map .val)) t := by
    intro get get' h t
    subst h
    rfl
  unfold meaning
  split
  · rfl
  · exact this _ _ (by rw [dataGet_proc]) _

theorem exprSub_proc (sys : Sys) (D : Data) (f : Nat → Val → Val → List Val → Val) (F : Fns) (decls : Nat → Decl) :
    ∀ gi, exprSub F decls sys { D with proc := f } gi = exprSub F decls sys D gi := by
  intro gi
  induction gi using Nat.strongRecOn with
  | ind gi ih =>
    funext sg reqs p opts i
    rw [exprSub, exprSub]
    cases sys.subs[sg]? with
    | none => rfl
    | some s =>
      dsimp only
      by_cases h : s.graph < gi
      · simp only [h, dite_true, ih s.graph h, meaning_proc]
      · simp only [h, dite_false]

theorem semNode_proc (D : Data) (f : Nat → Val → Val → List Val → Val) (sub : SubSem) (g : Graph) :
    ∀ (q : QNode) gn i, semNode { D with proc := f } sub g gn i q = semNode D sub g gn i q := by
  refine QNode.ind ?_
  intro fs ord ih gn i
  rw [semNode, semNode, semItems_map, semItems_map]
  congr 2
  refine List.map_congr_left fun it hit => ?_
  congr 1
  cases it with
  | field n o a => rfl
  | link n q o a =>
    have ih' : ∀ t j, semNode { D with proc := f } sub g t j q = semNode D sub g t j q := fun t j => ih n q o a hit t j
    simp only [semItem, ih']
    rfl

theorem loads_proc (f : Nat → Val → Val → List Val → Val) (hL : Loads env D (exprSub F decls env.sys D) U) :
    Loads env { D with proc := f } (exprSub F decls env.sys { D with proc := f }) U := by
  rw [show exprSub F decls env.sys { D with proc := f } = exprSub F decls env.sys D from
    funext fun gi => exprSub_proc env.sys D f F decls gi]
  exact ⟨hL.fieldsRoot, hL.fieldsNode, hL.linkPlain, hL.linkRoot, hL.linkNode, hL.linkValue, hL.noRefs⟩

theorem exprFields_proc (f : Nat → Val → Val → List Val → Val) (hE : ExprFields env D F decls base U) :
    ExprFields env { D with proc := f } F decls base U where
  parametric := hE.parametric
  typed := by
    intro gi g hg hs
    rw [exprSub_proc]
    exact hE.typed gi g hg hs
  obj := hE.obj
  fields := hE.fields
  options := hE.options
  values := by
    intro gi g nn gn n o gf sg reqs p s g' t i w h1 h2 h3 h4 h5 h6 h7 h8 h9 h10 h11
    rw [exprSub_proc] at h11
    rw [meaning_proc] at h11
    exact hE.values gi g nn gn n o gf sg reqs p s g' t i w h1 h2 h3 h4 h5 h6 h7 h8 h9 h10 h11

/-! ### C55 -/

/-- C55: fields written as expressions over a lower graph.  Whatever the schedule, the query ends, and its result is what
the reference semantics gives when the value of such a field is the value of the written expression over the data of the
lower graph (see `meaning`): `this` is the object itself, reading a field or a link asks the data. -/
theorem c55_result (hgood : GoodSys U env.sys) (hH : Faithful env.H D U)
    (hL : Loads env D (exprSub F decls env.sys D) U) (hE : ExprFields env D F decls base U)
    {choose : Nat → List Nat → List Nat} (hch : ValidChoice choose)
    {gi : Nat} {g : Graph} {q q' : QNode} (hg : env.sys.graphs[gi]? = some g)
    (hi : initOptions g q = .ok q') (hq : NodeOk U g g.root q') {fuel inner : Nat}
    (hf : costQuery env.sys 1 0 gi q < fuel) (hin : 1 + costQuery env.sys 0 1 gi q < inner) :
    ∃ idx, execute env choose inner fuel gi q = .ok (idx, q') ∧
      readNode env.H idx rootName rootIdent q' =
        .ok (semNode D (exprSub F decls env.sys D gi) g g.root rootIdent q') := by
  have hL' := loads_proc (procOf env.world) hL
  have hE' := exprFields_proc (procOf env.world) hE
  obtain ⟨idx, h1, h2⟩ := c06_result hgood (D := { D with proc := procOf env.world }) hH
    (conforms hgood hL' hE' rfl) hch hg hi hq hf hin
  refine ⟨idx, h1, ?_⟩
  rw [h2]
  simp only [semQuery, hg]
  rw [semNode_agree (agree hgood hL' hE' rfl gi g hg) (requires_of hgood hg) (links_of hgood hL' hE' hg) q' g.root rootIdent
    (.inl rfl) rfl hq, semNode_proc, exprSub_proc]

/-- C55, for one field: the procedure made by `postprocess`, called with any results of the sub-query which contain what it
requires (more may be loaded, for other fields), gives the value of the expression over the data. -/
theorem c55_procedure (hgood : GoodSys U env.sys) (hL : Loads env D (exprSub F decls env.sys D) U)
    (hE : ExprFields env D F decls base U)
    {gi : Nat} {g : Graph} (hg : env.sys.graphs[gi]? = some g) {nn : String} {gn : GNode} {n : String} {o : Opts}
    {gf : GField} {i : Val} {sg : Nat} {reqs : QNode} {p : Nat} (hn : g.node nn = some gn) (hget : gn.get n = some (.field gf))
    (hfunc : gf.func = .checked sg reqs p) (hu : U n o) (ho : OptsGiven gf o) (hi : D.obj gi nn i) :
    ∃ s g' t q w v, env.sys.subs[sg]? = some s ∧ env.sys.graphs[s.graph]? = some g' ∧ g'.node s.node = some t ∧
      dget reqs.fieldsMap THIS = some (.link THIS q none none) ∧
      meaning F D (exprSub F decls env.sys D s.graph) g' t (decls p) i (optVals gf o) = .ok w ∧ reify w = some v ∧
      ∀ q1 r1, Includes q1 q → q1.Plain → NodeOk U g' t q1 →
        Includes r1 (.mk (reqs.fields.filter fun r => r.name ≠ THIS) false) → r1.Plain → NodeOk U g' g'.root r1 →
        env.world.proc p (semNode D (exprSub F decls env.sys D s.graph) g' t i q1)
          (semNode D (exprSub F decls env.sys D s.graph) g' g'.root rootIdent r1) (optVals gf o) = .ok v := by
  have hL' := loads_proc (procOf env.world) hL
  have hE' := exprFields_proc (procOf env.world) hE
  obtain ⟨s, g', t, q, w, v, h1, h2, h3, h4, h5, h6, h7, _, h8, h9, _⟩ :=
    field_run hgood hL' hE' hg hn hget hfunc hu ho hi fun gj g' _ h' => agree hgood hL' hE' rfl gj g' h'
  rw [exprSub_proc] at h6
  rw [meaning_proc] at h6
  refine ⟨s, g', t, q, w, v, h1, h3, h4, h5, h6, h7, ?_⟩
  intro q1 r1 k1 k2 k3 k4 k5 k6
  have hA := agree hgood hL' hE' rfl s.graph g' h3
  have hl := links_of hgood hL' hE' h3
  have := h9 q1 r1 k1 k2 k3 k4 k5 k6
  rw [semNode_agree hA (requires_of hgood h3) hl q1 t i (.inr ⟨_, h4⟩) ((identOk_node h4).2 h8) k3,
    semNode_agree hA (requires_of hgood h3) hl r1 g'.root rootIdent (.inl rfl) rfl k6] at this
  simpa only [semNode_proc, exprSub_proc] using this

/-! ### Python values -/

/-- C55: the condition of `if` is a Python truth value -/
theorem c55_truth {O : Type} (v : PV O) : v.truthy = false ↔ PFalsy v := by
  cases v with
  | val v =>
    simp only [PV.truthy, falsy_iff]
    exact ⟨.val, fun h => by cases h; assumption⟩
  | obj o => simp only [PV.truthy]; exact ⟨nofun, nofun⟩
  | list xs => cases xs with
    | nil => exact ⟨fun _ => .list, fun _ => rfl⟩
    | cons x r => exact ⟨nofun, nofun⟩
  | dict xs => cases xs with
    | nil => exact ⟨fun _ => .dict, fun _ => rfl⟩
    | cons x r => exact ⟨nofun, nofun⟩
  | fn n => simp only [PV.truthy]; exact ⟨nofun, nofun⟩
  | fns xs => cases xs with
    | nil => exact ⟨fun _ => .fns, fun _ => rfl⟩
    | cons x r => exact ⟨nofun, nofun⟩

mutual
/-- C55: the value which is stored is the value of the expression -/
theorem c55_stored {O : Type} : ∀ (w : PV O) (v : Val), reify w = some v ↔ IsData w v
  | .val x, v => by
      rw [reify]
      constructor
      · intro h; cases h; exact .val _
      · intro h; cases h; rfl
  | .obj o, v => by rw [reify]; exact ⟨nofun, nofun⟩
  | .fn o, v => by rw [reify]; exact ⟨nofun, nofun⟩
  | .fns o, v => by rw [reify]; exact ⟨nofun, nofun⟩
  | .list xs, v => by
      rw [reify]
      constructor
      · intro h
        obtain ⟨l, h1, rfl⟩ := Option.map_eq_some_iff.1 h
        exact .list ((c55_stored_all xs l).1 h1)
      · intro h
        cases h with
        | list h => rw [(c55_stored_all xs _).2 h]; rfl
  | .dict xs, v => by
      rw [reify]
      constructor
      · intro h
        obtain ⟨l, h1, rfl⟩ := Option.map_eq_some_iff.1 h
        exact .dict ((c55_stored_kvs xs l).1 h1)
      · intro h
        cases h with
        | dict h => rw [(c55_stored_kvs xs _).2 h]; rfl
theorem c55_stored_all {O : Type} : ∀ (w : List (PV O)) (v : List Val), reifyAll w = some v ↔ AllData w v
  | [], v => by
      rw [reifyAll]
      constructor
      · intro h; cases h; exact .nil
      · intro h; cases h; rfl
  | x :: r, v => by
      rw [reifyAll]
      constructor
      · intro h
        split at h
        · rename_i a b h1 h2
          cases h
          exact .cons ((c55_stored x a).1 h1) ((c55_stored_all r b).1 h2)
        · cases h
      · intro h
        cases h with
        | cons h1 h2 => rw [(c55_stored x _).2 h1, (c55_stored_all r _).2 h2]
theorem c55_stored_kvs {O : Type} : ∀ (w : List (String × PV O)) (v : List (Val × Val)), reifyKvs w = some v ↔ KvsData w v
  | [], v => by
      rw [reifyKvs]
      constructor
      · intro h; cases h; exact .nil
      · intro h; cases h; rfl
  | (k, x) :: r, v => by
      rw [reifyKvs]
      constructor
      · intro h
        split at h
        · rename_i a b h1 h2
          cases h
          exact .cons ((c55_stored x a).1 h1) ((c55_stored_kvs r b).1 h2)
        · cases h
      · intro h
        cases h with
        | cons h1 h2 => rw [(c55_stored x _).2 h1, (c55_stored_kvs r _).2 h2]
end

example : reify (O := Unit) (.dict [("a", .list [.val (.int 1), .val .none])]) =
    some (.dict [(.str "a", .list [.int 1, .none])]) :=
  (c55_stored _ _).2 (.dict (.cons (.list (.cons (.val _) (.cons (.val _) .nil))) .nil))

end Hiku.SubExpr
