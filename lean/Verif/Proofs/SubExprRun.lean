import Verif.Proofs.SubExprSource

/-! C55: compiled expressions over trees -/

namespace Hiku.SubExpr

open Hiku.Expr

theorem rootTypes_ok {g : Graph} {rt : List (String × Ty)} (h : rootTypes g = .ok rt) :
    (rt.map (·.1)).Nodup ∧ (∀ n, dget rt n = (g.root.get n).map GItem.ty) ∧ dget g.types rootName = some (.record rt) := by
  obtain ⟨ts, h1, h2⟩ := types_root g
  unfold rootTypes at h
  rw [h1] at h
  cases h
  refine ⟨?_, h2, h1⟩
  unfold Graph.types at h1
  rw [show rootName = "__root__" from rfl, dget_dset_self] at h1
  cases h1
  exact nodup_dmk _

theorem vars_get {g : Graph} {rt : List (String × Ty)} (h : rootTypes g = .ok rt) {d : Decl} {node : String}
    (hn : ("this" :: d.params).Nodup) (x : String) :
    dget (exprVars rt d.fns node d.opts) x =
      if x = "this" then some (.ref node)
      else (dget (d.opts.map fun o => (o.name, o.ty.getD .any)) x).or (((g.root.get x).map GItem.ty).or (dget d.fns x)) := by
  obtain ⟨h1, h2, _⟩ := rootTypes_ok h
  unfold exprVars
  rw [dget_dset]
  by_cases e : x = "this"
  · subst e; rw [if_pos (show THIS = "this" from rfl), if_pos rfl]
  · rw [if_neg (fun e' : THIS = x => e e'.symm), if_neg e, dget_dupdate_nodup, dget_dupdate_nodup _ _ _ h1, h2]
    rw [List.map_map]
    exact (List.nodup_cons.1 hn).2

theorem optVal_get {opts : List GOption} {vals : List Val} {P : GOption → Val → Prop} (h : List.Forall₂ P opts vals) (x : String) :
    (dget (opts.map fun o => (o.name, o.ty.getD .any)) x = none ∧
      ∀ {O : Type}, dget ((opts.map (·.name)).zip (vals.map (PV.val (O := O)))) x = none) ∨
    ∃ o ∈ opts, ∃ v, dget (opts.map fun o => (o.name, o.ty.getD .any)) x = some (o.ty.getD .any) ∧ P o v ∧
      ∀ {O : Type}, dget ((opts.map (·.name)).zip (vals.map (PV.val (O := O)))) x = some (.val v) := by
  induction h with
  | nil => exact .inl ⟨rfl, rfl⟩
  | @cons o v os vs h _ ih =>
    by_cases e : o.name = x
    · subst e
      refine .inr ⟨o, by simp, v, ?_, h, ?_⟩
      · simp
      · simp
    · rcases ih with ⟨h1, h2⟩ | ⟨o', hm, v', h1, h2, h3⟩
      · refine .inl ⟨?_, ?_⟩
        · simp [dget_cons, e] at h1 ⊢; exact h1
        · intro O; simp only [List.map_cons, List.zip_cons_cons, dget_cons, e, if_false]; exact h2
      · refine .inr ⟨o', by simp [hm], v', ?_, h2, ?_⟩
        · simp only [List.map_cons, dget_cons, e, if_false]; exact h1
        · intro O; simp only [List.map_cons, List.zip_cons_cons, dget_cons, e, if_false]; exact h3

theorem dget_this_ne {V : Type} {x : String} (e : x ≠ "this") (a : V) (l : List (String × V)) :
    dget (("this", a) :: l) x = dget l x := by
  rw [dget_cons, if_neg (fun e' => e e'.symm)]

theorem same_opts {O1 O2 : Type} {R : O1 → O2 → Prop} : ∀ (ps : List String) (vals : List Val),
    SameKvs R (ps.zip (vals.map PV.val)) (ps.zip (vals.map PV.val))
  | [], _ => .nil
  | _ :: _, [] => .nil
  | _ :: ps, v :: vs => .cons ⟨rfl, .val v⟩ (same_opts ps vs)

section
variable {env : Env} {D : Data} {U : String → Opts → Prop} {gi : Nat} {g : Graph} {sub sub' : SubSem}
  {base : Ty → Val → Prop} {F : Fns} {node : String} {t : GNode} {d : Decl}

theorem asks_filter {q : QNode} {P : QItem → Bool} {f : String} {q' : QNode} {b : Bool} (h : Asks q f q')
    (hP : ∀ i : QItem, i.name = f → P i = true) : Asks (.mk (q.fields.filter P) b) f q' := by
  rcases h with ⟨o, a, h, rfl⟩ | ⟨o, a, h⟩
  · exact .inl ⟨o, a, List.mem_filter.2 ⟨h, hP _ rfl⟩, rfl⟩
  · exact .inr ⟨o, a, List.mem_filter.2 ⟨h, hP _ rfl⟩⟩

theorem fieldsMap_mem {q : QNode} {n : String} {it : QItem} (h : dget q.fieldsMap n = some it) : it ∈ q.fields := by
  unfold QNode.fieldsMap at h
  rw [dget_dmk] at h
  have := dget_mem h
  simp only [List.mem_reverse, List.mem_map, Prod.mk.injEq] at this
  obtain ⟨i, hi, _, rfl⟩ := this
  exact hi

theorem expr_globals (hl : LinksOk D U gi g sub) (ht : TypedData D sub U gi g base) (hroot : g.node rootName = none)
    (hsimple : SimpleTypes g d) (hn : ("this" :: d.params).Nodup) {rt : List (String × Ty)} (hrt : rootTypes g = .ok rt)
    (hnode : g.node node = some t) {q0 reqs q q1 r1 : QNode} {i : Val} {vals : List Val} (hq0 : Single q0)
    (hreqs : reqs = .mk (q0.fields.filter fun f => f.name ∉ d.params) false) (hok : ReqsOk U g t reqs)
    (hthis : dget reqs.fieldsMap THIS = some (.link THIS q none none)) (hi : D.obj gi node i)
    (hq1 : Includes q1 q) (hq1p : q1.Plain) (hq1ok : NodeOk U g t q1)
    (hr1 : Includes r1 (.mk (reqs.fields.filter fun r => r.name ≠ THIS) false)) (hr1p : r1.Plain) (hr1ok : NodeOk U g g.root r1)
    (hvals : List.Forall₂ (fun (op : GOption) v => OfType g.types base (op.ty.getD .any) v) d.opts vals)
    (hrn : g.root.name = none) :
    Globals g.types (pyDom F (treeGet g)) (exprSem base d.fns) Asks q0 (exprVars rt d.fns node d.opts)
      (PV.fns (d.fns.map (·.1))) (PV.obj ⟨g.root, semNode D sub g g.root rootIdent r1⟩)
      (("this", PV.obj ⟨t, semNode D sub g t i q1⟩) :: d.params.zip (vals.map PV.val)) := by
  intro x ty hx
  rw [vars_get hrt hn] at hx
  have hthisP : "this" ∉ d.params := (List.nodup_cons.1 hn).1
  by_cases e : x = "this"
  · subst e
    rw [if_pos rfl] at hx
    cases hx
    have hd : dget (ν := (pyDom F (treeGet g)).V) (("this", PV.obj ⟨t, semNode D sub g t i q1⟩) :: d.params.zip (vals.map PV.val)) "this" =
        some (PV.obj ⟨t, semNode D sub g t i q1⟩) := dget_cons_self ..
    rw [hd]
    refine ⟨rfl, fun q' ha => ?_⟩
    have hmem := fieldsMap_mem hthis
    have hqq : q' = q := by
      have ha' : Asks reqs "this" q' := by
        rw [hreqs]
        exact asks_filter ha fun i hi => by rw [hi]; simpa using hthisP
      rcases ha' with ⟨o, a, h, rfl⟩ | ⟨o, a, h⟩
      · have := hok.2.2 _ h
        rw [if_pos (show (QItem.field "this" o a).name = THIS from rfl)] at this
        obtain ⟨_, e, _⟩ := this
        cases e
      · rw [hreqs] at h hmem
        exact hq0.link _ _ _ _ _ _ _ (List.mem_of_mem_filter h) (List.mem_of_mem_filter hmem)
    subst hqq
    exact node_supplies hl ht hroot q' node t i q1 hnode hq1p hq1ok hi hq1
  · rw [if_neg e] at hx
    have hd : dget (ν := (pyDom F (treeGet g)).V) (("this", PV.obj ⟨t, semNode D sub g t i q1⟩) :: d.params.zip (vals.map PV.val)) x =
        dget (ν := (pyDom F (treeGet g)).V) (d.params.zip (vals.map PV.val)) x := dget_this_ne e _ _
    rw [hd]
    rcases optVal_get hvals x with ⟨h1, h2⟩ | ⟨o, hm, v, h1, h2, h3⟩
    · rw [h1, Option.none_or] at hx
      have h2 : dget (ν := (pyDom F (treeGet g)).V) (d.params.zip (vals.map PV.val)) x = none := h2
      rw [h2]
      have hxp : x ∉ d.params := by
        have := dget_eq_none_iff.1 h1
        rw [List.map_map] at this
        exact this
      cases hg : (g.root.get x).map GItem.ty with
      | some ty' =>
        rw [hg, Option.some_or] at hx
        cases hx
        have hnf : NoFn ty = true := by
          obtain ⟨_, h4, h5⟩ := rootTypes_ok hrt
          have := hsimple.noFn _ _ h5
          simp only [NoFn] at this
          rw [← h4] at hg
          exact NoFnAll_mem this (dget_mem hg)
        have key : ∀ q', Asks q0 x q' → ∃ v, (pyDom F (treeGet g)).get (PV.obj ⟨g.root, semNode D sub g g.root rootIdent r1⟩) x = .ok v ∧
            Supplies g.types (pyDom F (treeGet g)) (exprSem base d.fns) Asks ty q' v := by
          intro q' ha
          have ha' : Asks (.mk (reqs.fields.filter fun r => r.name ≠ THIS) false) x q' := by
            rw [hreqs]
            refine asks_filter (asks_filter ha ?_) ?_
            · intro i hi; rw [hi]; simpa using hxp
            · intro i hi; rw [hi]; exact decide_eq_true e
          exact record_supplies hl ht hr1p hr1ok (.inl rfl) (by unfold IdentOk; rw [hrn]) hr1 hroot
            (fun f o a q' _ nm t' j q1' => node_supplies hl ht hroot q' nm t' j q1') hg ha'
        cases ty with
        | callable => simp [NoFn] at hnf
        | _ => exact key
      | none =>
        rw [hg, Option.none_or] at hx
        obtain ⟨ats, rfl, _⟩ := hsimple.fns x ty hx
        refine ⟨PV.fn x, ?_, hx⟩
        show PV.get (treeGet g) (.fns _) x = _
        have : x ∈ d.fns.map (·.1) := dget_isSome_iff.1 (by rw [hx]; rfl)
        simp only [PV.get, if_pos this]
        rfl
    · rw [h1, Option.some_or] at hx
      cases hx
      have h3 : dget (ν := (pyDom F (treeGet g)).V) (d.params.zip (vals.map PV.val)) x = some (PV.val v) := h3
      rw [h3]
      exact ⟨noFn_notCallable (hsimple.opts o hm), fun q' _ => ofType_supplies h2 q'⟩

theorem vars_good (hsimple : SimpleTypes g d) (hn : ("this" :: d.params).Nodup) {rt : List (String × Ty)}
    (hrt : rootTypes g = .ok rt) :
    EnvFns (rootEnv (exprVars rt d.fns node d.opts)) (d.isFn g) := by
  intro x r hr
  rw [dget_rootEnv, Option.map_eq_some_iff] at hr
  obtain ⟨ty, hx, rfl⟩ := hr
  simp only [Ref.to]
  rw [vars_get hrt hn] at hx
  unfold Decl.isFn
  by_cases e : x = "this"
  · subst e
    rw [if_pos rfl] at hx
    cases hx
    exact ⟨.inl rfl, by simp [isCallable]⟩
  · rw [if_neg e] at hx
    cases ho : dget (d.opts.map fun o => (o.name, o.ty.getD .any)) x with
    | some ty' =>
      rw [ho, Option.some_or] at hx
      cases hx
      have hm := dget_mem ho
      simp only [List.mem_map, Prod.mk.injEq] at hm
      obtain ⟨o, h1, h2, rfl⟩ := hm
      have hnf := hsimple.opts o h1
      refine ⟨.inl hnf, ?_⟩
      rw [noFn_notCallable hnf]
      have : x ∈ d.params := by unfold Decl.params; rw [← h2]; exact List.mem_map_of_mem h1
      simp [this]
    | none =>
      rw [ho, Option.none_or] at hx
      have hxp : x ∉ d.params := by
        have := dget_eq_none_iff.1 ho
        rw [List.map_map] at this
        exact this
      cases hg : g.root.get x with
      | some it =>
        rw [hg, Option.map_some, Option.some_or] at hx
        have hnf : NoFn ty = true := by
          obtain ⟨_, h4, h5⟩ := rootTypes_ok hrt
          have := hsimple.noFn _ _ h5
          simp only [NoFn] at this
          have h6 : dget rt x = some ty := by rw [h4, hg, Option.map_some]; exact hx
          exact NoFnAll_mem this (dget_mem h6)
        exact ⟨.inl hnf, by rw [noFn_notCallable hnf]; simp⟩
      | none =>
        rw [hg, Option.map_none, Option.none_or] at hx
        obtain ⟨ats, rfl, h1⟩ := hsimple.fns x ty hx
        refine ⟨.inr ⟨ats, rfl, h1⟩, ?_⟩
        have : x ∈ d.fns.map (·.1) := dget_isSome_iff.1 (by rw [hx]; rfl)
        simp only [isCallable, Option.isNone_none, Bool.and_true, Bool.and_eq_true, decide_eq_true_eq]
        exact ⟨⟨e, hxp⟩, this⟩

theorem dotExpr_raw (x : String) : ∀ path, Raw (dotExpr x path) = true
  | [] => rfl
  | f :: path => by simp [dotExpr, Raw, RawAll, dotExpr_raw x path]

mutual
theorem toExpr_raw : ∀ s, Raw (toExpr s) = true
  | .dot x path => by simp only [toExpr]; exact dotExpr_raw x _
  | .call f args => by simp [toExpr, Raw, RawAll, toExprs_raw args]
  | .list xs => by simp [toExpr, Raw, toExprs_raw xs]
  | .dict kvs => by simp [toExpr, Raw, toKvs_raw kvs]
  | .other v => by simp [toExpr, Raw]
theorem toExprs_raw : ∀ ss, RawAll (toExprs ss) = true
  | [] => rfl
  | x :: r => by simp [toExprs, RawAll, toExpr_raw x, toExprs_raw r]
theorem toKvs_raw : ∀ kvs, RawAll (toKvs kvs) = true
  | [] => rfl
  | (k, x) :: r => by simp [toKvs, RawAll, Raw, toExpr_raw x, toKvs_raw r]
end

/-- the compiled expression over trees gives the value of the expression over the data -/
theorem expr_run {gf : GField} {reqs : QNode} {p : Nat} (hf : ExprField env F base gi g node t d gf reqs p) (hF : Parametric F)
    (hag : Agree D U gi g sub sub') (hreq : RequiresOk U g)
    (hl : LinksOk D U gi g sub) (ht : TypedData D sub U gi g base) (hroot : g.node rootName = none) (hrn : g.root.name = none)
    (hnode : g.node node = some t) (hok : ReqsOk U g t reqs) {q : QNode} {i : Val}
    (hthis : dget reqs.fieldsMap THIS = some (.link THIS q none none)) (hi : D.obj gi node i) {vals : List Val}
    (hvals : List.Forall₂ (fun (op : GOption) v => OfType g.types base (op.ty.getD .any) v) d.opts vals) :
    ∃ w, meaning F D sub' g t d i vals = .ok w ∧ Includes q q ∧ q.Plain ∧
      Includes (.mk (reqs.fields.filter fun r => r.name ≠ THIS) false) (.mk (reqs.fields.filter fun r => r.name ≠ THIS) false) ∧
      ∀ v, reify w = some v → ∀ q1 r1, Includes q1 q → q1.Plain → NodeOk U g t q1 →
        Includes r1 (.mk (reqs.fields.filter fun r => r.name ≠ THIS) false) → r1.Plain → NodeOk U g g.root r1 →
        env.world.proc p (semNode D sub g t i q1) (semNode D sub g g.root rootIdent r1) vals = .ok v := by
  obtain ⟨term, hsrc, hhyg⟩ := hf.source
  obtain ⟨lim, c, hpost, hreqs, hproc⟩ := hf.made
  have hsimple := hf.simple
  have hn := hhyg.distinct
  unfold postprocess at hpost
  obtain ⟨rt, hrt, hpost⟩ := bind_ok_iff.1 hpost
  obtain ⟨e', hcheck, hpost⟩ := bind_ok_iff.1 hpost
  obtain ⟨q0, hext, hpost⟩ := bind_ok_iff.1 hpost
  obtain ⟨code, hcode, hpost⟩ := bind_ok_iff.1 hpost
  cases hpost
  obtain ⟨hq0p, hq0s⟩ := extract_single hext
  have henv := vars_good (node := node) hsimple hn hrt
  have hparse : parse e' = some term :=
    source_parse hsimple.noFn _ d.src (Nat.le_refl _) _ _ henv e' term hsrc (check_chk hsimple.alias_ hcheck)
  have hgood : ∀ x ty, dget (exprVars rt d.fns node d.opts) x = some ty → GoodVar ty := fun x ty hx => by
    have := henv x (.root x ty) (by rw [dget_rootEnv, hx]; rfl)
    exact this.1
  obtain ⟨code', hcode', hmean⟩ := c37_compiled_meaning_partial e' term d.params hparse hhyg
  have : code' = code := by
    have : compileLambda e' d.params = .ok code := hcode
    rw [hcode'] at this
    cases this
    rfl
  subst this
  have hreqs' : reqs = .mk (q0.fields.filter fun f => f.name ∉ d.params) false := hreqs
  have hlen : d.params.length = (vals.map (PV.val (O := Tree))).length := by
    simp [Decl.params, hvals.length_eq]
  have hmem := fieldsMap_mem hthis
  have hmem0 : QItem.link THIS q none none ∈ q0.fields := by
    rw [hreqs'] at hmem
    exact List.mem_of_mem_filter hmem
  have hqq : Includes q q := hq0s.sub hmem0
  have hqp : q.Plain := by
    have := (QNode.plain_iff.1 hok.1).2 _ hmem
    simp only [QItem.Plain] at this
    exact this.2.2
  have hoo : Includes (.mk (reqs.fields.filter fun r => r.name ≠ THIS) false) (.mk (reqs.fields.filter fun r => r.name ≠ THIS) false) := by
    rw [hreqs']
    exact ((hq0s.filter _ (fun i j e => by rw [e]) false).filter _ (fun i j e => by rw [e]) false).refl
  have hS := sim_py hF (shows_stands hag hl hreq)
  have main : ∀ q1 r1, Includes q1 q → q1.Plain → NodeOk U g t q1 →
      Includes r1 (.mk (reqs.fields.filter fun r => r.name ≠ THIS) false) → r1.Plain → NodeOk U g g.root r1 →
      ∃ w w', runLambda (pyDom F (treeGet g)) code' (PV.fns (d.fns.map (·.1))) (PV.obj ⟨t, semNode D sub g t i q1⟩)
          (PV.obj ⟨g.root, semNode D sub g g.root rootIdent r1⟩) (d.params.zip (vals.map PV.val)) = .ok w ∧
        meaning F D sub' g t d i vals = .ok w' ∧ Same (Shows D U gi g sub) w w' := by
    intro q1 r1 h1 h2 h3 h4 h5 h6
    have hG := expr_globals (F := F) hl ht hroot hsimple hn hrt hnode hq0s hreqs' hok hthis hi h1 h2 h3 h4 h5 h6 hvals hrn
    obtain ⟨w, hw⟩ := c38_requirements_cover env.H g.types (exprVars rt d.fns node d.opts) lim (toExpr d.src) e' q0 term
      hsimple.alias_ hsimple.noFn hgood (toExpr_raw _) hcheck hext hparse (pyDom F (treeGet g)) (exprSem base d.fns) _ _ _
      (hf.total (treeGet g)) (fun v => ⟨_, rfl⟩) hG
    have hrun := hmean (Except Err) (pyDom F (treeGet g)) (PV.fns (d.fns.map (·.1))) (PV.obj ⟨t, semNode D sub g t i q1⟩)
      (PV.obj ⟨g.root, semNode D sub g g.root rootIdent r1⟩) (d.params.zip (vals.map PV.val))
      (List.map_fst_zip (Nat.le_of_eq hlen))
    rw [hw] at hrun
    obtain ⟨w', hw', hsame⟩ := denote_sim hS (e2 := PV.fns (d.fns.map (·.1))) (c2 := PV.obj ⟨g.root, rootIdent⟩)
      (.fns _) (.obj ⟨g.root, r1, rootIdent, rfl, rfl, h5, h6, .inl rfl, by unfold IdentOk; rw [hrn]⟩) term _
      (("this", PV.obj ⟨t, i⟩) :: d.params.zip (vals.map PV.val))
      (.cons ⟨rfl, .obj ⟨t, q1, i, rfl, rfl, h2, h3, .inr ⟨_, hnode⟩, (identOk_node hnode).2 hi⟩⟩ (same_opts _ _)) w hw
    refine ⟨w, w', hrun, ?_, hsame⟩
    unfold meaning
    rw [hsrc]
    exact hw'
  have hqok : NodeOk U g t q := by
    have := hok.2.2 _ hmem
    rw [if_pos (show (QItem.link THIS q none none).name = THIS from rfl)] at this
    obtain ⟨_, e, h⟩ := this
    cases e
    exact h
  have hop : (QNode.mk (reqs.fields.filter fun r => r.name ≠ THIS) false).Plain :=
    QNode.plain_iff.2 ⟨rfl, fun i hi => (QNode.plain_iff.1 hok.1).2 i (List.mem_of_mem_filter hi)⟩
  have hook : NodeOk U g g.root (.mk (reqs.fields.filter fun r => r.name ≠ THIS) false) := by
    refine nodeOk_iff.2 ⟨fun i hi => ?_, fun e => by cases e⟩
    obtain ⟨h1, h2⟩ := List.mem_filter.1 hi
    have := hok.2.2 i h1
    rwa [if_neg (by simpa using h2)] at this
  obtain ⟨_, w', _, hw', _⟩ := main q _ hqq hqp hqok hoo hop hook
  refine ⟨w', hw', hqq, hqp, hoo, fun v hv q1 r1 h1 h2 h3 h4 h5 h6 => ?_⟩
  obtain ⟨w, w'', h7, h8, h9⟩ := main q1 r1 h1 h2 h3 h4 h5 h6
  rw [hw'] at h8
  cases h8
  rw [hproc]
  unfold Proc.run
  rw [← reify_same w w' h9] at hv
  have : runLambda (pyDom F (treeGet g)) code' (PV.fns (d.fns.map (·.1))) (PV.obj ⟨t, semNode D sub g t i q1⟩)
          (PV.obj ⟨g.root, semNode D sub g g.root rootIdent r1⟩) (d.params.zip (vals.map PV.val)) = .ok w := h7
  dsimp only
  rw [this, ok_bind']
  change (match reify (O := Tree) w with | some v => Except.ok v | none => Except.error Err.exception) = _
  rw [hv]

end

end Hiku.SubExpr
