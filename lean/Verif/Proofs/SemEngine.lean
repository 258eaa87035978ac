import Verif.Proofs.SemPrim

/-! The scheduling functions of the engine succeed and make progress if the data functions conform to
the loading protocol. -/

namespace Hiku

/-- the assumptions of the correctness theorem -/
structure Setup (env : Env) (D : Data) (U : String → Opts → Prop) : Prop where
  good : GoodSys U env.sys
  faithful : Faithful env.H D U
  conf : Conforms env D U

section
variable {env : Env} {D : Data} {U : String → Opts → Prop} {st st' : St}

theorem Setup.req (C : Setup env D U) {gi : Nat} {g : Graph} {gn : GNode}
    (hg : env.sys.graphs[gi]? = some g) (hn : IsNode g gn) : ReqOk U g gn :=
  fun n gl h => (C.good.links gi g hg gn hn n gl h).2

/-- a live workflow -/
def At (st : St) (w gi tw : Nat) : Prop :=
  ∃ wf, st.wfs[w]? = some wf ∧ wf.graph = gi ∧ wf.ts = tw ∧ (dget st.q.futures tw).isSome

theorem At.mono {w gi tw : Nat} (f : SFrame env D U st st') (h : At st w gi tw) : At st' w gi tw := by
  obtain ⟨wf, h1, h2, h3, h4⟩ := h
  obtain ⟨wf', g1, g2, _, g4⟩ := f.wfAt h1
  exact ⟨wf', g1, g2.trans h2, g4.trans h3, f.live _ h4⟩

theorem Func.key_plain {fn : Func} {f : PFunc} (h : fn.key = .plain f) : fn = .plain f := by
  cases fn with
  | plain f' => simp only [Func.key, FKey.plain.injEq] at h; rw [h]
  | checked => simp [Func.key] at h

theorem Func.key_sub {fn : Func} {sg : Nat} (h : fn.key = .sub sg) : ∃ reqs p, fn = .checked sg reqs p := by
  cases fn with
  | plain f' => simp [Func.key] at h
  | checked sg' reqs p => simp only [Func.key, FKey.sub.injEq] at h; exact ⟨reqs, p, by rw [h]⟩

theorem FEntry.field {gn : GNode} {k : FKey} {x : GItem × QItem} (h : FEntry U gn k x) :
    ∃ gf, x.1 = .field gf ∧ gn.get x.2.name = some (.field gf) ∧ gf.func.key = k ∧ OptsGiven gf x.2.options := by
  obtain ⟨⟨_, gf, h1, h2⟩, h3, h4⟩ := h
  rw [h1] at h3
  cases h3' : x.1 with
  | link gl => rw [h3'] at h3; cases h3
  | field gf' =>
    rw [h3'] at h3 h4
    cases h3
    exact ⟨_, rfl, h1, h4, h2⟩

theorem cellSem_field {sub : SubSem} {gn : GNode} {i : Val} {n : String} {o : Opts} {gf : GField}
    (h : gn.get n = some (.field gf)) : cellSem D sub gn i n o = semField D sub gn gf o i := by
  simp [cellSem, h]

theorem cellSem_name {sub : SubSem} {gn : GNode} {i : Val} {n : String} {o : Opts} {gf : GField}
    (h : gn.get n = some (.field gf)) : cellSem D sub gn i n o = semName D sub gn i n o := by
  simp [cellSem, semName, h]

theorem cellSem_link {sub : SubSem} {gn : GNode} {i : Val} {n : String} {o : Opts} {gl : GLink}
    (h : gn.get n = some (.link gl)) : cellSem D sub gn i n o = linkCell gl (semLink D sub gn i gl o) := by
  simp [cellSem, h]

theorem cellSem_plain {sub : SubSem} {gn : GNode} {i : Val} {n : String} {o : Opts} {gf : GField}
    {f : PFunc} (h : gn.get n = some (.field gf)) (hf : gf.func = .plain f) :
    cellSem D sub gn i n o = D.field f n o (gn.name.map fun _ => i) := by
  have := GNode.get_name h
  simp only [GItem.name] at this
  rw [cellSem_field h]
  simp [semField, hf, this]

/-! ### Fields -/

theorem call_fields (C : Setup env D U) {gi : Nat} {g : Graph} {gn : GNode} (n : Nat)
    (hg : env.sys.graphs[gi]? = some g) (hn : IsNode g gn) {ids : Option (List Val)}
    (hids : IdsOk D gi gn ids) {qfs : List QItem} (hne : qfs ≠ []) {f : PFunc}
    (hq : ∀ q ∈ qfs, U q.name q.options ∧ ∃ gf, gn.get q.name = some (.field gf) ∧ gf.func = .plain f) :
    ∃ r, env.world.call n f.id (withCtx f (.fields qfs :: idsArg ids)) = .ok r ∧
      RowsOf gn qfs.length ids r (rowsSem env D gi gn ids qfs) := by
  have hcell : ∀ i, (qfs.map fun q => cellSem D (semSub env.sys D gi) gn i q.name q.options) =
      qfs.map fun q => D.field f q.name q.options (gn.name.map fun _ => i) := by
    intro i
    apply List.map_congr_left
    intro q hqm
    obtain ⟨_, gf, h1, h2⟩ := hq q hqm
    exact cellSem_plain h1 h2
  rcases hn.cases with ⟨rfl, hname⟩ | ⟨nm, hname, hnode⟩
  · have hi : ids = none := by
      have := hids.isSome; rw [hname] at this; simpa using this
    subst hi
    obtain ⟨r, h1, h2⟩ := C.conf.fieldsRoot n gi g f qfs hg hne hq
    refine ⟨r, h1, ?_⟩
    simp only [RowsOf, hname, rowsSem, identsOf, Option.getD_none, List.map_cons, List.map_nil, hcell]
    exact ⟨_, h2, by simp, rfl⟩
  · have hi := hids.isSome
    rw [hname] at hi
    obtain ⟨l, rfl⟩ := Option.isSome_iff_exists.1 hi
    have hobj : ∀ i ∈ l, D.obj gi nm i := by
      intro i him
      have := hids.ok i him
      simpa [IdentOk, hname] using this
    obtain ⟨r, rows, h1, h2, h3⟩ := C.conf.fieldsNode n gi g nm gn f qfs l hg hnode hne hq
      (by intro e; exact hids.ne (by rw [e])) hobj
    refine ⟨r, h1, ?_⟩
    simp only [RowsOf, hname, rowsSem, identsOf, Option.getD_some]
    refine ⟨rows, h2, h3.length_eq.symm, ?_⟩
    rw [List.forall₂_map_right_iff]
    refine (h3.flip).imp ?_
    intro row i hrow
    have hc := hcell i
    rw [hname] at hc
    simp only [Option.map_some] at hc
    exact ⟨by rw [hrow, hc], by simp⟩

/-- the call for a group of fields with one function -/
theorem planFields_eq (subp : SubPlan) {gn : GNode} (ids : Option (List Val)) {qfs : List QItem}
    (hne : qfs ≠ []) {k : FKey} (h : ∀ q ∈ qfs, fieldFunc gn q = some k) :
    planFields subp gn ids qfs = match k with
      | .plain f => [(f, withCtx f (.fields qfs :: idsArg ids))]
      | .sub sg => subp sg (qfs.filterMap (requirements gn)) (ids.getD []) := by
  cases qfs with
  | nil => exact absurd rfl hne
  | cons q r =>
    have := h q (by simp)
    cases k <;> simp only [planFields, this]

/-- sub-graph calls for fields of graphs numbered up to `n` succeed -/
def SubS (env : Env) (D : Data) (U : String → Opts → Prop) (n : Nat) (sub : SubCall) : Prop :=
  ∀ gi g gn sg ids items st dep, gi ≤ n → env.sys.graphs[gi]? = some g → IsNode g gn →
    IdsOk D gi gn (some ids) → items ≠ [] → (∀ x ∈ items, FEntry U gn (.sub sg) x) →
    SOK env D U st → (dget st.q.futures dep).isSome →
    ∃ st' w procs, sub sg items ids dep st = .ok (st', .sub w procs) ∧ SFrame env D U st st' ∧
      SrcOk env D U st' (PendQ st') gi gn (items.map (·.2)) (some ids) (.sub w procs) ∧
      (∃ wf : Wf, st'.wfs[w]? = some wf ∧ wf.ts = dep) ∧
      Acct env D st st' (planSub env.sys env.H D gi sg ((items.map (·.2)).filterMap (requirements gn)) ids)

variable {n w gi tw : Nat} {g : Graph} {gn : GNode} {sub : SubCall} {ids : Option (List Val)}

theorem sem_scheduleFields (C : Setup env D U) (hsub : SubS env D U n sub) {k : FKey}
    {items : List (GItem × QItem)} (hok : SOK env D U st) (hat : At st w gi tw)
    (hg : env.sys.graphs[gi]? = some g) (hgn : gi ≤ n) (hn : IsNode g gn) (hids : IdsOk D gi gn ids)
    (hne : items ≠ []) (hit : ∀ x ∈ items, FEntry U gn k x) :
    ∃ st' o src, scheduleFields env sub w gn k items ids st = .ok (st', o) ∧ SFrame env D U st st' ∧
      .store w gn (items.map (·.2)) ids src ∈ st'.q.cbs o ∧
      Acct env D st st' (planFields (planSub env.sys env.H D gi) gn ids (items.map (·.2))) := by
  have hq : ∀ q ∈ items.map (·.2), FItem U gn q := by
    intro q hq
    obtain ⟨x, h1, rfl⟩ := List.mem_map.1 hq
    exact (hit x h1).1
  obtain ⟨wf, hw, hwg, hwt, hl⟩ := hat
  have hff : ∀ q ∈ items.map (·.2), fieldFunc gn q = some k := by
    intro q hq
    obtain ⟨x, h1, rfl⟩ := List.mem_map.1 hq
    obtain ⟨gf, _, a2, a3, _⟩ := (hit x h1).field
    simp only [fieldFunc, a2, a3]
  have hplan := planFields_eq (planSub env.sys env.H D gi) ids (by simpa using hne) hff
  cases k with
  | plain f =>
    have hqf : ∀ q ∈ items.map (·.2), U q.name q.options ∧
        ∃ gf, gn.get q.name = some (.field gf) ∧ gf.func = .plain f := by
      intro q hq'
      obtain ⟨x, h1, rfl⟩ := List.mem_map.1 hq'
      obtain ⟨gf, _, a2, a3, _⟩ := (hit x h1).field
      exact ⟨(hq _ hq').1, gf, a2, Func.key_plain a3⟩
    obtain ⟨r, hr1, hr2⟩ := call_fields C st.results.length hg hn hids (by simpa using hne) hqf
    obtain ⟨st1, h1, f1, h2, h3, ⟨s, h4, h5, h6, h7⟩, ac1⟩ := sframe_submit (nd := gn.name) (f := f)
      (args := .fields (items.map (·.2)) :: idsArg ids) hok hw (by rw [hwt]; exact hl) (by
        intro s hs1 hs2
        refine .inl ⟨gi, g, gn, ids, items.map (·.2), hg, hn, hids, by simpa using hne, ?_, ?_⟩
        · rw [hs1]; exact hqf
        · rw [hs1]; exact hs2) ⟨r, hr1⟩
    rw [hr1] at h3
    have hcb : CBOk env D U st1 (PendQ st1) (.store w gn (items.map (·.2)) ids (.fut st.results.length)) := by
      refine ⟨wf, g, by rw [h2]; exact hw, by rw [hwg]; exact hg, hn, by rw [hwg]; exact hids, hq, ?_⟩
      rw [hwg]
      refine ⟨⟨r, h3, hr2⟩, s, h4, h5, ?_, ?_⟩
      · rw [h6]; exact fun q hq => (hqf q hq).2
      · rw [h6]; exact h7
    obtain ⟨f2, hm⟩ := sframe_addCB (o := .fut st.results.length) f1.ok hcb rfl (by
      intro _ _ _ _ hneed; exact absurd hneed id)
    refine ⟨_, .fut st.results.length, .fut st.results.length, ?_, f1.trans f2, hm, ?_⟩
    rotate_left
    · have := ac1.trans (Acct.addCB (o := .fut st.results.length)
        (cb := .store w gn (items.map (·.2)) ids (.fut st.results.length)) ⟨wf, by rw [h2]; exact hw⟩)
      rw [cbPlan_eq (wf := wf) (g := g) (by rw [h2]; exact hw) (by rw [hwg]; exact hg)] at this
      rw [hplan]
      exact this
    cases ids with
    | none => simp only [idsArg] at h1; simp only [scheduleFields, h1, ok_bind']
    | some l => simp only [idsArg] at h1; simp only [scheduleFields, h1, ok_bind']
  | sub sg =>
    have hsome : ∃ l, ids = some l := by
      obtain ⟨x, hx⟩ := List.exists_mem_of_ne_nil _ hne
      obtain ⟨gf, _, a2, a3, _⟩ := (hit x hx).field
      obtain ⟨reqs, p, hf⟩ := Func.key_sub a3
      have := (C.good.subs gi g hg gn hn _ gf a2 sg reqs p hf).1
      rw [← hids.isSome] at this
      exact Option.isSome_iff_exists.1 this
    obtain ⟨l, rfl⟩ := hsome
    obtain ⟨q', dep, h1, f1, hd, ac1⟩ := sframe_fork hok hl
    obtain ⟨st2, w', procs, h2, f2, hsrc, ⟨wf2, hw2, ht2⟩, ac2⟩ := hsub gi g gn sg l items { st with q := q' } dep
      hgn hg hn hids hne hit f1.ok hd
    obtain ⟨wf3, hw3, e1, _, _⟩ := (f1.trans f2).wfAt hw
    have hcb : CBOk env D U st2 (PendQ st2) (.store w gn (items.map (·.2)) (some l) (.sub w' procs)) := by
      refine ⟨wf3, g, hw3, by rw [e1, hwg]; exact hg, hn, by rw [e1, hwg]; exact hids, hq, ?_⟩
      rw [e1, hwg]; exact hsrc
    obtain ⟨f3, hm⟩ := sframe_addCB (o := .ts dep) f2.ok hcb ⟨wf2, hw2, by rw [ht2]⟩ (by
      intro _ _ _ _ hneed; exact absurd hneed id)
    refine ⟨_, .ts dep, _, ?_, (f1.trans f2).trans f3, hm, ?_⟩
    rotate_left
    · have := (ac1.trans ac2).trans (Acct.addCB (o := .ts dep)
        (cb := .store w gn (items.map (·.2)) (some l) (.sub w' procs)) ⟨wf3, hw3⟩)
      rw [cbPlan_eq (wf := wf3) (g := g) hw3 (by rw [e1, hwg]; exact hg)] at this
      rw [hplan]
      simpa [cbPlanIn] using this
    rw [← hwt] at h1
    simp only [scheduleFields, hw, h1, ok_bind', h2]

/-! ### Links -/

theorem semLink_none {sub : SubSem} {i : Val} {gl : GLink} {o : Opts} (h : gl.requires = none) :
    semLink D sub gn i gl o = D.link gl.func none (declOpts gl o) := by
  simp [semLink, h]

theorem semLink_some {sub : SubSem} {i : Val} {gl : GLink} {o : Opts} {r : String}
    (h : gl.requires = some r) :
    semLink D sub gn i gl o = D.link gl.func (some (semName D sub gn i r none)) (declOpts gl o) := by
  simp [semLink, h]

theorem call_link (C : Setup env D U) (k : Nat) (hg : env.sys.graphs[gi]? = some g) (hn : IsNode g gn)
    (hids : IdsOk D gi gn ids) {nm : String} {gl : GLink} {o : Opts} (hget : gn.get nm = some (.link gl))
    (hu : U nm o) :
    ∃ r, env.world.call k gl.func.id (withCtx gl.func
        (reqArg D (semSub env.sys D gi) gn ids gl.requires ++ optArgs gl o)) = .ok r ∧
      LinkValues gn gl ids r ((identsOf ids).map fun i => semLink D (semSub env.sys D gi) gn i gl o) := by
  cases hr : gl.requires with
  | none =>
    refine ⟨_, C.conf.linkPlain k gi g gn nm gl o hg hn hget hu hr, ?_⟩
    simp only [semLink_none hr]
    rcases hn.cases with ⟨rfl, hname⟩ | ⟨nn, hname, hnode⟩
    · have hi : ids = none := by
        have := hids.isSome; rw [hname] at this; simpa using this
      subst hi
      simp [LinkValues, hname, identsOf]
    · have hi := hids.isSome
      rw [hname] at hi
      obtain ⟨l, rfl⟩ := Option.isSome_iff_exists.1 hi
      simp [LinkValues, hname, identsOf, hr, List.map_const']
  | some r =>
    simp only [semLink_some hr]
    rcases hn.cases with ⟨rfl, hname⟩ | ⟨nn, hname, hnode⟩
    · have hi : ids = none := by
        have := hids.isSome; rw [hname] at this; simpa using this
      subst hi
      refine ⟨_, C.conf.linkRoot k gi g nm gl o r _ hg hget hu hr rfl, ?_⟩
      simp [LinkValues, hname, identsOf]
    · have hi := hids.isSome
      rw [hname] at hi
      obtain ⟨l, rfl⟩ := Option.isSome_iff_exists.1 hi
      have hobj : ∀ i ∈ l, D.obj gi nn i := by
        intro i him
        have := hids.ok i him
        simpa [IdentOk, hname] using this
      obtain ⟨res, h1, h2⟩ := C.conf.linkNode k gi g nn gn nm gl o r l _ hg hnode hget hu hr
        (by intro e; exact hids.ne (by rw [e])) hobj rfl
      refine ⟨res, h1, ?_⟩
      simp only [LinkValues, hname, identsOf, hr, Option.getD_some, Option.isSome_some, if_true]
      rw [List.map_map] at h2
      exact ⟨h2, by simp⟩

theorem linkReqs_ok (C : Setup env D U) (hok : SOK env D U st) {wf : Wf} (hw : st.wfs[w]? = some wf)
    (hg : env.sys.graphs[wf.graph]? = some g) (hn : IsNode g gn)
    (hids : IdsOk D wf.graph gn ids) {r : String} (hfi : FItem U gn (.field r none none))
    (hp : ∀ i ∈ identsOf ids, Present env.H st w gn i r none) :
    ∃ v, linkReqs wf.index gn r ids = .ok v ∧
      [Arg.val v] = reqArg D (semSub env.sys D wf.graph) gn ids (some r) := by
  obtain ⟨hu, gf, hget, _⟩ := hfi
  simp only [QItem.name, QItem.options] at hu hget
  have hcell : ∀ i ∈ identsOf ids, dget wf.index (gn.indexName, i, r) =
      some (semName D (semSub env.sys D wf.graph) gn i r none) := by
    intro i hi
    obtain ⟨wf', h1, h2⟩ := hp i hi
    rw [hw] at h1; cases h1
    obtain ⟨v, hv⟩ := Option.isSome_iff_exists.1 h2
    have := hok.sound w wf g hw hg gn hn i r none _ hu hget v hv
    rw [indexKey_none] at hv
    rw [hv, this, cellSem_name hget]
  rcases hn.cases with ⟨rfl, hname⟩ | ⟨nn, hname, hnode⟩
  · have hi : ids = none := by
      have := hids.isSome; rw [hname] at this; simpa using this
    subst hi
    have := hcell rootIdent (by simp [identsOf])
    refine ⟨semName D (semSub env.sys D wf.graph) g.root rootIdent r none, ?_, rfl⟩
    simp only [linkReqs, hname]
    simp only [GNode.indexName, hname, Option.getD_none] at this
    rw [this]
  · have hi := hids.isSome
    rw [hname] at hi
    obtain ⟨l, rfl⟩ := Option.isSome_iff_exists.1 hi
    refine ⟨.list (l.map fun i => semName D (semSub env.sys D wf.graph) gn i r none), ?_, rfl⟩
    simp only [linkReqs, hname, bind_ok_iff]
    refine ⟨_, mapM_ok_iff.2 ?_, rfl⟩
    rw [List.forall₂_map_right_iff, List.forall₂_same]
    intro i him
    have := hcell i him
    simp only [GNode.indexName, hname, Option.getD_some] at this
    rw [this]

theorem sem_scheduleLink (C : Setup env D U) {gl : GLink} {ql : QItem} (hok : SOK env D U st)
    (hat : At st w gi tw) (hg : env.sys.graphs[gi]? = some g) (hn : IsNode g gn)
    (hids : IdsOk D gi gn ids) (hli : LItem U g gn gl ql)
    (hp : ∀ r, gl.requires = some r → ∀ i ∈ identsOf ids, Present env.H st w gn i r none) :
    ∃ st' o fut, scheduleLink env w gn gl ql ids st = .ok (st', o) ∧ SFrame env D U st st' ∧
      .procLink w gn gl ql ids fut ∈ st'.q.cbs o ∧
      Acct env D st st' (planLinked D (semSub env.sys D gi) (planSub env.sys env.H D gi) g gn ids gl ql) := by
  have hli' := hli
  obtain ⟨nm, q, o, a, t, rfl, hu, hget, ht, hnq⟩ := hli
  obtain ⟨wf, hw, rfl, hwt, hl⟩ := hat
  obtain ⟨reqArgs, hra, hre⟩ : ∃ ra, (if gl.reqTruthy then do
          let v ← linkReqs wf.index gn (gl.requires.getD "") ids
          pure [Arg.val v]
        else pure []) = Except.ok (ε := Err) ra ∧
      ra = reqArg D (semSub env.sys D wf.graph) gn ids gl.requires := by
    rcases reqTruthy_iff (C.req hg hn) hget with ⟨hr, hrt⟩ | ⟨r, hr, hrt, hfi⟩
    · exact ⟨[], by simp [hrt], by simp [hr, reqArg]⟩
    · obtain ⟨v, h1, h2⟩ := linkReqs_ok C hok hw hg hn hids hfi (hp r hr)
      exact ⟨[.val v], by simp [hrt, hr, h1], by rw [hr]; exact h2⟩
  have hopt : (if gl.options.isEmpty then [] else [Arg.opts (QItem.link nm q o a).options]) = optArgs gl o := rfl
  obtain ⟨r, hr1, hr2⟩ := call_link C st.results.length hg hn hids hget hu
  obtain ⟨st1, h1, f1, h2, h3, _, ac1⟩ := sframe_submit (nd := gn.name) (f := gl.func)
    (args := reqArg D (semSub env.sys D wf.graph) gn ids gl.requires ++ optArgs gl o) hok hw
    (by rw [hwt]; exact hl) (by
      intro s hs1 hs2
      refine .inr ⟨wf.graph, g, gn, ids, nm, gl, o, hg, hn, hids, hget, hu, hs1, hs2, ?_⟩
      intro r gf f hr hgr hf i hi
      obtain ⟨wf', g1, g2⟩ := hp r hr i hi
      rw [hw] at g1; cases g1
      have hur : U r none := by
        have := (C.req hg hn nm gl hget r hr).2
        simp only [ItemOk] at this
        exact this.1
      exact hok.sourced w wf g hw hg gn hn i r none gf f hur hgr hf g2) ⟨r, hr1⟩
  rw [hr1] at h3
  have hcb : CBOk env D U st1 (PendQ st1) (.procLink w gn gl (.link nm q o a) ids st.results.length) :=
    ⟨wf, g, by rw [h2]; exact hw, hg, hn, hids, hli', r, h3, hr2⟩
  obtain ⟨f2, hm⟩ := sframe_addCB (o := .fut st.results.length) f1.ok hcb trivial (by
    intro _ _ _ _ hneed; exact absurd hneed id)
  refine ⟨_, .fut st.results.length, st.results.length, ?_, f1.trans f2, hm, ?_⟩
  rotate_left
  · have := ac1.trans (Acct.addCB (o := .fut st.results.length)
      (cb := .procLink w gn gl (.link nm q o a) ids st.results.length) ⟨wf, by rw [h2]; exact hw⟩)
    rw [cbPlan_eq (wf := wf) (g := g) (by rw [h2]; exact hw) hg] at this
    exact this
  simp only [scheduleLink, hw, hra, ok_bind', hopt, hre, h1]

end

end Hiku
