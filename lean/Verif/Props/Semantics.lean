import Verif.Proofs.SemLoop
import Verif.Props.Termination
import Verif.Spec.Resolved

/-! # C06, C09, C14, C15: what an execution computes -/

namespace Hiku

variable {env : Env} {D : Data} {U : String → Opts → Prop}

theorem GoodSys.subsDecrease (h : GoodSys U env.sys) : SubsDecrease env := by
  intro gi g hg gn hn n gf hget sg reqs p hf
  obtain ⟨_, s, _, _, h1, h2, _⟩ := h.subs gi g hg gn hn n gf hget sg reqs p hf
  exact ⟨s, h1, h2⟩

/-- the state before the root node is processed -/
def startSt (gi : Nat) (q : QNode) : St where
  q := { futures := [(0, [])], forks := [(0, [])], callbacks := [], nextTs := 1 }
  wfs := [{ graph := gi, query := q, ts := 0 }]

/-- the invariant holds at the start of the executor loop -/
theorem start_sinv (C : Setup env D U) {gi : Nat} {g : Graph} {q q' : QNode}
    (hg : env.sys.graphs[gi]? = some g) (hi : initOptions g q = .ok q')
    (hq : NodeOk U g g.root q') :
    ∃ st, startQuery env gi q = .ok st ∧ SInv env D U gi q' [] [] st := by
  have hok : SOK env D U (startSt gi q') := by
    refine ⟨start_inv, ?_, ?_⟩
    · intro w wf g hw _ gn _ i n o gi _ _ v hv
      match w, hw with
      | 0, hw => simp [startSt] at hw; subst hw; simp at hv
      | w + 1, hw => simp [startSt] at hw
    · intro w wf g hw _ gn _ i n o gf f _ _ _ hv
      match w, hw with
      | 0, hw => simp [startSt] at hw; subst hw; simp at hv
      | w + 1, hw => simp [startSt] at hw
  have hlev : gi ≤ env.levels := by
    have := (List.getElem?_eq_some_iff.1 hg).1
    simp only [Env.levels]; omega
  have hroot : g.root.name = none := rfl
  obtain ⟨st, h1, f1, h2, ac⟩ := sem_processNode (ids := none) (w := 0) (tw := 0) C (sem_subCall C env.levels) hok
    ⟨{ graph := gi, query := q', ts := 0 }, rfl, rfl, rfl, by simp [startSt, dget_cons]⟩ hg hlev (.inl rfl)
    ⟨by simp [hroot], by simp, by simp [identsOf, IdentOk, hroot]⟩ hq
  refine ⟨st, by
    simp only [startQuery, hg, hi, start_queue, ok_bind']; exact h1, f1.ok, ?_, by simp, ?_, .nil, ?_, ?_, ?_⟩
  · intro o cb hcb
    obtain ⟨l, e1, e2⟩ := f1.cbs o
    rw [e1] at hcb
    rcases List.mem_append.1 hcb with hcb | hcb
    · simp [Queue.cbs, startSt] at hcb
    · exact ⟨(e2 cb hcb).1.mono (.refl _) fun _ h => .inr h, (e2 cb hcb).2⟩
  · refine f1.ready ?_
    intro o
    have : (startSt gi q').q.cbs o = [] := by simp [Queue.cbs, startSt]
    rw [this]; exact .nil
  · obtain ⟨wf', e1, e2, e3, _⟩ := f1.le.wfs 0 _ rfl
    refine ⟨wf', g, e1, e2, e3, hg, ?_⟩
    intro it hit
    obtain ⟨cb, hp, hgl⟩ := h2 rootIdent (by simp [identsOf]) it hit
    exact .pend cb (.inr hp) hgl
  · exact f1.calls (by intro pre s post e; simp [startSt] at e)
  · have := (ac (by intro o cb hm; simp [startSt, Queue.regs] at hm)).2
    have e0 : planOf env D (startSt gi q') = [] := by simp [planOf, startSt, Queue.regs, callsOf]
    rw [e0, List.nil_append] at this
    simpa [planQuery, hg] using this

/-- the final state of a run -/
theorem finish (C : Setup env D U) {choose : Nat → List Nat → List Nat} (hch : ValidChoice choose)
    {gi : Nat} {g : Graph} {q q' : QNode} (hg : env.sys.graphs[gi]? = some g)
    (hi : initOptions g q = .ok q') (hq : NodeOk U g g.root q') :
    ∃ st n st' wf, startQuery env gi q = .ok st ∧ Loops env choose 0 st n (.ok st') ∧
      (∀ fuel inner, costQuery env.sys 1 0 gi q < fuel → 1 + costQuery env.sys 0 1 gi q < inner →
        execLoop env choose inner fuel 0 st = .ok st') ∧
      st'.wfs[0]? = some wf ∧ wf.query = q' ∧ SInv env D U gi q' [] [] st' ∧
      readNode env.H wf.index rootName rootIdent q' =
        .ok (semNode D (semSub env.sys D gi) g g.root rootIdent q') := by
  have hsd := C.good.subsDecrease
  obtain ⟨st, hst, hs⟩ := start_sinv C hg hi hq
  obtain ⟨n, r, h1, h2, h3⟩ := c07_terminates hsd hch hst
  obtain ⟨st', rfl, hs'⟩ := hs.loops C hsd hch h1 (start_einv hsd hst).1
  obtain ⟨_, hcb, _⟩ := c18_queue_empty hsd hch hst h1
  obtain ⟨wf, g', e1, e2, e3, e4, e5⟩ := hs'.top
  rw [hg] at e4; cases e4
  refine ⟨st, n, st', wf, hst, h1, h3, e1, e3, hs', ?_⟩
  subst e2
  have := read_ok C hs'.ok.sound e1 hg q' g.root rootIdent (.inl rfl) (by simp [IdentOk, Graph.root]) hq (by
    intro it hit
    refine (e5 it hit).mono (.refl _) ?_
    rintro cb (h | ⟨o, h⟩)
    · simp at h
    · rw [hcb] at h; simp at h)
  exact this

/-! ### C06 -/

/-- C06: if the data functions follow the loading protocol and describe the data `D`, then for every
schedule of task completions the execution of a valid query finishes without error, and everything
which can be read through the result is the value of the reference semantics. -/
theorem c06_result (hgood : GoodSys U env.sys) (hH : Faithful env.H D U) (hconf : Conforms env D U)
    {choose : Nat → List Nat → List Nat} (hch : ValidChoice choose)
    {gi : Nat} {g : Graph} {q q' : QNode} (hg : env.sys.graphs[gi]? = some g)
    (hi : initOptions g q = .ok q') (hq : NodeOk U g g.root q') {fuel inner : Nat}
    (hf : costQuery env.sys 1 0 gi q < fuel) (hin : 1 + costQuery env.sys 0 1 gi q < inner) :
    ∃ idx, execute env choose inner fuel gi q = .ok (idx, q') ∧
      readNode env.H idx rootName rootIdent q' = .ok (semQuery env.sys D gi q') := by
  obtain ⟨st, n, st', wf, h1, _, h3, h4, h5, _, h7⟩ := finish ⟨hgood, hH, hconf⟩ hch hg hi hq
  refine ⟨wf.index, ?_, ?_⟩
  · simp only [execute, h1, h3 fuel inner hf hin, ok_bind', h4, h5]
  · simp only [semQuery, hg]; exact h7

/-- C06 without fuel: the loop itself, with no bound on the number of its rounds, ends successfully. -/
theorem c06_loop (hgood : GoodSys U env.sys) (hH : Faithful env.H D U) (hconf : Conforms env D U)
    {choose : Nat → List Nat → List Nat} (hch : ValidChoice choose)
    {gi : Nat} {g : Graph} {q q' : QNode} (hg : env.sys.graphs[gi]? = some g)
    (hi : initOptions g q = .ok q') (hq : NodeOk U g g.root q') :
    ∃ st n st' wf, startQuery env gi q = .ok st ∧ Loops env choose 0 st n (.ok st') ∧
      st'.wfs[0]? = some wf ∧ wf.query = q' ∧
      readNode env.H wf.index rootName rootIdent q' = .ok (semQuery env.sys D gi q') := by
  obtain ⟨st, n, st', wf, h1, h2, _, h4, h5, _, h7⟩ := finish ⟨hgood, hH, hconf⟩ hch hg hi hq
  exact ⟨st, n, st', wf, h1, h2, h4, h5, by simp only [semQuery, hg]; exact h7⟩

/-! ### C14 -/

/-- C14: two executors (two schedules), even with two different implementations of the data functions
which both follow the protocol for the same data, give the same result for the same query. -/
theorem c14_executor_independent {env' : Env} (hsys : env'.sys = env.sys) (hHH : env'.H = env.H)
    (hgood : GoodSys U env.sys) (hH : Faithful env.H D U) (hconf : Conforms env D U)
    (hconf' : Conforms env' D U)
    {choose choose' : Nat → List Nat → List Nat} (hch : ValidChoice choose) (hch' : ValidChoice choose')
    {gi : Nat} {g : Graph} {q q' : QNode} (hg : env.sys.graphs[gi]? = some g)
    (hi : initOptions g q = .ok q') (hq : NodeOk U g g.root q') {fuel inner fuel' inner' : Nat}
    (hf : costQuery env.sys 1 0 gi q < fuel) (hin : 1 + costQuery env.sys 0 1 gi q < inner)
    (hf' : costQuery env.sys 1 0 gi q < fuel') (hin' : 1 + costQuery env.sys 0 1 gi q < inner') :
    ∃ idx idx' v, execute env choose inner fuel gi q = .ok (idx, q') ∧
      execute env' choose' inner' fuel' gi q = .ok (idx', q') ∧
      readNode env.H idx rootName rootIdent q' = .ok v ∧
      readNode env.H idx' rootName rootIdent q' = .ok v := by
  obtain ⟨idx, h1, h2⟩ := c06_result hgood hH hconf hch hg hi hq hf hin
  obtain ⟨idx', h3, h4⟩ := c06_result (env := env') (by rw [hsys]; exact hgood) (by rw [hHH]; exact hH) hconf'
    hch' (by rw [hsys]; exact hg) hi hq (by rw [hsys]; exact hf') (by rw [hsys]; exact hin')
  rw [hHH, hsys] at h4
  exact ⟨idx, idx', _, h1, h3, h2, h4⟩

/-! ### C15 -/

theorem mapM_read {H : PyHash} {idx : Index} {q : QNode} {l : List Val} {r : List Val}
    (h : (l.mapM fun v => match v with
      | .ref n i => readNode H idx n i q
      | _ => .error .attributeError) = .ok r) :
    ∀ x ∈ l.filterMap refOf, ∃ v, readNode H idx x.1 x.2 q = .ok v := by
  rw [mapM_ok_iff] at h
  induction h with
  | nil => simp
  | @cons a b l l' ha _ ih =>
    intro x hx
    rw [List.filterMap_cons] at hx
    split at hx
    · exact ih x hx
    · rename_i y hy
      rcases List.mem_cons.1 hx with rfl | hx
      · cases a <;> simp [refOf] at hy
        subst hy
        exact ⟨b, ha⟩
      · exact ih x hx

/-- whatever can be read completely has no dangling references -/
theorem resolved_of_read {H : PyHash} {idx : Index} (q : QNode) : ∀ node ident v,
    readNode H idx node ident q = .ok v → Resolved H idx node ident q := by
  induction q using QNode.ind with
  | h fs ord ih =>
    intro node ident v hv
    rw [readNode, bind_ok_iff] at hv
    obtain ⟨kvs, hv, hd⟩ := hv
    rw [Resolved]
    clear hd v
    induction fs generalizing kvs with
    | nil => simp [ResolvedItems]
    | cons it r ihr =>
      rw [readItems, bind_ok_iff] at hv
      obtain ⟨v, h1, h2⟩ := hv
      rw [bind_ok_iff] at h2
      obtain ⟨kvs', h2, _⟩ := h2
      rw [ResolvedItems]
      refine ⟨?_, ihr (fun n q o a hm => ih n q o a (by simp [hm])) kvs' h2⟩
      cases it with
      | field n o a =>
        rw [ResolvedItem]
        rw [readItem] at h1
        split at h1
        · simp at h1
        · rename_i v' h; exact ⟨v', h⟩
      | link n q o a =>
        rw [ResolvedItem]
        rw [readItem] at h1
        have ihq := ih n q o a (by simp)
        split at h1
        · simp at h1
        · rename_i n' i' h
          refine ⟨_, h, ?_⟩
          intro x hx
          simp [refsOf] at hx; subst hx
          exact ihq _ _ _ h1
        · rename_i n' i' r' h
          refine ⟨_, h, ?_⟩
          intro x hx
          rw [bind_ok_iff] at h1
          obtain ⟨l, h1, _⟩ := h1
          obtain ⟨v', hv'⟩ := mapM_read h1 x hx
          exact ihq _ _ _ hv'
        · rename_i v' hx1 hx2 h
          refine ⟨v', h, ?_⟩
          intro x hx
          exfalso
          unfold refsOf at hx
          split at hx
          · exact hx1 _ _ rfl
          · exact hx2 _ _ _ rfl
          · simp at hx

/-- C15: in the result of every execution of a valid query every requested field and link of the root
object is present, and every reference stored for a requested link points to an object which has, in
the same sense, everything which is requested below that link. -/
theorem c15_no_dangling (hgood : GoodSys U env.sys) (hH : Faithful env.H D U) (hconf : Conforms env D U)
    {choose : Nat → List Nat → List Nat} (hch : ValidChoice choose)
    {gi : Nat} {g : Graph} {q q' : QNode} (hg : env.sys.graphs[gi]? = some g)
    (hi : initOptions g q = .ok q') (hq : NodeOk U g g.root q') {fuel inner : Nat}
    (hf : costQuery env.sys 1 0 gi q < fuel) (hin : 1 + costQuery env.sys 0 1 gi q < inner)
    {idx : Index} {qr : QNode} (he : execute env choose inner fuel gi q = .ok (idx, qr)) :
    qr = q' ∧ Resolved env.H idx rootName rootIdent q' := by
  obtain ⟨idx', h1, h2⟩ := c06_result hgood hH hconf hch hg hi hq hf hin
  rw [h1] at he
  cases he
  exact ⟨rfl, resolved_of_read _ _ _ _ h2⟩

/-! ### C09 -/

theorem SInv.between (C : Setup env D U) {choose : Nat → List Nat → List Nat} (hch : ValidChoice choose)
    {gi round round' R K A Cb : Nat} {q : QNode} {st st' : St} (hb : Between env choose round st round' st')
    (he : EInv env [] [] [] R K A Cb st) (h : SInv env D U gi q [] [] st) :
    SInv env D U gi q [] [] st' := by
  induction hb generalizing R K with
  | here => exact h
  | @next round st st1 round' st' ho hp _ ih =>
    obtain ⟨hc1, hc2⟩ := hch round _ ho
    have h1 : SInv env D U gi q [] [] { st with log := st.log ++ [.done (choose round st.q.outstanding)] } :=
      h.change (qu := st.q) (fun _ => rfl) h.ok.inv (fun _ h => List.mem_append_left _ h) (h.calls.done _)
    obtain ⟨st'', e1, h2, K', he2⟩ := SInv.progresses
      (st := { st with log := st.log ++ [.done (choose round st.q.outstanding)] }) C C.good.subsDecrease hc1
      (fun f hf => hc2 f hf) (List.mem_append_right _ (by simp)) hp he.log_done h1
    cases e1
    exact ih he2 h2

/-- C09: in every execution, at every moment between the rounds of the executor, every call made so
far either loads fields of one node for existing objects, or is a call of a link function which gets
the true values of the required field of the current objects, in the order of the objects (the single
value on the root, nothing if the link requires nothing), all of which had been loaded by finished
calls before. -/
theorem c09_calls (hgood : GoodSys U env.sys) (hH : Faithful env.H D U) (hconf : Conforms env D U)
    {choose : Nat → List Nat → List Nat} (hch : ValidChoice choose)
    {gi round : Nat} {g : Graph} {q q' : QNode} (hg : env.sys.graphs[gi]? = some g)
    (hi : initOptions g q = .ok q') (hq : NodeOk U g g.root q') {st st' : St}
    (hst : startQuery env gi q = .ok st) (hb : Between env choose 0 st round st')
    {pre post : List Ev} {s : Submit} (hlog : st'.log = pre ++ .call s :: post) :
    FieldsCall env D U s ∨ LinkCall env D U pre s := by
  have C : Setup env D U := ⟨hgood, hH, hconf⟩
  obtain ⟨st0, h1, h2⟩ := start_sinv C hg hi hq
  rw [hst] at h1; cases h1
  exact (h2.between C hch hb (start_einv C.good.subsDecrease hst).1).calls pre s post hlog

/-! ### The hypotheses are met: the example system -/

/-- names without options -/
def exU : String → Opts → Prop := fun _ o => o = none

/-- the data behind the functions of the example -/
def exData : Data where
  field := fun _ n _ i => .tup [.str n, i.getD .none]
  link := fun f r _ => if f.id = 2 then .list [.int 10, .int 20] else r.getD .none
  proc := fun _ this _ _ =>
    match this with
    | .map .dict kvs => .tup [(dget kvs (.str "title")).getD .none]
    | _ => .none
  obj := fun _ _ _ => True

theorem exGoodU {U : String → Opts → Prop} (hu : ∀ n ∈ [THIS, "albumId", "title"], U n none) :
    GoodSys U exEnv.sys where
  this := hu _ (by simp)
  nodes := by
    intro gi g hg
    rcases exGraphs hg with ⟨rfl, rfl⟩ | ⟨rfl, rfl⟩ <;> rfl
  links := by
    intro gi g hg gn hn n gl h
    rcases exItems hg hn h with ⟨rfl, rfl, rfl, rfl, h⟩ | ⟨rfl, rfl, rfl, rfl, h⟩ | ⟨rfl, rfl, rfl, rfl, h⟩ |
      ⟨rfl, rfl, rfl, rfl, h⟩ | ⟨rfl, rfl, rfl, rfl, h⟩ | ⟨rfl, rfl, rfl, rfl, h⟩ | ⟨rfl, rfl, rfl, rfl, h⟩ <;>
      cases h
    · refine ⟨⟨exAlbum, rfl⟩, ?_⟩
      intro r hr
      simp [exAlbumLink] at hr
      subst hr
      refine ⟨by simp, ?_⟩
      rw [ItemOk]
      exact ⟨hu _ (by simp), exAlbumId, rfl, by simp [OptsGiven, exAlbumId]⟩
    · exact ⟨⟨exHighTrack, rfl⟩, by simp [exTracks]⟩
  subs := by
    intro gi g hg gn hn n gf h sg reqs p hf
    rcases exItems hg hn h with ⟨rfl, rfl, rfl, rfl, h⟩ | ⟨rfl, rfl, rfl, rfl, h⟩ | ⟨rfl, rfl, rfl, rfl, h⟩ |
      ⟨rfl, rfl, rfl, rfl, h⟩ | ⟨rfl, rfl, rfl, rfl, h⟩ | ⟨rfl, rfl, rfl, rfl, h⟩ | ⟨rfl, rfl, rfl, rfl, h⟩ <;>
      cases h <;> simp [exTitle, exLowAlbum, exName, exLabel, exAlbumId] at hf
    obtain ⟨rfl, rfl, rfl⟩ := hf
    refine ⟨rfl, { graph := 0, node := "Track" }, exLow, exLowTrack, rfl, by simp, rfl, rfl, rfl, ?_, ?_, ?_⟩
    · simp [exReqs, QNode.Plain, PlainItems, QItem.Plain]
    · exact ⟨_, List.mem_singleton.2 rfl, rfl⟩
    · intro i hi
      simp [exReqs] at hi
      subst hi
      rw [if_pos (show QItem.name _ = THIS from rfl)]
      refine ⟨_, rfl, ?_⟩
      rw [NodeOk, ItemsOk, ItemOk, ItemsOk]
      exact ⟨⟨⟨hu _ (by simp), exTitle, rfl, by simp [OptsGiven, exTitle]⟩, trivial⟩, by simp⟩

theorem exGood : GoodSys exU exEnv.sys := exGoodU fun _ _ => rfl

theorem exFaithful : Faithful exEnv.H exData exU := by
  rintro n o n' o' rfl rfl h
  exact ⟨h, fun _ _ _ => rfl, fun _ _ => rfl, fun _ => rfl⟩

theorem exRows_node (f : PFunc) (qfs : List QItem) (ids : List Val) :
    exRows (fun q i => .tup [.str q.name, i]) (withCtx f [.fields qfs, .ids ids]) =
      .ok (.list (ids.map fun i => .list (qfs.map fun q => .tup [.str q.name, i]))) := by
  unfold withCtx
  split <;> rfl

theorem exConformsU {U : String → Opts → Prop} : Conforms exEnv exData U where
  fieldsRoot := by
    intro n gi g f qfs hg hne h
    obtain ⟨x, hx⟩ := List.exists_mem_of_ne_nil _ hne
    obtain ⟨_, gf, h1, _⟩ := h x hx
    rcases exItems hg (.inl rfl) h1 with ⟨rfl, rfl, e, _⟩ | ⟨rfl, rfl, e, _⟩ | ⟨rfl, rfl, e, _⟩ |
      ⟨rfl, rfl, e, _⟩ | ⟨rfl, rfl, e, _⟩ | ⟨rfl, rfl, e, _⟩ | ⟨rfl, rfl, _, _, h⟩
    all_goals first | (exact absurd (congrArg GNode.name e) (by simp [Graph.root, exLowTrack, exAlbum, exHighTrack])) | cases h
  fieldsNode := by
    intro n gi g nm gn f qfs ids hg hgn hne h _ _
    obtain ⟨x, hx⟩ := List.exists_mem_of_ne_nil _ hne
    obtain ⟨_, gf, h1, h2⟩ := h x hx
    have hf : f.id ≠ 2 ∧ f.id ≠ 3 := by
      rcases exItems hg (.inr ⟨nm, hgn⟩) h1 with ⟨rfl, rfl, rfl, _, h⟩ | ⟨rfl, rfl, rfl, _, h⟩ |
        ⟨rfl, rfl, rfl, _, h⟩ | ⟨rfl, rfl, rfl, _, h⟩ | ⟨rfl, rfl, rfl, _, h⟩ | ⟨rfl, rfl, rfl, _, h⟩ |
        ⟨rfl, rfl, rfl, _, h⟩ <;> cases h <;>
        simp [exTitle, exLowAlbum, exName, exLabel, exAlbumId] at h2 <;> subst h2 <;> simp
    have hcall : exEnv.world.call n f.id (withCtx f [.fields qfs, .ids ids]) =
        exRows (fun q i => .tup [.str q.name, i]) (withCtx f [.fields qfs, .ids ids]) := by
      show (match f.id with | 2 => _ | 3 => _ | _ => _) = _
      split
      · rename_i e; exact absurd e hf.1
      · rename_i e; exact absurd e hf.2
      · rfl
    refine ⟨_, _, hcall.trans (exRows_node f qfs ids), rfl, ?_⟩
    rw [List.forall₂_map_right_iff, List.forall₂_same]
    intro i _
    rfl
  linkPlain := by
    intro n gi g gn nm gl o hg hn h hu hr
    rcases exItems hg hn h with ⟨rfl, rfl, rfl, rfl, h⟩ | ⟨rfl, rfl, rfl, rfl, h⟩ | ⟨rfl, rfl, rfl, rfl, h⟩ |
      ⟨rfl, rfl, rfl, rfl, h⟩ | ⟨rfl, rfl, rfl, rfl, h⟩ | ⟨rfl, rfl, rfl, rfl, h⟩ | ⟨rfl, rfl, rfl, rfl, h⟩ <;>
      cases h
    · simp [exAlbumLink] at hr
    · rfl
  linkRoot := by
    intro n gi g nm gl o r v hg h hu hr _
    rcases exItems hg (.inl rfl) h with ⟨rfl, rfl, e, _⟩ | ⟨rfl, rfl, e, _⟩ | ⟨rfl, rfl, e, _⟩ |
      ⟨rfl, rfl, e, _⟩ | ⟨rfl, rfl, e, _⟩ | ⟨rfl, rfl, e, _⟩ | ⟨rfl, rfl, _, _, h⟩
    all_goals first | (exact absurd (congrArg GNode.name e) (by simp [Graph.root, exLowTrack, exAlbum, exHighTrack])) | cases h
    simp [exTracks] at hr
  linkNode := by
    intro n gi g nn gn nm gl o r ids vs hg hgn h hu hr _ _ hvs
    rcases exItems hg (.inr ⟨nn, hgn⟩) h with ⟨rfl, rfl, rfl, rfl, h⟩ | ⟨rfl, rfl, rfl, rfl, h⟩ |
      ⟨rfl, rfl, rfl, rfl, h⟩ | ⟨rfl, rfl, rfl, rfl, h⟩ | ⟨rfl, rfl, rfl, rfl, h⟩ | ⟨rfl, rfl, rfl, rfl, h⟩ |
      ⟨rfl, rfl, rfl, rfl, h⟩ <;> cases h
    · refine ⟨.list vs, rfl, ?_⟩
      simp [Val.asSeq, exData, exAlbumLink, Val.list]
    · simp [exTracks] at hr
  linkValue := by
    intro gi g gn nm gl o i v hg hn h hu hi hv
    rcases exItems hg hn h with ⟨rfl, rfl, rfl, rfl, h⟩ | ⟨rfl, rfl, rfl, rfl, h⟩ |
      ⟨rfl, rfl, rfl, rfl, h⟩ | ⟨rfl, rfl, rfl, rfl, h⟩ | ⟨rfl, rfl, rfl, rfl, h⟩ | ⟨rfl, rfl, rfl, rfl, h⟩ |
      ⟨rfl, rfl, rfl, rfl, h⟩ <;> cases h
    · have : v = .tup [.str "albumId", i] := hv
      subst this
      exact ⟨trivial, by simp [Val.tup], fun _ _ => trivial⟩
    · have : v = .list [.int 10, .int 20] := hv
      subst this
      exact ⟨⟨_, rfl⟩, by simp [exTracks], fun _ _ => trivial⟩
  noRefs := by intros; rfl
  noRefsProc := by
    intro p this root opts
    simp only [exData]
    split
    · rfl
    · rfl
  subObj := by intros; trivial
  proc := by
    intro gi g nn gn n o gf sg reqs p s g' t q i q1 r1 hg hgn h hf _ _ hs _ hg' ht hq h1 h2 _ _ _ _
    rcases exItems hg (.inr ⟨nn, hgn⟩) h with ⟨rfl, rfl, rfl, rfl, h⟩ | ⟨rfl, rfl, rfl, rfl, h⟩ |
      ⟨rfl, rfl, rfl, rfl, h⟩ | ⟨rfl, rfl, rfl, rfl, h⟩ | ⟨rfl, rfl, rfl, rfl, h⟩ | ⟨rfl, rfl, rfl, rfl, h⟩ |
      ⟨rfl, rfl, rfl, rfl, h⟩ <;> cases h <;> simp [exTitle, exLowAlbum, exName, exLabel, exAlbumId] at hf
    obtain ⟨rfl, rfl, rfl⟩ := hf
    have hs : some _ = some _ := hs
    cases hs
    have hg' : some _ = some _ := hg'
    cases hg'
    have ht : some _ = some _ := ht
    cases ht
    have hq : some _ = some _ := hq
    cases hq
    rw [includes_iff] at h1
    have h3 := h1 (.field "title" none none) (by simp [exReqs, QNode.fields])
    rw [IncludesItem] at h3
    obtain ⟨o', a', h3⟩ := h3
    obtain ⟨kvs, h4, h5⟩ := semNode_field (D := exData) (sub := semSub exEnv.sys exData 0) (g := exLow) (i := i) exEnv.H h2
      (gn := exLowTrack) (n := "title") (gf := exTitle) rfl ⟨_, h3, rfl⟩
    rw [h4]
    show (match dget kvs (.str "title") with | some v => _ | none => _) = _
    rw [h5]
    rfl

theorem exConforms : Conforms exEnv exData exU := exConformsU

theorem exQuery_ok : NodeOk exU exHigh exHigh.root exQuery := by
  rw [exQuery, NodeOk, ItemsOk, ItemOk, ItemsOk]
  refine ⟨⟨⟨rfl, .inl ⟨exTracks, exHighTrack, rfl, rfl, ?_⟩⟩, trivial⟩, by simp⟩
  rw [NodeOk, ItemsOk, ItemOk, ItemsOk, ItemOk, ItemsOk]
  refine ⟨⟨⟨rfl, exLabel, rfl, by simp [OptsGiven, exLabel]⟩,
    ⟨rfl, .inl ⟨exAlbumLink, exAlbum, rfl, rfl, ?_⟩⟩, trivial⟩, by simp⟩
  rw [NodeOk, ItemsOk, ItemOk, ItemsOk]
  exact ⟨⟨⟨rfl, exName, rfl, by simp [OptsGiven, exName]⟩, trivial⟩, by simp⟩

/-- all hypotheses of C06 hold for the example: tracks with a field computed through a sub-graph and a
link with a requirement, with one future finished per round -/
example : ∃ idx, execute exEnv (fun _ l => l.take 1) 3 6 1 exQuery = .ok (idx, exQuery) ∧
    readNode exEnv.H idx rootName rootIdent exQuery = .ok (semQuery exEnv.sys exData 1 exQuery) :=
  c06_result exGood exFaithful exConforms validChoice_first (g := exHigh) rfl rfl exQuery_ok
    (by rw [exCost]; omega) (by rw [exForks]; omega)

/-- and this is the value -/
example : ∃ idx, execute exEnv (fun _ l => l.take 1) 3 6 1 exQuery = .ok (idx, exQuery) ∧
    readNode exEnv.H idx rootName rootIdent exQuery = .ok (.dict [(.str "tracks", .list [
      .dict [(.str "label", .tup [.tup [.str "title", .int 10]]),
             (.str "album", .dict [(.str "name", .tup [.str "name", .tup [.str "albumId", .int 10]])])],
      .dict [(.str "label", .tup [.tup [.str "title", .int 20]]),
             (.str "album", .dict [(.str "name", .tup [.str "name", .tup [.str "albumId", .int 20]])])]])]) :=
  ⟨_, rfl, rfl⟩

/-- C15 for the example: the references lead to the albums of the tracks -/
example {idx : Index} {qr : QNode} (h : execute exEnv (fun _ l => l) 3 6 1 exQuery = .ok (idx, qr)) :
    Resolved exEnv.H idx rootName rootIdent exQuery :=
  (c15_no_dangling exGood exFaithful exConforms validChoice_all (g := exHigh) rfl rfl exQuery_ok
    (by rw [exCost]; omega) (by rw [exForks]; omega) h).2

end Hiku
