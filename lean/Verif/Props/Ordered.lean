import Verif.Proofs.Ordered
import Verif.Proofs.SubTasks
import Verif.Props.Semantics

/-! # C12: the steps of an ordered query run one after another -/

namespace Hiku

variable {env : Env}

theorem initOptions_ordered {g : Graph} {q q' : QNode} (h : initOptions g q = .ok q') : q'.ordered = q.ordered := by
  obtain ⟨fs, o⟩ := q
  simp only [initOptions, initNode, bind_ok_iff] at h
  obtain ⟨fs', _, h⟩ := h
  cases h
  rfl

theorem start_oinv {gi : Nat} {g : Graph} {q q' : QNode} (hg : env.sys.graphs[gi]? = some g)
    (hi : initOptions g q = .ok q') (ho : q.ordered = true) {st : St} (hst : startQuery env gi q = .ok st) :
    ∃ steps, IsPlan g.root q'.fields steps ∧ OInv g.root steps [] st := by
  have h1 : processNode env (subCall env env.levels) 0 g.root q' none (startSt gi q') = .ok st := by
    simp only [startQuery, hg, hi, ok_bind'] at hst
    exact hst
  rw [← initOptions_ordered hi] at ho
  unfold processNode at h1
  rw [if_pos ho, bind_ok_iff] at h1
  obtain ⟨steps, h2, h3⟩ := h1
  have hw : 0 < (startSt gi q').wfs.length := by simp [startSt]
  have hc : OneByOne (startSt gi q').log := by intro pre s post e; simp [startSt] at e
  have hr : rootRegs (startSt gi q') = [] := by simp [rootRegs, startSt, Queue.regs]
  refine ⟨steps, groupItems_plan h2, ?_⟩
  cases steps with
  | nil =>
    simp [runSteps] at h3
    subst h3
    refine ⟨hw, hc, [], [], rfl, by simp [startSt, rootCalls], ?_⟩
    simp [Pending, hr]
  | cons s r =>
    refine (OInv.advance (pre := []) (run := []) rfl hw hc (by simp [startSt, rootCalls]) hr rfl ?_ h3).1
    intro s0 h0
    simp [startSt, rootCalls] at h0

/-- C12: while an ordered query is executed, whatever the functions return and whatever the order in
which tasks finish, the calls made for the root node are the calls of the first steps of the plan of
the query, in the order of the plan, and every call was made after the call of the previous step had
been reported as finished. -/
theorem c12_ordered (hsd : SubsDecrease env) {choose : Nat → List Nat → List Nat} (hch : ValidChoice choose)
    {gi round : Nat} {g : Graph} {q q' : QNode} (hg : env.sys.graphs[gi]? = some g)
    (hi : initOptions g q = .ok q') (ho : q.ordered = true) {st st' : St}
    (hst : startQuery env gi q = .ok st) (hb : Between env choose 0 st round st') :
    ∃ steps, IsPlan g.root q'.fields steps ∧
      (∃ n, List.Forall₂ StepCall (steps.take n) (rootCalls st'.log)) ∧ OneByOne st'.log := by
  obtain ⟨steps, h1, h2⟩ := start_oinv hg hi ho hst
  have h3 := h2.between hsd rfl hch hb (start_einv hsd hst).1
  obtain ⟨pre, rest, e, h4, _⟩ := h3.prog
  exact ⟨steps, h1, ⟨pre.length, by rw [e, List.take_left]; exact h4⟩, h3.chain⟩

/-- C12: a finished execution of an ordered query has called all the steps, in order. -/
theorem c12_ordered_all (hsd : SubsDecrease env) {choose : Nat → List Nat → List Nat} (hch : ValidChoice choose)
    {gi n : Nat} {g : Graph} {q q' : QNode} (hg : env.sys.graphs[gi]? = some g)
    (hi : initOptions g q = .ok q') (ho : q.ordered = true) {st st' : St}
    (hst : startQuery env gi q = .ok st) (hl : Loops env choose 0 st n (.ok st')) :
    ∃ steps, IsPlan g.root q'.fields steps ∧ List.Forall₂ StepCall steps (rootCalls st'.log) ∧
      OneByOne st'.log := by
  obtain ⟨steps, h1, h2⟩ := start_oinv hg hi ho hst
  have h3 := h2.between hsd rfl hch (between_of_loops hl) (start_einv hsd hst).1
  obtain ⟨pre, rest, e, h4, h5⟩ := h3.prog
  obtain ⟨_, hcb, _⟩ := c18_queue_empty hsd hch hst hl
  have hrest : rest = [] := by
    by_contra hne
    unfold Pending at h5
    rw [if_neg hne] at h5
    obtain ⟨s, _, ⟨a, _⟩ | ⟨_, a, _⟩⟩ := h5
    · have hm : (Obj.fut s.fut, CB.procSteps 0 g.root none rest) ∈ rootRegs st' := by rw [a]; simp
      have hm := (List.mem_filter.1 hm).1
      obtain ⟨R', K', he'⟩ := EInv.between hsd hch (between_of_loops hl) (start_einv hsd hst).1
      have := (Queue.mem_regs he'.inv.cnd).1 hm
      simp [hcb] at this
    · simp at a
  subst hrest
  rw [List.append_nil] at e
  exact ⟨steps, h1, e ▸ h4, h3.chain⟩

/-- C12, any ordered node (also below links): when a step with data functions has started, exactly one
function has been called, and the remaining steps wait for the result of this call. -/
theorem c12_waits {sub : SubCall} {w : Nat} {node : GNode} {ids : Option (List Val)} {step next : Step}
    {rest : List Step} {st st' : St} (hp : ∀ sg its, step ≠ .fields (.sub sg) its)
    (h : runSteps env sub w node ids (step :: next :: rest) st = .ok st') :
    ∃ (s : Submit) (cb : CB), st'.log = st.log ++ [.call s] ∧ (∀ w n i r, cb ≠ .procSteps w n i r) ∧
      st'.q.regs.Perm (st.q.regs ++
        [(.fut s.fut, cb), (.fut s.fut, .procSteps w node ids (next :: rest))]) := by
  simp only [runSteps, bind_ok_iff] at h
  obtain ⟨⟨st1, dep⟩, h1, h2⟩ := h
  simp at h2
  have hs1 : ∃ (s : Submit) (cb : CB), st1.log = st.log ++ [.call s] ∧ (∀ w n i r, cb ≠ .procSteps w n i r) ∧
      st1.q.regs.Perm (st.q.regs ++ [(.fut s.fut, cb)]) ∧ dep = .fut s.fut := by
    cases step with
    | fields k items =>
      simp only [scheduleFields] at h1
      cases k with
      | sub sg => exact absurd rfl (hp sg items)
      | plain f =>
        simp only [bind_ok_iff] at h1
        obtain ⟨⟨st2, fut⟩, h3, h4⟩ := h1
        simp at h4
        obtain ⟨rfl, rfl⟩ := h4
        obtain ⟨ts, e1, e2, e3⟩ := submit_effect h3
        refine ⟨_, .store w node (items.map (·.2)) ids (.fut fut), e1, by intros; simp, ?_, rfl⟩
        exact e3 ▸ Queue.regs_addCallback st2.q _ _
    | link gl ql =>
      simp only [scheduleLink] at h1
      split at h1
      · simp at h1
      · simp only [bind_ok_iff] at h1
        obtain ⟨ra, hra, ⟨st2, fut⟩, h3, h4⟩ := h1
        simp at h4
        obtain ⟨rfl, rfl⟩ := h4
        obtain ⟨ts, e1, e2, e3⟩ := submit_effect h3
        refine ⟨_, .procLink w node gl ql ids fut, e1, by intros; simp, ?_, rfl⟩
        exact e3 ▸ Queue.regs_addCallback st2.q _ _
  obtain ⟨s, cb, a1, a2, a3, rfl⟩ := hs1
  subst h2
  refine ⟨s, cb, a1, a2, ?_⟩
  refine (Queue.regs_addCallback st1.q _ _).trans ?_
  have := a3.append_right [(Obj.fut s.fut, CB.procSteps w node ids (next :: rest))]
  simpa using this

/-- C12, any ordered node, a step of fields which are defined over a sub-graph: the remaining steps wait for a new task set,
and all calls which the step has made and all sub-queries which it has started belong to this task set or to task sets
forked from it (so by `c17_engine` the next step starts when all of them have finished). -/
theorem c12_waits_sub {w n sg : Nat} {node : GNode} {ids : Option (List Val)} {its : List (GItem × QItem)} {next : Step}
    {rest : List Step} {st st' : St} (ht : Tree st.q)
    (h : runSteps env (subCall env n) w node ids (.fields (.sub sg) its :: next :: rest) st = .ok st') :
    ∃ dep, dget st.q.futures dep = none ∧ (.ts dep, .procSteps w node ids (next :: rest)) ∈ st'.q.regs ∧
      (∀ s, Ev.call s ∈ st'.log.drop st.log.length → Under st'.q dep s.ts) ∧
      ∀ i wf, st.wfs.length ≤ i → st'.wfs[i]? = some wf → Under st'.q dep wf.ts := by
  simp only [runSteps, bind_ok_iff] at h
  obtain ⟨⟨st1, o⟩, h1, h2⟩ := h
  simp at h2
  subst h2
  simp only [scheduleFields] at h1
  split at h1
  · simp at h1
  rename_i ids'
  split at h1
  · simp at h1
  rename_i wf hwf
  simp only [bind_ok_iff] at h1
  obtain ⟨⟨q', dep⟩, hf, ⟨s1, src⟩, h1, h3⟩ := h1
  simp at h3
  obtain ⟨rfl, rfl⟩ := h3
  have hw : Within dep st.wfs.length st.log.length { st with q := q' } := by
    refine ⟨tree_closed.fork ht hf, Nat.le_refl _, fun i wf hi hw => ?_, ?_, Nat.le_refl _⟩
    · have := (List.getElem?_eq_some_iff.1 hw).1
      simp only at this
      omega
    · intro s hs; simp at hs
  have hw := ((subCall_within n _ _ _ _ _ _ _ h1 hw .self).addCB (.ts dep) (.store w node (its.map (·.2)) (some ids') src)).addCB (.ts dep)
    (.procSteps w node (some ids') (next :: rest))
  refine ⟨dep, ?_, (Queue.regs_addCallback _ _ _).mem_iff.2 (by simp), hw.calls, hw.wfs⟩
  have hd : dep = st.q.nextTs := by
    simp only [Queue.fork] at hf
    split at hf
    · simp at hf
    · simp at hf; exact hf.2.symm
  cases e : dget st.q.futures dep with
  | none => rfl
  | some l => have := ht.lt _ _ e; omega

/-! ### The hypotheses are met: an ordered query with two functions on the root, the second one asked
for twice, around a link -/

def exFieldA : GField := { name := "a", ty := none, func := .plain { id := 1 } }
def exFieldB : GField := { name := "b", ty := none, func := .plain { id := 2 } }
def exFieldC : GField := { name := "c", ty := none, func := .plain { id := 2, passCtx := false } }
def exLinkX : GLink :=
  { name := "x", typeEnum := .many, node := "X", func := { id := 3 }, requires := some "b" }
def exOrdGraph : Graph where
  items := [{ name := some "X", fields := [.field exFieldA] },
    { name := none, fields := [.field exFieldA, .field exFieldB, .field exFieldC, .link exLinkX] }]
def exOrdWorld : World where
  call := fun _ f args =>
    match f with
    | 3 => .ok (.list [.int 1])
    | _ => match args with
        | [.fields fs] => .ok (.list (fs.map fun q => .str q.name))
        | _ => exRows (fun q _ => .str q.name) args
  proc := fun _ _ _ _ => .error .typeError
def exOrdEnv : Env where
  sys := { graphs := [exOrdGraph], subs := [] }
  world := exOrdWorld
  H := { atom := fun _ => 0, pairs := fun _ => 0, ints := fun _ => 0 }
def exOrdQuery : QNode :=
  .mk [.field "b" none none, .field "c" none none, .field "a" none none,
    .link "x" (.mk [.field "a" none none] false) none none, .field "b" none (some "bb")] true

theorem exOrd_subs : SubsDecrease exOrdEnv := by
  intro gi g hg gn hn n gf hget sg reqs proc hf
  match gi, hg with
  | n + 1, hg => simp [exOrdEnv] at hg
  | 0, hg =>
    simp [exOrdEnv] at hg
    subst hg
    have hmem : (n, GItem.field gf) ∈ gn.fieldsMap := dget_mem hget
    rcases hn with rfl | ⟨t, ht⟩
    · simp [exOrdGraph, Graph.root, GNode.fieldsMap, dmk, dupdate, dset, GItem.name, exFieldA, exFieldB, exFieldC,
        exLinkX] at hmem
      rcases hmem with ⟨_, rfl⟩ | ⟨_, rfl⟩ | ⟨_, rfl⟩ <;> simp at hf
    · have ht' := dget_mem ht
      simp [exOrdGraph, Graph.nodesMap, dmk, dupdate, dset] at ht'
      obtain ⟨_, rfl⟩ := ht'
      simp [GNode.fieldsMap, dmk, dupdate, dset, GItem.name, exFieldA] at hmem
      obtain ⟨_, rfl⟩ := hmem
      simp at hf

/-- the whole run: the calls on the root are `b c` together, `a`, `b` for the link, the link, `b` again -/
example : ∃ st st', startQuery exOrdEnv 0 exOrdQuery = .ok st ∧
    execLoop exOrdEnv (fun _ l => l) 20 20 0 st = .ok st' ∧
    (rootCalls st'.log).map (fun s => s.func.id) = [2, 1, 2, 3, 2] :=
  ⟨_, _, rfl, rfl, rfl⟩

example {n : Nat} {st st' : St} (hst : startQuery exOrdEnv 0 exOrdQuery = .ok st)
    (hl : Loops exOrdEnv (fun _ l => l) 0 st n (.ok st')) :
    ∃ steps, List.Forall₂ StepCall steps (rootCalls st'.log) ∧ OneByOne st'.log := by
  obtain ⟨steps, _, h⟩ := c12_ordered_all exOrd_subs validChoice_all (g := exOrdGraph) rfl rfl rfl hst hl
  exact ⟨steps, h⟩

/-- the hypotheses of `c12_waits_sub` are met: a field defined over a sub-graph, then a plain one -/
example : ∃ st', Tree (startSt 1 exQuery).q ∧
    runSteps exEnv (subCall exEnv 2) 0 exHighTrack (some [.int 10])
      [.fields (.sub 0) [(.field exLabel, .field "label" none none)],
        .fields (.plain { id := 5 }) [(.field exAlbumId, .field "albumId" none none)]] (startSt 1 exQuery) = .ok st' ∧
    (st'.log.map fun e => match e with | .call s => some (s.func.id, s.ts) | .done _ => none) = [some (1, 1)] := by
  refine ⟨_, ⟨?_, ?_, ?_⟩, rfl, rfl⟩
  · intro t s h
    simp [startSt, dget_cons] at h
    simp [startSt]
    exact h.1.symm
  · intro t
    simp [startSt, dget_cons]
  · intro t h hn
    simp [startSt, dget_cons] at h
    exact absurd h.symm hn

end Hiku
