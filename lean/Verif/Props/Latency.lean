import Verif.Proofs.LatencyRun
import Verif.Proofs.StateOps

/-! # C64: how long a query takes

The time is counted in rounds of the executor loop: one round passes whenever the executor waits and gets
some finished tasks back.  `InTime wt round st` says that no outstanding task is older than `wt` of its
function. -/

namespace Hiku
namespace Lat

section
variable {env : Env} {wt : PFunc → Nat} {choose : Nat → List Nat → List Nat}

/-- Every call of a data function `f` finishes within `wt f` rounds. -/
def Punctual (env : Env) (wt : PFunc → Nat) (choose : Nat → List Nat → List Nat) (st : St) : Prop :=
  ∀ round st', Between env choose 0 st round st' → InTime wt round st'

theorem Between.snoc {r0 r : Nat} {st0 st st1 : St} (h : Between env choose r0 st0 r st) (ho : st.q.outstanding ≠ [])
    (hp : Progresses qlens (runCB env) (choose r st.q.outstanding)
        { st with log := st.log ++ [.done (choose r st.q.outstanding)] } (.ok st1)) :
    Between env choose r0 st0 (r + 1) st1 := by
  induction h with
  | here => exact .next ho hp .here
  | next h1 h2 _ ih => exact .next h1 h2 (ih ho hp)

theorem LB.between (hsd : SubsDecrease env) (hch : ValidChoice choose) {R K A C r0 r T : Nat} {st0 st st' : St}
    (hall : ∀ round st', Between env choose r0 st0 round st' → InTime wt round st')
    (hs : Between env choose r0 st0 r st) (hL : LB env wt r T st) (h : EInv env [] [] [] R K A C st)
    (hc : st.q.outstanding ≠ [] → st.q.completed = []) {r' : Nat} (hb : Between env choose r st r' st') :
    LB env wt r' T st' ∧ ∃ R' K', EInv env [] [] [] R' K' A C st' := by
  induction hb generalizing R K with
  | here => exact ⟨hL, R, K, h⟩
  | @next round st st1 round' st' ho hp _ ih =>
    obtain ⟨hc1, hc2⟩ := hch round _ ho
    have h1 := h.log_done (l := choose round st.q.outstanding)
    obtain ⟨res, p1, _, p3⟩ := h1.progresses hsd hc1 hc2
    have := progresses_unique p1 hp
    subst this
    obtain ⟨e1, K', e2⟩ := p3 st1 rfl
    have hn := hL.nextRound (l := choose round st.q.outstanding) h (hc ho) (hall _ _ hs)
    have hn' := LB.progresses (st := { st with log := st.log ++ [.done (choose round st.q.outstanding)] }) hsd hn h1
      hc1 hc2 hp
    exact ih (Between.snoc hs ho hp) hn' e2 (fun _ => e1)

/-- C64: if every call of a data function `f` finishes within `wt f` rounds, then in every round before
the end fewer than `queryTime` rounds have passed, whatever the functions return and in whatever order the
tasks finish; `queryTime` is computed from the query and the graphs alone. -/
theorem c64_rounds (hsd : SubsDecrease env) (hch : ValidChoice choose) {gi : Nat} {g : Graph} {q q' : QNode} {st : St}
    (hg : env.sys.graphs[gi]? = some g) (hq : initOptions g q = .ok q') (h : startQuery env gi q = .ok st)
    (hp : Punctual env wt choose st) {round : Nat} {st' : St} (hb : Between env choose 0 st round st')
    (ho : st'.q.outstanding ≠ []) : round < queryTime env.sys env.H wt gi q' := by
  obtain ⟨he, hnt⟩ := start_einv hsd h
  have hc : st.q.outstanding ≠ [] → st.q.completed = [] := by
    intro ho
    cases hcm : st.q.completed with
    | nil => rfl
    | cons t r =>
      exfalso
      have hm := (Queue.mem_completed he.inv).1 (by rw [hcm]; simp : t ∈ st.q.completed)
      obtain ⟨f, r', hf⟩ := List.exists_cons_of_ne_nil ho
      obtain ⟨t', s, hs, hms⟩ := (Queue.mem_outstanding he.inv.nd).1 (by rw [hf]; simp : f ∈ st.q.outstanding)
      have h1 := he.inv.lt _ _ hm.1
      have h2 := he.inv.lt _ _ hs
      have : t = t' := by omega
      subst this
      rw [hm.1] at hs; cases hs; simp at hms
  obtain ⟨hL, R', K', he'⟩ := (start_lb (wt := wt) hsd hg hq h).between hsd hch hp .here he hc hb
  exact hL.bound he' (hp _ _ hb) ho

/-- C64: the executor loop ends within `queryTime` rounds. -/
theorem c64_latency (hsd : SubsDecrease env) (hch : ValidChoice choose) {gi : Nat} {g : Graph} {q q' : QNode} {st : St}
    (hg : env.sys.graphs[gi]? = some g) (hq : initOptions g q = .ok q') (h : startQuery env gi q = .ok st)
    (hp : Punctual env wt choose st) :
    ∃ n res, Loops env choose 0 st n res ∧ n ≤ queryTime env.sys env.H wt gi q' := by
  obtain ⟨n, res, hl, _⟩ := c07_terminates hsd hch h
  refine ⟨n, res, hl, ?_⟩
  have main : ∀ r st', Between env choose 0 st r st' → st'.q.outstanding ≠ [] →
      r < queryTime env.sys env.H wt gi q' := fun r st' hb ho => c64_rounds hsd hch hg hq h hp hb ho
  have last : ∀ {r n : Nat} {st1 : St} {res : Except Err St}, Loops env choose r st1 n res → n = 0 ∨
      ∃ st', Between env choose r st1 (r + (n - 1)) st' ∧ st'.q.outstanding ≠ [] := by
    intro r n st1 res hl
    induction hl with
    | stop ho => exact .inl rfl
    | @fail r st e ho hp => exact .inr ⟨st, .here, ho⟩
    | @next r st st1 n res ho hp _ ih =>
      rcases ih with rfl | ⟨st', e1, e2⟩
      · exact .inr ⟨st, .here, ho⟩
      · by_cases hn : n = 0
        · subst hn; exact .inr ⟨st, .here, ho⟩
        · refine .inr ⟨st', ?_, e2⟩
          have := Between.next ho hp e1
          rw [show r + 1 + (n - 1) = r + (n + 1 - 1) by omega] at this
          exact this
  rcases last hl with rfl | ⟨st', e1, e2⟩
  · exact Nat.zero_le _
  · have := main _ _ e1 e2
    omega

/-! ### an executor which always waits for everything -/

/-- all the outstanding tasks were submitted after `now` rounds -/
structure Young (now : Nat) (st : St) : Prop where
  cur : rounds st.log = now
  lt : ∀ s, Ev.call s ∈ st.log → s.fut < st.results.length
  young : ∀ pre s post, st.log = pre ++ .call s :: post → s.fut ∈ st.q.outstanding → now ≤ rounds pre

theorem Young.shrink {now : Nat} {st : St} {q : Queue CB} (h : Young now st)
    (hq : ∀ f ∈ q.outstanding, f ∈ st.q.outstanding) : Young now { st with q := q } :=
  ⟨h.cur, h.lt, fun pre s post hl hm => h.young pre s post hl (hq _ hm)⟩

theorem mem_dset_flat {d : List (Nat × List Nat)} {t f : Nat} {s : List Nat} (h : f ∈ (dset d t s).flatMap (·.2)) :
    f ∈ s ∨ f ∈ d.flatMap (·.2) := by
  induction d with
  | nil => simpa [dset] using h
  | cons p r ih =>
    simp only [dset] at h
    split at h
    · simp only [List.flatMap_cons, List.mem_append] at h ⊢
      rcases h with h | h
      · exact .inl h
      · exact .inr (.inr h)
    · simp only [List.flatMap_cons, List.mem_append] at h ⊢
      rcases h with h | h
      · exact .inr (.inl h)
      · rcases ih h with h | h
        · exact .inl h
        · exact .inr (.inr h)

theorem young_closed (now : Nat) : StOp.StClosed env (Young now) where
  submit := by
    intro w nd f args st st' fut h hy
    unfold submitCall at h
    split at h
    · simp at h
    simp only at h
    split at h
    · simp at h
    split at h
    · simp at h
    rename_i q' hq
    simp at h
    obtain ⟨rfl, rfl⟩ := h
    refine ⟨?_, ?_, ?_⟩
    · simp only [rounds_append, hy.cur]; simp [rounds]
    · intro s hs
      simp only [List.length_append, List.length_singleton]
      rcases List.mem_append.1 hs with hs | hs
      · have := hy.lt s hs; omega
      · simp at hs; subst hs; exact Nat.lt_succ_self _
    · intro pre s post hl hm
      rcases log_snoc hl with ⟨_, rfl, e⟩ | ⟨post', e⟩
      · rw [hy.cur]
      · refine hy.young pre s post' e ?_
        have hs := hy.lt s (by rw [e]; simp)
        rcases List.mem_append.1 ((Queue.outstanding_submit_perm hq).mem_iff.1 hm) with hm | hm
        · exact hm
        · simp at hm; omega
  fork := by
    intro st q' p t h hy
    refine hy.shrink fun f hf => ?_
    simp only [Queue.fork] at h
    split at h
    · simp at h
    · simp at h
      obtain ⟨rfl, _⟩ := h
      rcases mem_dset_flat hf with hf | hf
      · simp at hf
      · exact hf
  add := fun o cb hy => hy.shrink fun f hf => hf
  idx := fun w _ i _ _ hy => ⟨hy.cur, hy.lt, hy.young⟩
  wf := fun wf _ hy => ⟨hy.cur, hy.lt, hy.young⟩

theorem outstanding_drop_all (q : Queue CB) : (q.dropDone q.outstanding).outstanding = [] := by
  rw [List.eq_nil_iff_forall_not_mem]
  intro f hf
  simp only [Queue.outstanding, Queue.dropDone, List.flatMap_map, List.mem_flatMap, List.mem_filter] at hf
  obtain ⟨p, hp, h1, h2⟩ := hf
  simp only [decide_eq_true_eq] at h2
  exact h2 ⟨p, hp, h1⟩

theorem young_between {r r' : Nat} {st st' : St} (hb : Between env (fun _ out => out) r st r' st') (h : Young r st) :
    Young r' st' := by
  induction hb with
  | here => exact h
  | @next round st st1 round' st' ho hp _ ih =>
    refine ih (StOp.st_progresses (young_closed (round + 1)) (fun o hy => hy.shrink fun f hf => hf) ?_ hp ?_)
    · intro st t hy
      refine hy.shrink fun f hf => ?_
      simp only [Queue.outstanding, Queue.removeTs, List.mem_flatMap] at hf ⊢
      obtain ⟨p, hp, hf⟩ := hf
      exact ⟨p, (List.mem_filter.1 hp).1, hf⟩
    · refine ⟨?_, ?_, ?_⟩
      · simp only [rounds_append, h.cur]; simp [rounds]
      · intro s hs
        refine h.lt s ?_
        simpa using hs
      · intro pre s post _ hm
        have : s.fut ∈ (st.q.dropDone st.q.outstanding).outstanding := hm
        rw [outstanding_drop_all] at this; simp at this

theorem young_start {gi : Nat} {g : Graph} {q : QNode} {st : St} (hg : env.sys.graphs[gi]? = some g)
    (h : startQuery env gi q = .ok st) : Young 0 st := by
  unfold startQuery at h
  simp only [hg, start_queue, bind_ok_iff, ok_bind'] at h
  obtain ⟨q1, hq1, h⟩ := h
  refine StOp.st_processNode (young_closed 0) (StOp.st_subCall (young_closed 0) env.levels) h ?_
  exact ⟨rfl, by simp, fun pre s post hl => by simp at hl⟩

theorem punctual_all {gi : Nat} {g : Graph} {q : QNode} {st : St} (hg : env.sys.graphs[gi]? = some g)
    (h : startQuery env gi q = .ok st) : Punctual env (fun _ => 1) (fun _ out => out) st := by
  intro round st' hb pre s post hl ho
  have := (young_between hb (young_start hg h)).young pre s post hl ho
  show round < rounds pre + 1
  omega

/-- C64: an executor which waits in every round until all outstanding tasks are finished needs at most as
many rounds as there are calls on the longest chain of calls which need one another. -/
theorem c64_all (hsd : SubsDecrease env) {gi : Nat} {g : Graph} {q q' : QNode} {st : St}
    (hg : env.sys.graphs[gi]? = some g) (hq : initOptions g q = .ok q') (h : startQuery env gi q = .ok st) :
    ∃ n res, Loops env (fun _ out => out) 0 st n res ∧ n ≤ queryTime env.sys env.H (fun _ => 1) gi q' :=
  c64_latency hsd (fun _ _ ho => ⟨ho, fun _ hf => hf⟩) hg hq h (punctual_all hg h)

/-! ### links -/

theorem unorderedItems_iff {fs : List QItem} : UnorderedItems fs ↔ ∀ i ∈ fs, UnorderedItem i := by
  induction fs with
  | nil => simp [UnorderedItems]
  | cons i r ih => simp [UnorderedItems, ih]

theorem depthItems_le {fs : List QItem} {i : QItem} (h : i ∈ fs) : depthItem i ≤ depthItems fs := by
  induction fs with
  | nil => simp at h
  | cons j r ih =>
    simp only [depthItems]
    rcases List.mem_cons.1 h with rfl | h
    · exact Nat.le_max_left _ _
    · exact Nat.le_trans (ih h) (Nat.le_max_right _ _)

theorem init_depth {g : Graph} : ∀ (q : QNode) (gn : GNode) (q' : QNode), initNode g gn q = .ok q' →
    depth q' = depth q ∧ (Unordered q → Unordered q') := by
  apply QNode.ind
  intro fs ord ih gn q' h0
  obtain ⟨h, ho⟩ := initNode_ok.1 h0
  clear h0
  obtain ⟨fs', ord'⟩ := q'
  simp only [QNode.fields, QNode.ordered] at h ho
  subst ho
  simp only [depth, Unordered]
  induction h with
  | nil => exact ⟨rfl, fun h => h⟩
  | @cons i i' l l' hi _ ih' =>
    obtain ⟨e1, e2⟩ := ih' (fun n q o al hm => ih n q o al (by simp [hm]))
    obtain ⟨gi, h1, h2, h3, h4, h5, h6, h7⟩ := initItem_ok hi
    have key : depthItem i' = depthItem i ∧ (UnorderedItem i → UnorderedItem i') := by
      cases i with
      | field n o al =>
        cases i' with
        | link => simp [QItem.isLink] at h4
        | field n' o' al' => exact ⟨rfl, fun h => h⟩
      | link n q o al =>
        obtain ⟨q1, o1, rfl, e1, e2⟩ := h7 n q o al rfl
        simp only [depthItem, UnorderedItem]
        cases gi with
        | link gl =>
          obtain ⟨t, ht, hq⟩ := e1 gl rfl
          obtain ⟨x1, x2⟩ := ih n q o al (by simp) t q1 hq
          exact ⟨by rw [x1], x2⟩
        | field gf => rw [e2 gf rfl]; exact ⟨rfl, fun h => h⟩
    simp only [depthItems, UnorderedItems]
    exact ⟨by rw [key.1, e1], fun ⟨a, b, c⟩ => ⟨a, key.2 b, (e2 ⟨a, c⟩).2⟩⟩

theorem batchTime_le_one {g : Graph} {gn : GNode} (hns : NoSubGraphs g) (hn : IsNode g gn)
    {subt : Nat → List QNode → Nat} {items : List QItem} {q : QItem} :
    batchTime (fun _ => 1) subt gn items q ≤ 1 := by
  unfold batchTime
  split
  · simp
  · rename_i k hk
    have : ∃ f, k = .plain f := by
      have key : ∀ gi, gn.get q.name = some gi → ∃ f, gi.funcKey = .plain f := by
        intro gi hgi
        cases gi with
        | field gf =>
          obtain ⟨f, hf⟩ := hns gn hn _ _ hgi
          exact ⟨f, by simp [GItem.funcKey, hf, Func.key]⟩
        | link gl => exact ⟨_, rfl⟩
      unfold loader at hk
      split at hk
      · simp at hk
      · rename_i gi _ hgi
        simp at hk; subst hk
        exact key _ hgi
      · simp at hk
    obtain ⟨f, rfl⟩ := this
    exact Nat.le_refl _

theorem nodeTime_depth {g : Graph} (hns : NoSubGraphs g) {subt : Nat → List QNode → Nat} :
    ∀ (q : QNode) (gn : GNode), IsNode g gn → Unordered q →
      nodeTime (fun _ => 1) subt g gn q ≤ 2 * depth q + 1 := by
  apply QNode.ind
  intro fs ord ih gn hn hu
  obtain ⟨rfl, hu⟩ := hu
  simp only [nodeTime, depth]
  refine Nat.max_le.2 ⟨?_, ?_⟩
  · simp only [fieldsTime, Bool.false_eq_true, if_false]
    refine Nat.le_trans (maxOf_le (m := 1) ?_) (by omega)
    intro x hx
    obtain ⟨i, _, rfl⟩ := List.mem_map.1 hx
    exact batchTime_le_one hns hn
  · have key : ∀ i ∈ fs, ∀ before, linkTime (fun _ => 1) subt g gn false fs before i ≤ 2 * depthItems fs + 1 := by
      intro i hi before
      have hd := depthItems_le hi
      cases i with
      | field n o a => simp [linkTime]
      | link n q o a =>
        simp only [linkTime]
        split
        · rename_i gl hgl
          have h1 : linkStart (fun _ => 1) subt gn false fs before gl ≤ 1 := by
            simp only [linkStart, Bool.false_eq_true, if_false]
            refine maxOf_le ?_
            intro x hx
            obtain ⟨i, _, rfl⟩ := List.mem_map.1 hx
            exact batchTime_le_one hns hn
          simp only [depthItem] at hd
          cases ht : g.node gl.node with
          | none => simp only; omega
          | some t =>
            have h2 := ih n q o a hi t (.inr ⟨_, ht⟩) (unorderedItems_iff.1 hu _ hi)
            simp only; omega
        · exact Nat.zero_le _
    have gen : ∀ (l : List QItem) before, (∀ i ∈ l, i ∈ fs) →
        linksTime (fun _ => 1) subt g gn false fs before l ≤ 2 * depthItems fs + 1 := by
      intro l
      induction l with
      | nil => intro before _; simp [linksTime]
      | cons i r ih' =>
        intro before hl
        simp only [linksTime]
        exact Nat.max_le.2 ⟨key i (hl i (by simp)) before, ih' _ fun j hj => hl j (by simp [hj])⟩
    exact gen fs [] fun i hi => hi

/-- C64: in a graph without sub-graphs an executor which waits for everything answers a query without
ordered nodes in at most twice as many rounds as links are nested in it, and one more, however many
fields and links it has and however many objects there are. -/
theorem c64_depth (hsd : SubsDecrease env) {gi : Nat} {g : Graph} {q : QNode} {st : St}
    (hg : env.sys.graphs[gi]? = some g) (hns : NoSubGraphs g) (hu : Unordered q) (h : startQuery env gi q = .ok st) :
    ∃ n res, Loops env (fun _ out => out) 0 st n res ∧ n ≤ 2 * depth q + 1 := by
  have hq : ∃ q', initOptions g q = .ok q' := by
    unfold startQuery at h
    simp only [hg, start_queue, bind_ok_iff, ok_bind'] at h
    obtain ⟨q1, hq1, h⟩ := h
    exact ⟨q1, hq1⟩
  obtain ⟨q', hq⟩ := hq
  obtain ⟨e1, e2⟩ := init_depth q g.root q' hq
  obtain ⟨n, res, hl, hn⟩ := c64_all hsd hg hq h
  refine ⟨n, res, hl, Nat.le_trans hn ?_⟩
  rw [← e1]
  simp only [queryTime, hg]
  exact nodeTime_depth hns q' g.root (.inl rfl) (e2 hu)

end

/-! ### the example: five calls in four rounds -/

/-- tracks; then at the same time the titles for the labels and albumId, album, name -/
example : ∃ q' st, initOptions exHigh exQuery = .ok q' ∧ startQuery exEnv 1 exQuery = .ok st ∧
    queryTime exEnv.sys exEnv.H (fun _ => 1) 1 q' = 4 := by
  refine ⟨exQuery, _, rfl, rfl, ?_⟩
  have e : subTime exEnv.sys exEnv.H (fun _ => 1) 1 =
      fun sg reqs => if sg = 0 then reqsTime exEnv (fun _ => 1) { graph := 0, node := "Track" } reqs else 0 := by
    funext sg reqs
    by_cases h : sg = 0
    · subst h; rw [if_pos rfl]; exact subTime_eq rfl (by decide) reqs
    · rw [if_neg h, subTime]
      have : exEnv.sys.subs[sg]? = none := by
        match sg, h with
        | n + 1, _ => simp [exEnv]
      simp only [this]
  show nodeTime (fun _ => 1) (subTime exEnv.sys exEnv.H (fun _ => 1) 1) exHigh exHigh.root exQuery = 4
  rw [e]
  decide +kernel

end Lat
end Hiku
