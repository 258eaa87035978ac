import Verif.Proofs.Loop
import Verif.Props.Options
import Verif.Props.Example
import Mathlib.Tactic.ByContra

/-! # C07, C08, C18: termination, number of calls, clean queue

All theorems hold for arbitrary data functions (`env.world` is arbitrary: functions may fail, return
garbage, be stateful) and arbitrary schedules. -/

namespace Hiku

variable {env : Env}

/-! ### The start state -/

theorem costNode_init {a b : Nat} {sc : Nat → QNode → Nat} {g : Graph} : ∀ (q : QNode) (gn : GNode) (q' : QNode),
    initNode g gn q = .ok q' → costNode a b sc g gn q' = costNode a b sc g gn q := by
  apply QNode.ind (P := fun q => ∀ gn q', initNode g gn q = .ok q' →
    costNode a b sc g gn q' = costNode a b sc g gn q)
  intro fs ord ih gn q' h
  replace h := (initNode_ok.1 h).1
  rw [costNode_eq, costNode_eq]
  obtain ⟨fs', ord'⟩ := q'
  simp only [QNode.fields] at h ⊢
  induction h with
  | nil => rfl
  | @cons i i' l l' hi _ ih' =>
    simp only [List.map_cons, List.sum_cons]
    rw [ih' (fun n q o al hm => ih n q o al (by simp [hm]))]
    congr 1
    obtain ⟨gi, h1, h2, h3, h4, h5, h6, h7⟩ := initItem_ok hi
    cases i with
    | field n o al =>
      cases i' with
      | link => simp [QItem.isLink] at h4
      | field n' o' al' =>
        simp only [QItem.name] at h2; subst h2
        simp only [costItem]
    | link n q o al =>
      obtain ⟨q1, o1, rfl, e1, e2⟩ := h7 n q o al rfl
      simp only [QItem.name] at h1
      cases gi with
      | link gl =>
        obtain ⟨t, ht, hq⟩ := e1 gl rfl
        simp only [costItem, h1, ht]
        rw [ih n q o al (by simp) t q1 hq]
      | field gf => simp only [costItem, h1]

section
variable {w : Nat} {gn : GNode} {sub : SubCall}

theorem submitCall_nextTs {nd : Option String} {f : PFunc} {args : List Arg} {st st' : St} {fut : Nat}
    (h : submitCall env w nd f args st = .ok (st', fut)) : st'.q.nextTs = st.q.nextTs := by
  simp only [submitCall] at h
  split at h
  · simp at h
  · split at h
    · simp at h
    split at h
    · simp at h
    · rename_i q' hq
      simp at h; obtain ⟨rfl, _⟩ := h
      obtain ⟨s, _, rfl⟩ := Queue.submit_ok hq
      rfl

theorem scheduleFields_nextTs {k : FKey} {items : List (GItem × QItem)} {st st' : St} {o : Obj}
    (h : scheduleFields env sub w gn k items none st = .ok (st', o)) : st'.q.nextTs = st.q.nextTs := by
  unfold scheduleFields at h
  cases k with
  | sub sg => simp at h
  | plain f =>
    simp only [bind_ok_iff] at h
    obtain ⟨⟨st1, fut⟩, hs, h⟩ := h
    simp at h; obtain ⟨rfl, _⟩ := h
    exact (submitCall_nextTs hs : st1.q.nextTs = st.q.nextTs)

theorem scheduleLink_nextTs {gl : GLink} {ql : QItem} {ids : Option (List Val)} {st st' : St} {o : Obj}
    (h : scheduleLink env w gn gl ql ids st = .ok (st', o)) : st'.q.nextTs = st.q.nextTs := by
  simp only [scheduleLink] at h
  split at h
  · simp at h
  · simp only [bind_ok_iff] at h
    obtain ⟨_, _, ⟨st1, fut⟩, hs, h⟩ := h
    simp at h; obtain ⟨rfl, _⟩ := h
    exact (submitCall_nextTs hs : st1.q.nextTs = st.q.nextTs)

/-- processing the root node forks no task set -/
theorem processNode_nextTs {q : QNode} {st st' : St}
    (h : processNode env sub w gn q none st = .ok st') : st'.q.nextTs = st.q.nextTs := by
  unfold processNode at h
  by_cases ho : q.ordered = true
  · rw [if_pos ho] at h
    simp only [bind_ok_iff] at h
    obtain ⟨steps, _, h⟩ := h
    cases steps with
    | nil => simp [runSteps] at h; rw [h]
    | cons s r =>
      simp only [runSteps, bind_ok_iff] at h
      obtain ⟨⟨st1, o⟩, hs, h⟩ := h
      have : st1.q.nextTs = st.q.nextTs := by
        cases s with
        | fields k items => exact scheduleFields_nextTs hs
        | link gl ql => exact scheduleLink_nextTs hs
      simp at h
      split at h
      · subst h; exact this
      · subst h; exact this
  · rw [if_neg ho] at h
    simp only [bind_ok_iff] at h
    obtain ⟨⟨fields, links⟩, _, ⟨st1, toDep⟩, hg, h⟩ := h
    have h1 : ∀ (gs : List (FKey × List (GItem × QItem))) (st st1 : St) d,
        scheduleGroups env sub w gn none gs st = .ok (st1, d) → st1.q.nextTs = st.q.nextTs := by
      intro gs
      induction gs with
      | nil => intro st st1 d h; simp [scheduleGroups] at h; rw [h.1]
      | cons x r ih =>
        intro st st1 d h
        simp only [scheduleGroups, bind_ok_iff] at h
        obtain ⟨⟨s1, o⟩, hs, ⟨s2, d'⟩, hr, h⟩ := h
        simp at h; obtain ⟨rfl, _⟩ := h
        rw [ih _ _ _ hr, scheduleFields_nextTs hs]
    have h2 : ∀ tf td (ls : List (GLink × QItem)) (st st1 : St),
        scheduleLinks env w gn none tf td ls st = .ok st1 → st1.q.nextTs = st.q.nextTs := by
      intro tf td ls
      induction ls with
      | nil => intro st st1 h; simp [scheduleLinks] at h; rw [h]
      | cons x r ih =>
        intro st st1 h
        simp only [scheduleLinks] at h
        split at h
        · split at h
          · simp at h
          · split at h
            · simp at h
            · exact (ih _ _ h).trans rfl
        · simp only [bind_ok_iff] at h
          obtain ⟨⟨s1, o⟩, hs, h⟩ := h
          rw [ih _ _ h, scheduleLink_nextTs hs]
    rw [h2 _ _ _ _ _ h, h1 _ _ _ _ hg]

end

theorem start_queue : ({} : Queue CB).fork none =
    .ok ({ futures := [(0, [])], forks := [(0, [])], callbacks := [], nextTs := 1 }, 0) := rfl

theorem start_inv : ({ futures := [(0, [])], forks := [(0, [])], callbacks := [], nextTs := 1 } : Queue CB).Inv 0 where
  nd := by simp
  cnd := by simp
  keys := by intro t; simp
  lt := by
    intro t s h
    rw [dget_cons] at h
    split at h
    · rename_i e; show t < 1; omega
    · simp at h
  flt := by
    intro t s f h hf
    rw [dget_cons] at h
    split at h
    · simp at h; subst h; simp at hf
    · simp at h
  kid := by
    intro p s t h ht
    rw [dget_cons] at h
    split at h
    · simp at h; subst h; simp at ht
    · simp at h

/-- the invariant holds at the start of the executor loop -/
theorem start_einv (hsd : SubsDecrease env) {g : Nat} {q : QNode} {st : St}
    (h : startQuery env g q = .ok st) :
    EInv env [] [] [] 0 0 (costQuery env.sys 1 0 g q) (1 + costQuery env.sys 0 1 g q) st ∧
      st.q.nextTs = 1 := by
  unfold startQuery at h
  split at h
  · simp at h
  · rename_i gr hgr
    simp only [start_queue, bind_ok_iff, ok_bind'] at h
    obtain ⟨q', hq, h⟩ := h
    have hc : ∀ a b, costQuery env.sys a b g q = costNode a b (costSub env.sys a b g) gr gr.root q' := by
      intro a b
      simp only [costQuery, hgr]
      exact (costNode_init q gr.root q' hq).symm
    have hlev : g ≤ env.levels := by
      have := (List.getElem?_eq_some_iff.1 hgr).1
      simp only [Env.levels]; omega
    obtain ⟨n1, f1⟩ := frame_processNode (a := 1) (b := 0) (tw := 0) (nf0 := 0) (nt0 := 0)
      (wf := { graph := g, query := q', ts := 0 }) (g := gr) hsd
      (subFrame_subCall hsd env.levels) start_inv rfl rfl (by simp [dget_cons]) hgr hlev (.inl rfl)
      (Nat.zero_le _) (Nat.zero_le _) h
    obtain ⟨n2, f2⟩ := frame_processNode (a := 0) (b := 1) (tw := 0) (nf0 := 0) (nt0 := 0)
      (wf := { graph := g, query := q', ts := 0 }) (g := gr) hsd
      (subFrame_subCall hsd env.levels) start_inv rfl rfl (by simp [dget_cons]) hgr hlev (.inl rfl)
      (Nat.zero_le _) (Nat.zero_le _) h
    have hnt : st.q.nextTs = 1 := processNode_nextTs h
    have e1 := (f1.regs.map fun x => cbCost env 1 0 st.wfs x.2).sum_nat
    have e2 := (f2.regs.map fun x => cbCost env 0 1 st.wfs x.2).sum_nat
    have c1 := f1.cost
    have c2 := f2.cost
    have o1 := f1.out
    have l1 := f1.live
    have g1 := f1.log
    simp [Queue.regs, Queue.outstanding, callCount] at e1 e2 c1 c2 o1 l1 g1
    refine ⟨⟨f1.inv, ?_, by simp, by simp, ?_, ?_, ?_, ?_, ?_⟩, hnt⟩
    · intro o c hm
      have hm' : (o, c) ∈ n1 := by
        have := f1.regs.mem_iff.1 hm
        simpa [Queue.regs] using this
      obtain ⟨wf, x1, x2, x3⟩ := f1.loc _ hm'
      exact ⟨⟨wf, x1, x2, x3.live f1.inv, by simp⟩, .inl ⟨wf, x1, x3⟩⟩
    · simp [Queue.outstanding]; omega
    · omega
    · simpa [callCount] using g1
    · rw [hc]
      simp only [pendCost, Queue.regs, List.map_nil, List.sum_nil]
      omega
    · rw [hc]
      simp only [pendCost, Queue.regs, List.map_nil, List.sum_nil]
      omega

/-! ### C07 -/

/-- C07: for every graph, query, world of data functions and schedule the executor loop ends, after
at most as many rounds as there are fields, links and requirements in the query (`costQuery 1 0`);
and this is what the fuelled loops compute with any sufficient fuel. -/
theorem c07_terminates (hsd : SubsDecrease env) {choose : Nat → List Nat → List Nat}
    (hch : ValidChoice choose) {g : Nat} {q : QNode} {st : St} (h : startQuery env g q = .ok st) :
    ∃ rounds r, Loops env choose 0 st rounds r ∧ rounds ≤ costQuery env.sys 1 0 g q ∧
      ∀ fuel inner, costQuery env.sys 1 0 g q < fuel → 1 + costQuery env.sys 0 1 g q < inner →
        execLoop env choose inner fuel 0 st = r := by
  obtain ⟨n, r, h1, h2, h3, _⟩ := (start_einv hsd h).1.loops hsd hch 0
  exact ⟨n, r, h1, by omega, fun fuel inner hf hi => h3 fuel inner (by omega) hi⟩

theorem drains_unique {s : St} {r r' : Except Err St} (h : Drains qlens (runCB env) s r)
    (h' : Drains qlens (runCB env) s r') : r = r' := by
  induction h generalizing r' with
  | stop hc => cases h' <;> first | rfl | contradiction
  | fail hc hf =>
    cases h' with
    | stop hc' => contradiction
    | fail _ hf' => rw [hf] at hf'; injection hf' with e; rw [e]
    | next _ hf' _ => rw [hf] at hf'; simp at hf'
  | next hc hf _ ih =>
    cases h' with
    | stop hc' => contradiction
    | fail _ hf' => rw [hf] at hf'; simp at hf'
    | next _ hf' hr => rw [hf] at hf'; injection hf' with e; subst e; exact ih hr

theorem progresses_unique {done : List Nat} {s : St} {r r' : Except Err St}
    (h : Progresses qlens (runCB env) done s r) (h' : Progresses qlens (runCB env) done s r') :
    r = r' := by
  cases h with
  | fail hf =>
    cases h' with
    | fail hf' => rw [hf] at hf'; injection hf' with e; rw [e]
    | ok hf' _ => rw [hf] at hf'; simp at hf'
  | ok hf hr =>
    cases h' with
    | fail hf' => rw [hf] at hf'; simp at hf'
    | ok hf' hr' => rw [hf] at hf'; injection hf' with e; subst e; exact drains_unique hr hr'

/-- The outcome of the loop is unique, so the previous theorem speaks about all runs. -/
theorem c07_deterministic {choose : Nat → List Nat → List Nat} {round n n' : Nat} {st : St}
    {r r' : Except Err St} (h : Loops env choose round st n r) (h' : Loops env choose round st n' r') :
    n = n' ∧ r = r' := by
  induction h generalizing n' r' with
  | stop ho =>
    cases h' with
    | stop => exact ⟨rfl, rfl⟩
    | fail ho' => contradiction
    | next ho' => contradiction
  | fail ho hf =>
    cases h' with
    | stop => contradiction
    | fail _ hf' => exact ⟨rfl, by have := progresses_unique hf hf'; injection this with e; rw [e]⟩
    | next _ hf' _ => have := progresses_unique hf hf'; simp at this
  | next ho hf _ ih =>
    cases h' with
    | stop => contradiction
    | fail _ hf' => have := progresses_unique hf hf'; simp at this
    | next _ hf' hr =>
      have := progresses_unique hf hf'; injection this with e; subst e
      obtain ⟨e1, e2⟩ := ih hr
      exact ⟨by rw [e1], e2⟩

/-! ### C08 -/

/-- states between the rounds of the executor loop -/
inductive Between (env : Env) (choose : Nat → List Nat → List Nat) : Nat → St → Nat → St → Prop
  | here {round st} : Between env choose round st round st
  | next {round st st1 round' st'} : st.q.outstanding ≠ [] →
      Progresses qlens (runCB env) (choose round st.q.outstanding)
        { st with log := st.log ++ [.done (choose round st.q.outstanding)] } (.ok st1) →
      Between env choose (round + 1) st1 round' st' → Between env choose round st round' st'

theorem EInv.between (hsd : SubsDecrease env) {choose : Nat → List Nat → List Nat}
    (hch : ValidChoice choose) {R K A C round round' : Nat} {st st' : St}
    (hb : Between env choose round st round' st') (h : EInv env [] [] [] R K A C st) :
    ∃ R' K', EInv env [] [] [] R' K' A C st' := by
  induction hb generalizing R K with
  | here => exact ⟨R, K, h⟩
  | @next round st st1 round' st' ho hp _ ih =>
    obtain ⟨hc1, hc2⟩ := hch round _ ho
    obtain ⟨r, p1, p2, p3⟩ := (h.log_done (l := choose round st.q.outstanding)).progresses hsd hc1 hc2
    have := progresses_unique p1 hp
    subst this
    obtain ⟨_, K', e⟩ := p3 st1 rfl
    exact ih e

/-- C08: whatever the data functions return, at every moment between the rounds of the executor loop
(in particular at the end) the number of calls made is at most the number of fields, links and
requirements in the query; the bound does not mention the data. -/
theorem c08_calls (hsd : SubsDecrease env) {choose : Nat → List Nat → List Nat}
    (hch : ValidChoice choose) {g round : Nat} {q : QNode} {st st' : St}
    (h : startQuery env g q = .ok st) (hb : Between env choose 0 st round st') :
    callCount st'.log ≤ costQuery env.sys 1 0 g q := by
  obtain ⟨R, K, hi⟩ := (start_einv hsd h).1.between hsd hch hb
  have := hi.calls; have := hi.costA
  omega

theorem between_of_loops {choose : Nat → List Nat → List Nat} {round n : Nat} {st st' : St}
    (h : Loops env choose round st n (.ok st')) : Between env choose round st (round + n) st' := by
  generalize hr : (Except.ok st' : Except Err St) = r at h
  induction h with
  | stop => cases hr; exact .here
  | fail => simp at hr
  | @next round st st1 n r ho hp _ ih =>
    have := ih hr
    rw [Nat.add_assoc, Nat.add_comm 1 n] at this
    exact .next ho hp this

theorem c08_total_calls (hsd : SubsDecrease env) {choose : Nat → List Nat → List Nat}
    (hch : ValidChoice choose) {g n : Nat} {q : QNode} {st st' : St}
    (h : startQuery env g q = .ok st) (hl : Loops env choose 0 st n (.ok st')) :
    callCount st'.log ≤ costQuery env.sys 1 0 g q :=
  c08_calls hsd hch h (between_of_loops hl)

/-! ### C18 -/

/-- C18: when the executor loop has ended, no future and no callback is left, and no task set
either, unless nothing was submitted at all (then the single empty task set of the query stays). -/
theorem c18_queue_empty (hsd : SubsDecrease env) {choose : Nat → List Nat → List Nat}
    (hch : ValidChoice choose) {g n : Nat} {q : QNode} {st st' : St}
    (h : startQuery env g q = .ok st) (hl : Loops env choose 0 st n (.ok st')) :
    st'.q.outstanding = [] ∧ (∀ o, st'.q.cbs o = []) ∧
      ((st'.q.futures = [] ∧ st'.q.forks = []) ∨ (st.q.outstanding = [] ∧ st' = st)) := by
  obtain ⟨he, hnt⟩ := start_einv hsd h
  obtain ⟨n1, r, h1, _, _, h4⟩ := he.loops hsd hch 0
  obtain ⟨_, hr⟩ := c07_deterministic hl h1
  obtain ⟨ho, hc, R', K', hi⟩ := h4 st' hr.symm
  by_cases hs : st.q.outstanding = []
  · have hst : st' = st := by
      cases hl with
      | stop => rfl
      | next ho' => contradiction
    subst hst
    refine ⟨ho, ?_, .inr ⟨hs, rfl⟩⟩
    intro o
    by_contra hne
    obtain ⟨c, l, hcl⟩ := List.exists_cons_of_ne_nil hne
    have hm : (o, c) ∈ st'.q.regs := (Queue.mem_regs he.inv.cnd).2 (by simp [hcl])
    obtain ⟨_, hw⟩ := he.loc o c hm
    rcases hw with ⟨wf, _, hw⟩ | hw
    · cases o with
      | fut f =>
        obtain ⟨s, x1, x2⟩ := hw
        have : f ∈ st'.q.outstanding := (Queue.mem_outstanding he.inv.nd).2 ⟨_, s, x1, x2⟩
        rw [hs] at this; simp at this
      | ts t =>
        obtain ⟨s, x1, x2⟩ := hw
        obtain ⟨y1, y2⟩ := he.inv.kid _ _ _ x1 x2
        obtain ⟨s', y2⟩ := Option.isSome_iff_exists.1 y2
        have := he.inv.lt _ _ y2
        omega
    · simp at hw
  · have hcomp := hc (.inl hs)
    have hno := Queue.no_task_sets hi.inv ho hcomp
    have hfut : st'.q.futures = [] := by
      cases hf : st'.q.futures with
      | nil => rfl
      | cons x r =>
        obtain ⟨t, s⟩ := x
        have := hno t
        rw [hf, dget_cons, if_pos rfl] at this
        simp at this
    have hfork : st'.q.forks = [] := by
      cases hf : st'.q.forks with
      | nil => rfl
      | cons x r =>
        obtain ⟨t, s⟩ := x
        have h1 : (dget st'.q.forks t).isSome := by rw [hf, dget_cons, if_pos rfl]; rfl
        rw [← hi.inv.keys, hno] at h1
        simp at h1
    refine ⟨ho, ?_, .inl ⟨hfut, hfork⟩⟩
    intro o
    by_contra hne
    obtain ⟨c, l, hcl⟩ := List.exists_cons_of_ne_nil hne
    have hm : (o, c) ∈ st'.q.regs := (Queue.mem_regs hi.inv.cnd).2 (by simp [hcl])
    obtain ⟨⟨wf, _, _, x3, _⟩, _⟩ := hi.loc o c hm
    rw [hno] at x3; simp at x3

/-- the hypotheses of the theorems are met by the example system -/
example : ∃ st n st', startQuery exEnv 1 exQuery = .ok st ∧
    Loops exEnv (fun _ l => l.take 1) 0 st n (.ok st') ∧ n ≤ 5 ∧ callCount st'.log = 5 := by
  obtain ⟨st, hst⟩ := exStart
  obtain ⟨n, r, h1, h2, h3⟩ := c07_terminates exEnv_subsDecrease validChoice_first hst
  have hr : ∃ st', r = .ok st' ∧ callCount st'.log = 5 := by
    rw [← h3 100 100 (by rw [exCost]; omega) (by rw [exForks]; omega)]
    have : st = (startQuery exEnv 1 exQuery).toOption.getD {} := by rw [hst]; rfl
    rw [this]
    exact ⟨_, rfl, rfl⟩
  obtain ⟨st', rfl, hc⟩ := hr
  exact ⟨st, n, st', hst, h1, by rw [exCost] at h2; exact h2, hc⟩

end Hiku
