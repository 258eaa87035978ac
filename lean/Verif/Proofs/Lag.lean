import Verif.Proofs.Failures

/-! Two programs, one of which may fail where the other one succeeds: their executions are the same until
the first failure is noticed. -/

namespace Hiku

theorem forall2_app {α β : Type} {R : α → β → Prop} {l m : List α} {l' m' : List β} (h : List.Forall₂ R l l')
    (h' : List.Forall₂ R m m') : List.Forall₂ R (l ++ m) (l' ++ m') := by
  induction h with
  | nil => exact h'
  | cons h1 _ ih => exact .cons h1 ih

theorem forall2_at {α β : Type} {R : α → β → Prop} {l : List α} {l' : List β} (h : List.Forall₂ R l l') {i : Nat} {y : β}
    (hy : l'[i]? = some y) : ∃ x, l[i]? = some x ∧ R x y := by
  induction h generalizing i with
  | nil => simp at hy
  | cons h1 _ ih =>
    cases i with
    | zero => simp at hy; exact ⟨_, by simp, hy ▸ h1⟩
    | succ i => simp at hy; simpa using ih hy

/-- the first program calls the same functions of the same graphs, which succeed with the results of the
second program or fail -/
structure MayFail (env env' : Env) : Prop where
  sys : env.sys = env'.sys
  H : env.H = env'.H
  proc : env.world.proc = env'.world.proc
  call : ∀ n f args v, env.world.call n f args = .ok v → env'.world.call n f args = .ok v

/-- one of the calls raised `e` -/
def FailedIn (env : Env) (L : Submit → Prop) (e : Err) : Prop :=
  ∃ s, L s ∧ env.world.call s.fut s.func.id s.args = .error e

def Lagged (env : Env) (log : List Ev) (r r' : Except Err Val) : Prop :=
  r = r' ∨ ∃ e, r = .error e ∧ FailedIn env (fun s => Ev.call s ∈ log) e

structure Lag (env : Env) (st st' : St) : Prop where
  q : st.q = st'.q
  wfs : st.wfs = st'.wfs
  log : st.log = st'.log
  results : List.Forall₂ (Lagged env st'.log) st.results st'.results

def SubLog (L : Submit → Prop) (st : St) : Prop := ∀ s, Ev.call s ∈ st.log → L s

/-- the outcome `a` is a failure of one of the calls, or related to `x'` -/
def After (env : Env) (L : Submit → Prop) {α β : Type} (R : α → β → Prop) (x' : β) (a : Except Err α) : Prop :=
  (∃ e, a = .error e ∧ FailedIn env L e) ∨ ∃ x, a = .ok x ∧ R x x'

section
variable {env env' : Env} {L : Submit → Prop} {st st' s1' : St} {w : Nat} {sub sub' : SubCall}

theorem After.bind {α β γ δ : Type} {R : α → β → Prop} {S : γ → δ → Prop} {x' : β} {y' : δ} {a : Except Err α}
    {f : α → Except Err γ} (h : After env L R x' a) (hf : ∀ x, R x x' → After env L S y' (f x)) :
    After env L S y' (a >>= f) := by
  rcases h with ⟨e, rfl, he⟩ | ⟨x, rfl, hx⟩
  · exact .inl ⟨e, rfl, he⟩
  · exact hf x hx

theorem After.ok {α β : Type} {R : α → β → Prop} {x : α} {x' : β} (h : R x x') : After env L R x' (.ok x) :=
  .inr ⟨x, rfl, h⟩

def LagP {α : Type} (env : Env) (x x' : St × α) : Prop := Lag env x.1 x'.1 ∧ x.2 = x'.2

theorem Lag.setQ (h : Lag env st st') (q : Queue CB) : Lag env { st with q := q } { st' with q := q } :=
  ⟨rfl, h.wfs, h.log, h.results⟩

theorem Lag.setWfs (h : Lag env st st') (l : List Wf) : Lag env { st with wfs := l } { st' with wfs := l } :=
  ⟨h.q, rfl, h.log, h.results⟩

theorem Lag.addCB (h : Lag env st st') (o : Obj) (cb : CB) : Lag env (addCB o cb st) (addCB o cb st') := by
  unfold Hiku.addCB; rw [h.q]; exact h.setQ _

theorem lag_length (h : Lag env st st') : st.results.length = st'.results.length := h.results.length_eq

variable (hm : MayFail env env')
include hm

theorem lag_submit (h : Lag env st st') {nd : Option String} {f : PFunc} {args : List Arg} {fut : Nat}
    (hs : submitCall env' w nd f args st' = .ok (s1', fut)) (hL : SubLog L s1') :
    After env L (LagP env) (s1', fut) (submitCall env w nd f args st) := by
  obtain ⟨wf, q, hw, hq, rfl, hr, rfl⟩ := submitCall_inv hs
  unfold submitCall
  rw [h.wfs, hw, h.q, lag_length h]
  simp only [hq]
  cases hc : env.refused st'.results.length
      (env.world.call st'.results.length f.id (if f.passCtx then Arg.ctx :: args else args)) with
  | some e =>
    refine .inl ⟨e, rfl, ⟨st'.results.length, wf.ts, f, withCtx f args, w, nd⟩, hL _ (by simp), ?_⟩
    simp only
    unfold withCtx
    cases hcall : env.world.call st'.results.length f.id (if f.passCtx then Arg.ctx :: args else args) with
    | ok v => rw [hcall] at hc; simp [Env.refused] at hc
    | error e' =>
      rw [hcall] at hc
      simp only [Env.refused] at hc
      split at hc
      · cases hc; rfl
      · cases hc
  | none =>
    refine .ok ⟨⟨rfl, ?_, ?_, ?_⟩, rfl⟩
    · rfl
    · simp only [h.log]; rfl
    · refine forall2_app ?_ (.cons ?_ .nil)
      · refine h.results.imp ?_
        rintro r r' (e | ⟨e, h1, s, h2, h3⟩)
        · exact .inl e
        · exact .inr ⟨e, h1, s, List.mem_append_left _ h2, h3⟩
      · show Lagged env _ (env.world.call st'.results.length f.id (withCtx f args))
          (env'.world.call st'.results.length f.id (withCtx f args))
        cases hcall : env.world.call st'.results.length f.id (withCtx f args) with
        | ok v => exact .inl (hm.call _ _ _ _ hcall).symm
        | error e => exact .inr ⟨e, rfl, _, List.mem_append_right _ List.mem_cons_self, hcall⟩

omit hm in
/-- calls of sub-graphs in both programs -/
def SubLag (env env' : Env) (sub sub' : SubCall) : Prop :=
  (∀ s, SubStable (fun st => Ev.call s ∈ st.log) sub') ∧
  ∀ (L : Submit → Prop) sg items ids ts st st' s1' src, Lag env st st' → sub' sg items ids ts st' = .ok (s1', src) →
    SubLog L s1' → After env L (LagP env) (s1', src) (sub sg items ids ts st)

theorem lag_scheduleFields (hsub : SubLag env env' sub sub') (h : Lag env st st')
    {node : GNode} {k : FKey} {items : List (GItem × QItem)} {ids : Option (List Val)} {o : Obj}
    (hs : scheduleFields env' sub' w node k items ids st' = .ok (s1', o)) (hL : SubLog L s1') :
    After env L (LagP env) (s1', o) (scheduleFields env sub w node k items ids st) := by
  unfold Hiku.scheduleFields at hs ⊢
  cases k with
  | sub sg =>
    simp only at hs ⊢
    split at hs
    · simp at hs
    · rename_i ids'
      have hwe : st.wfs[w]? = st'.wfs[w]? := by rw [h.wfs]
      rw [hwe]
      generalize st'.wfs[w]? = ow at hs ⊢
      cases ow with
      | none => simp at hs
      | some wf =>
        simp only [bind_ok_iff] at hs ⊢
        obtain ⟨⟨q', dep⟩, h1, ⟨st1, src⟩, h2, h3⟩ := hs
        simp at h3
        obtain ⟨rfl, rfl⟩ := h3
        rw [h.q, h1]
        simp only [ok_bind']
        refine (hsub.2 L _ _ _ _ _ _ _ _ (h.setQ q') h2 hL).bind ?_
        rintro ⟨x1, x2⟩ ⟨hx1, hx2⟩
        simp only at hx1 hx2
        subst hx2
        exact .ok ⟨hx1.addCB _ _, rfl⟩
  | plain f =>
    simp only [bind_ok_iff] at hs
    obtain ⟨⟨st1, fut⟩, h2, h3⟩ := hs
    simp at h3
    obtain ⟨rfl, rfl⟩ := h3
    refine (lag_submit hm h h2 hL).bind ?_
    rintro ⟨x1, x2⟩ ⟨hx1, hx2⟩
    simp only at hx1 hx2
    subst hx2
    exact .ok ⟨hx1.addCB _ _, rfl⟩

theorem lag_scheduleLink (h : Lag env st st') {node : GNode} {gl : GLink} {ql : QItem} {ids : Option (List Val)} {o : Obj}
    (hs : scheduleLink env' w node gl ql ids st' = .ok (s1', o)) (hL : SubLog L s1') :
    After env L (LagP env) (s1', o) (scheduleLink env w node gl ql ids st) := by
  unfold Hiku.scheduleLink at hs ⊢
  have hwe : st.wfs[w]? = st'.wfs[w]? := by rw [h.wfs]
  rw [hwe]
  generalize st'.wfs[w]? = ow at hs ⊢
  cases ow with
  | none => simp at hs
  | some wf =>
    simp only [bind_ok_iff] at hs ⊢
    obtain ⟨ra, h1, ⟨st1, fut⟩, h2, h3⟩ := hs
    simp at h3
    obtain ⟨rfl, rfl⟩ := h3
    rw [h1]
    simp only [ok_bind']
    refine (lag_submit hm h h2 hL).bind ?_
    rintro ⟨x1, x2⟩ ⟨hx1, hx2⟩
    simp only at hx1 hx2
    subst hx2
    exact .ok ⟨hx1.addCB _ _, rfl⟩

theorem lag_runSteps (hsub : SubLag env env' sub sub') (h : Lag env st st')
    {node : GNode} {ids : Option (List Val)} {steps : List Step}
    (hs : runSteps env' sub' w node ids steps st' = .ok s1') (hL : SubLog L s1') :
    After env L (Lag env) s1' (runSteps env sub w node ids steps st) := by
  cases steps with
  | nil => simp [Hiku.runSteps] at hs; subst hs; exact .ok h
  | cons s r =>
    simp only [Hiku.runSteps, bind_ok_iff] at hs
    obtain ⟨⟨st1, dep⟩, h1, h2⟩ := hs
    simp at h2
    have hL1 : SubLog L st1 := by
      split at h2 <;> subst h2 <;> exact hL
    have key : After env L (LagP env) (st1, dep) (match (generalizing := false) s with
        | .fields k items => scheduleFields env sub w node k items ids st
        | .link gl ql => scheduleLink env w node gl ql ids st) := by
      cases s with
      | fields k items => exact lag_scheduleFields hm hsub h h1 hL1
      | link gl ql => exact lag_scheduleLink hm h h1 hL1
    refine key.bind ?_
    rintro ⟨x1, x2⟩ ⟨hx1, hx2⟩
    simp only at hx1 hx2
    subst hx2 h2
    refine .ok ?_
    simp only [List.isEmpty_iff]
    by_cases hr : r = []
    · rw [if_pos hr, if_pos hr]; exact hx1
    · rw [if_neg hr, if_neg hr]; exact hx1.addCB _ _

theorem lag_scheduleGroups (hsub : SubLag env env' sub sub')
    {node : GNode} {ids : Option (List Val)} {gs : List (FKey × List (GItem × QItem))}
    {deps : List (FKey × Obj)} (h : Lag env st st')
    (hs : scheduleGroups env' sub' w node ids gs st' = .ok (s1', deps)) (hL : SubLog L s1') :
    After env L (LagP env) (s1', deps) (scheduleGroups env sub w node ids gs st) := by
  induction gs generalizing st st' deps with
  | nil => simp [Hiku.scheduleGroups] at hs; obtain ⟨rfl, rfl⟩ := hs; exact .ok ⟨h, rfl⟩
  | cons x r ih =>
    obtain ⟨k, items⟩ := x
    simp only [Hiku.scheduleGroups, bind_ok_iff] at hs ⊢
    obtain ⟨⟨st1, dep⟩, h1, ⟨st2, deps'⟩, h2, h3⟩ := hs
    simp at h3
    obtain ⟨rfl, rfl⟩ := h3
    have hL1 : SubLog L st1 := fun s hs => hL s ((called_stable (env := env') s).scheduleGroups (hsub.1 s) hs h2)
    refine (lag_scheduleFields hm hsub h h1 hL1).bind ?_
    rintro ⟨x1, x2⟩ ⟨hx1, hx2⟩
    simp only at hx1 hx2
    subst hx2
    refine (ih hx1 h2).bind ?_
    rintro ⟨y1, y2⟩ ⟨hy1, hy2⟩
    simp only at hy1 hy2
    subst hy2
    exact .ok ⟨hy1, rfl⟩

theorem lag_scheduleLinks {node : GNode} {ids : Option (List Val)} {toFunc : List (String × FKey)}
    {toDep : List (FKey × Obj)} {ls : List (GLink × QItem)} (h : Lag env st st')
    (hs : scheduleLinks env' w node ids toFunc toDep ls st' = .ok s1') (hL : SubLog L s1') :
    After env L (Lag env) s1' (scheduleLinks env w node ids toFunc toDep ls st) := by
  induction ls generalizing st st' with
  | nil => simp [Hiku.scheduleLinks] at hs; subst hs; exact .ok h
  | cons x r ih =>
    obtain ⟨gl, ql⟩ := x
    simp only [Hiku.scheduleLinks] at hs ⊢
    by_cases hr : gl.reqTruthy = true
    · rw [if_pos hr] at hs ⊢
      generalize dget toFunc (gl.requires.getD "") = ok at hs ⊢
      cases ok with
      | none => simp at hs
      | some k =>
        simp only at hs ⊢
        generalize dget toDep k = od at hs ⊢
        cases od with
        | none => simp at hs
        | some dep =>
          simp only at hs ⊢
          exact ih (h.addCB _ _) hs
    · rw [if_neg hr] at hs ⊢
      simp only [bind_ok_iff] at hs
      obtain ⟨⟨st1, o⟩, h1, h2⟩ := hs
      have hL1 : SubLog L st1 := fun s hs => hL s ((called_stable (env := env') s).scheduleLinks hs h2)
      refine (lag_scheduleLink hm h h1 hL1).bind ?_
      rintro ⟨x1, x2⟩ ⟨hx1, _⟩
      exact ih hx1 h2

theorem lag_processNode (hsub : SubLag env env' sub sub') (h : Lag env st st')
    {node : GNode} {ids : Option (List Val)} {q : QNode}
    (hs : processNode env' sub' w node q ids st' = .ok s1') (hL : SubLog L s1') :
    After env L (Lag env) s1' (processNode env sub w node q ids st) := by
  unfold Hiku.processNode at hs ⊢
  by_cases ho : q.ordered = true
  · rw [if_pos ho] at hs ⊢
    simp only [bind_ok_iff] at hs
    obtain ⟨steps, h1, h2⟩ := hs
    rw [h1]
    exact lag_runSteps hm hsub h h2 hL
  · rw [if_neg ho] at hs ⊢
    simp only [bind_ok_iff] at hs
    obtain ⟨⟨fields, links⟩, h1, ⟨st1, deps⟩, h2, h3⟩ := hs
    rw [h1]
    simp only [ok_bind']
    have hL1 : SubLog L st1 := fun s hs => hL s ((called_stable (env := env') s).scheduleLinks hs h3)
    refine (lag_scheduleGroups hm hsub h h2 hL1).bind ?_
    rintro ⟨x1, x2⟩ ⟨hx1, hx2⟩
    simp only at hx1 hx2
    subst hx2
    exact lag_scheduleLinks hm hx1 h3 hL

omit hm in
theorem Lag.setIndex (h : Lag env st st') (w : Nat) (idx : Index) : Lag env (setIndex w idx st) (setIndex w idx st') := by
  unfold Hiku.setIndex
  rw [h.wfs]
  exact h.setWfs _

theorem lag_processLink (hsub : SubLag env env' sub sub') (h : Lag env st st')
    {node : GNode} {gl : GLink} {ql : QItem} {ids : Option (List Val)} {result : Val}
    (hs : processLink env' sub' w node gl ql ids result st' = .ok s1') (hL : SubLog L s1') :
    After env L (Lag env) s1' (processLink env sub w node gl ql ids result st) := by
  unfold Hiku.processLink at hs ⊢
  have hwe : st.wfs[w]? = st'.wfs[w]? := by rw [h.wfs]
  rw [hwe]
  generalize st'.wfs[w]? = ow at hs ⊢
  cases ow with
  | none => simp at hs
  | some wf =>
    simp only [bind_ok_iff] at hs ⊢
    obtain ⟨idx, h1, toIds, h2, hs⟩ := hs
    rw [hm.H, h1]
    simp only [ok_bind', h2]
    by_cases he : toIds.isEmpty = true
    · rw [if_pos he] at hs ⊢
      cases hs
      exact .ok (h.setIndex _ _)
    · rw [if_neg he] at hs ⊢
      rw [hm.sys]
      generalize env'.sys.graphs[wf.graph]? = og at hs ⊢
      cases og with
      | none => simp at hs
      | some g =>
        simp only at hs ⊢
        generalize g.node gl.node = on at hs ⊢
        cases on with
        | none => simp at hs
        | some target =>
          cases ql with
          | field => simp at hs
          | link a q b c =>
          simp only at hs ⊢
          exact lag_processNode hm hsub (h.setIndex _ _) hs hL

theorem lag_subCall (n : Nat) : SubLag env env' (subCall env n) (subCall env' n) := by
  induction n with
  | zero => exact ⟨fun s => (called_stable s).subCall 0, fun L sg items ids ts st st' s1' src _ hs => by simp [Hiku.subCall] at hs⟩
  | succ n ih =>
    refine ⟨fun s => (called_stable s).subCall _, ?_⟩
    intro L sg items ids ts st st' s1' src h hs hL
    simp only [Hiku.subCall, subGraphCall] at hs ⊢
    rw [hm.sys]
    generalize env'.sys.subs[sg]? = os at hs ⊢
    cases os with
    | none => simp at hs
    | some s =>
      simp only at hs ⊢
      generalize env'.sys.graphs[s.graph]? = og at hs ⊢
      cases og with
      | none => simp at hs
      | some g =>
        simp only [bind_ok_iff] at hs
        obtain ⟨ch, h1, opts, h2, hs⟩ := hs
        simp only [h1, h2, ok_bind', hm.H]
        generalize dget (merge env'.H (ch.map (·.1))).fieldsMap THIS = ot at hs ⊢
        cases ot with
        | none => simp at hs
        | some thisQ =>
          simp only [bind_ok_iff] at hs
          obtain ⟨st1, h3, st2, h4, h5⟩ := hs
          simp at h5
          obtain ⟨rfl, rfl⟩ := h5
          have hL1 : SubLog L st1 := fun s hs => hL s ((called_stable (env := env') s).processNode (ih.1 s) hs h4)
          rw [h.wfs]
          refine (lag_processLink hm ih (h.setWfs _) h3 hL1).bind ?_
          intro x hx
          refine (lag_processNode hm ih hx h4 hL).bind ?_
          intro y hy
          exact .ok ⟨hy, rfl⟩

/-- reading the result of a future -/
theorem lag_read (h : Lag env st st') (hL : SubLog L st') {i : Nat} {v : Val}
    (hs : (st'.results[i]?).getD (.error .assertionError) = .ok v) :
    After env L (fun a b => a = b) v ((st.results[i]?).getD (.error .assertionError)) := by
  cases hi : st'.results[i]? with
  | none => rw [hi] at hs; simp at hs
  | some r' =>
    rw [hi] at hs
    simp at hs
    subst hs
    obtain ⟨r, h1, h2⟩ := forall2_at h.results hi
    rw [h1]
    rcases h2 with rfl | ⟨e, rfl, s, h3, h4⟩
    · exact .ok rfl
    · exact .inl ⟨e, rfl, s, hL s h3, h4⟩

theorem lag_resultProc (wf : Wf) (procs : List (Nat × List Val)) : resultProc env wf procs = resultProc env' wf procs := by
  unfold resultProc
  rw [hm.H, hm.proc]

theorem lag_runCB (h : Lag env st st') {cb : CB} (hs : runCB env' cb st' = .ok s1') (hL : SubLog L s1') :
    After env L (Lag env) s1' (runCB env cb st) := by
  have hL0 : SubLog L st' := fun s hm => hL s ((called_stable (env := env') s).runCB hm hs)
  have hlev : env.levels = env'.levels := by unfold Env.levels; rw [hm.sys]
  cases cb with
  | store w node qfs ids src =>
    simp only [Hiku.runCB, bind_ok_iff] at hs ⊢
    obtain ⟨r, hr, hs⟩ := hs
    have key : After env L (fun a b => a = b) r (match (generalizing := false) src with
        | .fut f => (st.results[f]?).getD (.error .assertionError)
        | .sub w' procs =>
            match st.wfs[w']? with
            | none => .error .assertionError
            | some wf' => resultProc env wf' procs) := by
      cases src with
      | fut f => exact lag_read hm h hL0 hr
      | sub w' procs =>
        simp only at hr ⊢
        rw [h.wfs]
        split at hr
        · simp at hr
        · rename_i wf' hw
          simp only [hw]
          rw [lag_resultProc hm, hr]
          exact .ok rfl
    refine key.bind ?_
    rintro x rfl
    rw [h.wfs]
    split at hs
    · simp at hs
    · rename_i wf hw
      try simp only [hw]
      simp only [bind_ok_iff] at hs
      obtain ⟨idx, h1, h2⟩ := hs
      simp at h2
      subst h2
      rw [hm.H, h1]
      exact .ok (h.setIndex _ _)
  | schedLink w node gl ql ids =>
    simp only [Hiku.runCB, bind_ok_iff] at hs
    obtain ⟨⟨st1, o⟩, h1, h2⟩ := hs
    simp at h2
    subst h2
    refine (lag_scheduleLink hm h h1 hL).bind ?_
    rintro ⟨x1, x2⟩ ⟨hx1, _⟩
    exact .ok hx1
  | procLink w node gl ql ids fut =>
    simp only [Hiku.runCB, bind_ok_iff] at hs
    obtain ⟨r, h1, h2⟩ := hs
    refine (lag_read hm h hL0 h1).bind ?_
    rintro x rfl
    rw [hlev]
    exact lag_processLink hm (lag_subCall hm _) h h2 hL
  | procSteps w node ids steps =>
    simp only [Hiku.runCB] at hs ⊢
    rw [hlev]
    exact lag_runSteps hm (lag_subCall hm _) h hs hL

/-! ### The loop -/

theorem lag_runCallbacks {l : List CB} (h : Lag env st st') (hs : runCallbacks (runCB env') l st' = .ok s1')
    (hL : SubLog L s1') : After env L (Lag env) s1' (runCallbacks (runCB env) l st) := by
  induction l generalizing st st' with
  | nil => simp [runCallbacks] at hs; subst hs; exact .ok h
  | cons c r ih =>
    simp only [runCallbacks, bind_ok_iff] at hs ⊢
    obtain ⟨st1, h1, h2⟩ := hs
    have hL1 : SubLog L st1 := fun s hs => hL s
      (runCallbacks_preserves (env := env') (P := fun st => Ev.call s ∈ st.log) (fun _ _ h => h)
        (fun _ _ _ h hr => (called_stable s).runCB h hr) hs h2)
    exact (lag_runCB hm h h1 hL1).bind fun x hx => ih hx h2

theorem lag_fire (o : Obj) (h : Lag env st st') (hs : fireCallbacks qlens (runCB env') o st' = .ok s1')
    (hL : SubLog L s1') : After env L (Lag env) s1' (fireCallbacks qlens (runCB env) o st) := by
  unfold fireCallbacks at hs ⊢
  have hq : qlens.get st = qlens.get st' := h.q
  rw [hq]
  exact lag_runCallbacks hm (h.setQ _) hs hL

theorem lag_fireFutures {l : List Nat} (h : Lag env st st') (hs : fireFutures qlens (runCB env') l st' = .ok s1')
    (hL : SubLog L s1') : After env L (Lag env) s1' (fireFutures qlens (runCB env) l st) := by
  induction l generalizing st st' with
  | nil => simp [fireFutures] at hs; subst hs; exact .ok h
  | cons c r ih =>
    simp only [fireFutures, bind_ok_iff] at hs ⊢
    obtain ⟨st1, h1, h2⟩ := hs
    have hL1 : SubLog L st1 := fun s hs => hL s
      (fireFutures_preserves (env := env') (P := fun st => Ev.call s ∈ st.log) (fun _ _ h => h)
        (fun _ _ _ h hr => (called_stable s).runCB h hr) hs h2)
    exact (lag_fire hm _ h h1 hL1).bind fun x hx => ih hx h2

theorem lag_fireTaskSets {l : List Nat} (h : Lag env st st') (hs : fireTaskSets qlens (runCB env') l st' = .ok s1')
    (hL : SubLog L s1') : After env L (Lag env) s1' (fireTaskSets qlens (runCB env) l st) := by
  induction l generalizing st st' with
  | nil => simp [fireTaskSets] at hs; subst hs; exact .ok h
  | cons c r ih =>
    simp only [fireTaskSets, bind_ok_iff] at hs ⊢
    obtain ⟨st1, h1, h2⟩ := hs
    have hL1 : SubLog L st1 := fun s hs => hL s
      (fireTaskSets_preserves (env := env') (P := fun st => Ev.call s ∈ st.log) (fun _ _ h => h)
        (fun _ _ _ h hr => (called_stable s).runCB h hr) (by exact hs) h2)
    refine (lag_fire hm _ h h1 hL1).bind fun x hx => ?_
    have hq : qlens.get x = qlens.get st1 := hx.q
    rw [hq]
    exact ih (hx.setQ _) h2

omit hm in
/-- the outcome of a loop -/
def AfterL (env : Env) (L : Submit → Prop) (x' : St) (P : Except Err St → Prop) : Prop :=
  ∃ a, P a ∧ After env L (Lag env) x' a

theorem lag_drains {r' : Except Err St} (hs : Drains qlens (runCB env') st' r') : ∀ {st : St}, Lag env st st' → r' = .ok s1' →
    SubLog L s1' → AfterL env L s1' (Drains qlens (runCB env) st) := by
  induction hs with
  | stop h0 =>
    intro st h e hL
    cases e
    refine ⟨.ok st, .stop ?_, .ok h⟩
    have hq : qlens.get st = qlens.get _ := h.q
    rw [hq]; exact h0
  | fail => intro st h e; cases e
  | @next s s2 r h0 hf hd ih =>
    intro st h e hL
    have hq : qlens.get st = qlens.get s := h.q
    have hL1 : SubLog L s2 := fun x hx => hL x
      (drains_preserves (env := env') (P := fun st => Ev.call x ∈ st.log) (fun _ _ h => h)
        (fun _ _ _ h hr => (called_stable x).runCB h hr) hx hd e)
    rcases lag_fireTaskSets hm h hf hL1 with ⟨e', h1, h2⟩ | ⟨x, h1, h2⟩
    · rw [← hq] at h1
      exact ⟨.error e', .fail (by rw [hq]; exact h0) h1, .inl ⟨e', rfl, h2⟩⟩
    · rw [← hq] at h1
      obtain ⟨a, h3, h4⟩ := ih h2 e hL
      exact ⟨a, .next (by rw [hq]; exact h0) h1 h3, h4⟩

theorem lag_progresses {done : List Nat} (h : Lag env st st') (hs : Progresses qlens (runCB env') done st' (.ok s1'))
    (hL : SubLog L s1') : AfterL env L s1' (Progresses qlens (runCB env) done st) := by
  cases hs with
  | @ok s1 _ hf hd =>
    have hL1 : SubLog L s1 := fun x hx => hL x
      (drains_preserves (env := env') (P := fun st => Ev.call x ∈ st.log) (fun _ _ h => h)
        (fun _ _ _ h hr => (called_stable x).runCB h hr) hx hd rfl)
    have hq : qlens.get st = qlens.get st' := h.q
    rcases lag_fireFutures hm (by rw [hq]; exact h.setQ _ :
      Lag env (qlens.put st ((qlens.get st).dropDone done)) (qlens.put st' ((qlens.get st').dropDone done))) hf hL1 with
      ⟨e', h1, h2⟩ | ⟨x, h1, h2⟩
    · exact ⟨_, .fail h1, .inl ⟨e', rfl, h2⟩⟩
    · obtain ⟨a, h3, h4⟩ := lag_drains hm hd h2 rfl hL
      exact ⟨a, .ok h1 h3, h4⟩

theorem lag_loops {choose : Nat → List Nat → List Nat} {round n : Nat} {r' : Except Err St}
    (hs : Loops env' choose round st' n r') : ∀ {st : St}, Lag env st st' → r' = .ok s1' → SubLog L s1' →
    ∃ m, AfterL env L s1' (Loops env choose round st m) := by
  induction hs with
  | stop h0 =>
    intro st h e hL
    cases e
    exact ⟨0, .ok st, .stop (by rw [h.q]; exact h0), .ok h⟩
  | fail => intro st h e; cases e
  | @next round s s2 n r h0 hp hl ih =>
    intro st h e hL
    have hL1 : SubLog L s2 := fun x hx => hL x
      ((called_stable (env := env') x).loops (fun st l h => List.mem_append_left _ h) hx hl _ e)
    have hlag : Lag env { st with log := st.log ++ [.done (choose round st.q.outstanding)] }
        { s with log := s.log ++ [.done (choose round s.q.outstanding)] } := by
      refine ⟨h.q, h.wfs, by simp only [h.log, h.q], h.results.imp ?_⟩
      rintro r r' (e | ⟨e, h1, x, h2, h3⟩)
      · exact .inl e
      · exact .inr ⟨e, h1, x, List.mem_append_left _ h2, h3⟩
    obtain ⟨a, h1, h2⟩ := lag_progresses hm hlag hp hL1
    have ho : st.q.outstanding ≠ [] := by rw [h.q]; exact h0
    rw [← h.q] at h1
    rcases h2 with ⟨e', rfl, h3⟩ | ⟨x, rfl, h3⟩
    · exact ⟨1, _, .fail ho h1, .inl ⟨e', rfl, h3⟩⟩
    · obtain ⟨m, a, h4, h5⟩ := ih h3 e hL
      exact ⟨m + 1, a, .next ho h1 h4, h5⟩

theorem lag_start {g : Nat} {q : QNode} (hs : startQuery env' g q = .ok s1') (hL : SubLog L s1') :
    After env L (Lag env) s1' (startQuery env g q) := by
  have hlev : env.levels = env'.levels := by unfold Env.levels; rw [hm.sys]
  unfold startQuery at hs ⊢
  rw [hm.sys]
  split at hs
  · simp at hs
  · rename_i gr hg
    simp only [hg]
    simp only [bind_ok_iff] at hs
    obtain ⟨q', h1, ⟨qu, ts⟩, h2, hs⟩ := hs
    rw [h1, hlev]
    simp only [ok_bind', h2]
    exact lag_processNode hm (lag_subCall hm _) ⟨rfl, rfl, rfl, .nil⟩ hs hL

end

end Hiku
