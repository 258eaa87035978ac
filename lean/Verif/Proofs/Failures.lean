import Verif.Proofs.Stable

/-! Every result of a data function is read by a callback. -/

namespace Hiku

/-- the callback asks the future `i` for its result -/
def ReadsFut (i : Nat) : CB → Prop
  | .store _ _ _ _ (.fut j) => j = i
  | .procLink _ _ _ _ _ j => j = i
  | _ => False

/-- callbacks stay registered, and the results of new futures will be read -/
structure Grow (st st' : St) : Prop where
  results : ∃ l, st'.results = st.results ++ l
  kept : ∀ o cb, cb ∈ st.q.cbs o → cb ∈ st'.q.cbs o
  new : ∀ i, st.results.length ≤ i → i < st'.results.length → ∃ cb ∈ st'.q.cbs (.fut i), ReadsFut i cb

variable {env : Env} {st st' st'' : St} {w : Nat} {sub : SubCall}

namespace Grow

theorem refl (st : St) : Grow st st := ⟨⟨[], by simp⟩, fun _ _ h => h, fun i h1 h2 => by omega⟩

theorem trans (h : Grow st st') (h' : Grow st' st'') : Grow st st'' := by
  obtain ⟨l, hl⟩ := h.results
  obtain ⟨l', hl'⟩ := h'.results
  refine ⟨⟨l ++ l', by simp [hl, hl']⟩, fun o cb hc => h'.kept o cb (h.kept o cb hc), ?_⟩
  intro i h1 h2
  rcases Nat.lt_or_ge i st'.results.length with h3 | h3
  · obtain ⟨cb, h4, h5⟩ := h.new i h1 h3
    exact ⟨cb, h'.kept _ _ h4, h5⟩
  · exact h'.new i h3 h2

/-- a change of the state in which nothing is submitted and no callback is removed -/
theorem of_kept (hr : st'.results = st.results) (hk : ∀ o cb, cb ∈ st.q.cbs o → cb ∈ st'.q.cbs o) : Grow st st' :=
  ⟨⟨[], by simp [hr]⟩, hk, fun i h1 h2 => by rw [hr] at h2; omega⟩

theorem addCB (st : St) (o : Obj) (cb : CB) : Grow st (Hiku.addCB o cb st) := by
  refine of_kept rfl fun o' c hc => ?_
  simp only [Hiku.addCB, Queue.cbs_addCallback]
  split
  · exact List.mem_append_left _ hc
  · exact hc

theorem cbs_submit {q q' : Queue CB} {t f : Nat} (h : q.submit t f = .ok q') (o : Obj) : q'.cbs o = q.cbs o := by
  obtain ⟨s, _, rfl⟩ := Queue.submit_ok h
  rfl

theorem cbs_fork {q q' : Queue CB} {p : Option Nat} {t : Nat} (h : q.fork p = .ok (q', t)) (o : Obj) : q'.cbs o = q.cbs o := by
  unfold Queue.fork at h
  cases p with
  | none => simp at h; obtain ⟨rfl, _⟩ := h; rfl
  | some p =>
    simp only at h
    split at h
    · simp at h
    · simp at h; obtain ⟨rfl, _⟩ := h; rfl

/-- a submission followed by the registration of the callback which reads the result -/
theorem submit {nd : Option String} {f : PFunc} {args : List Arg} {fut : Nat} {cb : CB}
    (h : submitCall env w nd f args st = .ok (st', fut)) (hc : ReadsFut fut cb) :
    Grow st (Hiku.addCB (.fut fut) cb st') := by
  obtain ⟨wf, q, _, hq, rfl, _, rfl⟩ := submitCall_inv h
  refine ⟨⟨_, rfl⟩, ?_, ?_⟩
  · intro o c hc
    simp only [Hiku.addCB, Queue.cbs_addCallback, cbs_submit hq]
    split
    · exact List.mem_append_left _ hc
    · exact hc
  · intro i h1 h2
    simp [Hiku.addCB] at h2
    have : i = st.results.length := by omega
    subst this
    refine ⟨cb, ?_, hc⟩
    simp [Hiku.addCB, Queue.cbs_addCallback]

end Grow

def SubGrow (sub : SubCall) : Prop :=
  ∀ sg items ids ts st st' src, sub sg items ids ts st = .ok (st', src) → Grow st st'

theorem grow_scheduleFields (hsub : SubGrow sub)
    {node : GNode} {k : FKey} {items : List (GItem × QItem)} {ids : Option (List Val)} {o : Obj}
    (h : scheduleFields env sub w node k items ids st = .ok (st', o)) : Grow st st' := by
  unfold Hiku.scheduleFields at h
  cases k with
  | sub sg =>
    simp only at h
    split at h
    · simp at h
    · split at h
      · simp at h
      · simp only [bind_ok_iff] at h
        obtain ⟨⟨q', dep⟩, h1, ⟨st1, src⟩, h2, h3⟩ := h
        simp at h3
        rw [← h3.1]
        refine Grow.trans (Grow.of_kept (st' := { st with q := q' }) rfl ?_)
          ((hsub _ _ _ _ _ _ _ h2).trans (Grow.addCB _ _ _))
        intro o cb hc
        rw [Grow.cbs_fork h1]; exact hc
  | plain f =>
    simp only [bind_ok_iff] at h
    obtain ⟨⟨st1, fut⟩, h2, h3⟩ := h
    simp at h3
    rw [← h3.1]
    exact Grow.submit h2 rfl

theorem grow_scheduleLink {node : GNode} {gl : GLink} {ql : QItem} {ids : Option (List Val)} {o : Obj}
    (h : scheduleLink env w node gl ql ids st = .ok (st', o)) : Grow st st' := by
  unfold Hiku.scheduleLink at h
  split at h
  · simp at h
  · simp only [bind_ok_iff] at h
    obtain ⟨ra, h1, ⟨st1, fut⟩, h2, h3⟩ := h
    simp at h3
    rw [← h3.1]
    exact Grow.submit h2 rfl

theorem grow_runSteps (hsub : SubGrow sub) {node : GNode} {ids : Option (List Val)} {steps : List Step}
    (h : runSteps env sub w node ids steps st = .ok st') : Grow st st' := by
  cases steps with
  | nil => simp [Hiku.runSteps] at h; exact h ▸ Grow.refl _
  | cons s r =>
    simp only [Hiku.runSteps, bind_ok_iff] at h
    obtain ⟨⟨st1, dep⟩, h1, h2⟩ := h
    have hl1 : Grow st st1 := by
      cases s with
      | fields k items => exact grow_scheduleFields hsub h1
      | link gl ql => exact grow_scheduleLink h1
    simp at h2
    split at h2
    · exact h2 ▸ hl1
    · exact h2 ▸ hl1.trans (Grow.addCB _ _ _)

theorem grow_scheduleGroups (hsub : SubGrow sub)
    {node : GNode} {ids : Option (List Val)} {gs : List (FKey × List (GItem × QItem))}
    {deps : List (FKey × Obj)}
    (h : scheduleGroups env sub w node ids gs st = .ok (st', deps)) : Grow st st' := by
  induction gs generalizing st deps with
  | nil => simp [Hiku.scheduleGroups] at h; exact h.1 ▸ Grow.refl _
  | cons x r ih =>
    obtain ⟨k, items⟩ := x
    simp only [Hiku.scheduleGroups, bind_ok_iff] at h
    obtain ⟨⟨st1, dep⟩, h1, ⟨st2, deps'⟩, h2, h3⟩ := h
    simp at h3
    obtain ⟨rfl, _⟩ := h3
    exact (grow_scheduleFields hsub h1).trans (ih h2)

theorem grow_scheduleLinks {node : GNode} {ids : Option (List Val)} {toFunc : List (String × FKey)}
    {toDep : List (FKey × Obj)} {ls : List (GLink × QItem)}
    (h : scheduleLinks env w node ids toFunc toDep ls st = .ok st') : Grow st st' := by
  induction ls generalizing st with
  | nil => simp [Hiku.scheduleLinks] at h; exact h ▸ Grow.refl _
  | cons x r ih =>
    obtain ⟨gl, ql⟩ := x
    simp only [Hiku.scheduleLinks] at h
    split at h
    · split at h
      · simp at h
      · split at h
        · simp at h
        · exact (Grow.addCB _ _ _).trans (ih h)
    · simp only [bind_ok_iff] at h
      obtain ⟨⟨st1, o⟩, h1, h2⟩ := h
      exact (grow_scheduleLink h1).trans (ih h2)

theorem grow_processNode (hsub : SubGrow sub) {node : GNode} {ids : Option (List Val)} {q : QNode}
    (h : processNode env sub w node q ids st = .ok st') : Grow st st' := by
  unfold Hiku.processNode at h
  split at h
  · simp only [bind_ok_iff] at h
    obtain ⟨steps, _, h2⟩ := h
    exact grow_runSteps hsub h2
  · simp only [bind_ok_iff] at h
    obtain ⟨⟨fields, links⟩, _, ⟨st1, deps⟩, h2, h3⟩ := h
    exact (grow_scheduleGroups hsub h2).trans (grow_scheduleLinks h3)

theorem grow_wfs (l : List Wf) : Grow st { st with wfs := l } := Grow.of_kept rfl fun _ _ h => h

theorem grow_processLink (hsub : SubGrow sub)
    {node : GNode} {gl : GLink} {ql : QItem} {ids : Option (List Val)} {result : Val}
    (h : processLink env sub w node gl ql ids result st = .ok st') : Grow st st' := by
  unfold Hiku.processLink at h
  split at h
  · simp at h
  · simp only [bind_ok_iff] at h
    obtain ⟨idx, _, toIds, _, h⟩ := h
    split at h
    · simp at h; exact h ▸ grow_wfs _
    · split at h
      · simp at h
      · split at h
        · simp at h
        · simp at h
        · exact (grow_wfs _).trans (grow_processNode hsub h)

theorem grow_subCall (n : Nat) : SubGrow (subCall env n) := by
  induction n with
  | zero => intro sg items ids ts st st' src h; simp [Hiku.subCall] at h
  | succ n ih =>
    intro sg items ids ts st st' src h
    simp only [Hiku.subCall, subGraphCall] at h
    split at h
    · simp at h
    · split at h
      · simp at h
      · simp only [bind_ok_iff] at h
        obtain ⟨ch, _, opts, _, h⟩ := h
        split at h
        · simp at h
        · simp only [bind_ok_iff] at h
          obtain ⟨st1, h1, st2, h2, h3⟩ := h
          simp at h3
          exact h3.1 ▸ (grow_wfs _).trans ((grow_processLink ih h1).trans (grow_processNode ih h2))

/-- a callback which succeeds has read a result, not an exception -/
theorem runCB_reads {cb : CB} {i : Nat} (hc : ReadsFut i cb) (h : runCB env cb st = .ok st') :
    ∃ v, st.results[i]? = some (.ok v) := by
  have key : ∀ {r : Val}, (st.results[i]?).getD (.error .assertionError) = .ok r → ∃ v, st.results[i]? = some (.ok v) := by
    intro r hr
    cases hi : st.results[i]? with
    | none => rw [hi] at hr; simp at hr
    | some x => rw [hi] at hr; simp at hr; exact ⟨r, by rw [hr]⟩
  cases cb with
  | store w node qfs ids src =>
    cases src with
    | fut j =>
      cases (hc : j = i)
      simp only [Hiku.runCB, bind_ok_iff] at h
      obtain ⟨r, hr, h⟩ := h
      exact key hr
    | sub w p => exact absurd hc id
  | schedLink => exact absurd hc id
  | procLink w node gl ql ids j =>
    cases (hc : j = i)
    simp only [Hiku.runCB, bind_ok_iff] at h
    obtain ⟨r, hr, h⟩ := h
    exact key hr
  | procSteps => exact absurd hc id

theorem grow_runCB {cb : CB} (h : runCB env cb st = .ok st') : Grow st st' := by
  cases cb with
  | store w node qfs ids src =>
    simp only [Hiku.runCB, bind_ok_iff] at h
    obtain ⟨r, _, h⟩ := h
    split at h
    · simp at h
    · simp only [bind_ok_iff] at h
      obtain ⟨idx, _, h⟩ := h
      simp at h
      exact h ▸ grow_wfs _
  | schedLink w node gl ql ids =>
    simp only [Hiku.runCB, bind_ok_iff] at h
    obtain ⟨⟨st1, o⟩, h1, h2⟩ := h
    simp at h2
    exact h2 ▸ grow_scheduleLink h1
  | procLink w node gl ql ids fut =>
    simp only [Hiku.runCB, bind_ok_iff] at h
    obtain ⟨r, _, h⟩ := h
    exact grow_processLink (grow_subCall _) h
  | procSteps w node ids steps => exact grow_runSteps (grow_subCall _) h

/-! ### The loop -/

/-- the results which are exceptions will still be read -/
def Covered (run : List CB) (st : St) : Prop :=
  ∀ i e, st.results[i]? = some (.error e) →
    (∃ cb ∈ st.q.cbs (.fut i), ReadsFut i cb) ∨ ∃ cb ∈ run, ReadsFut i cb

theorem Covered.grow {run : List CB} (h : Covered run st) (hg : Grow st st') : Covered run st' := by
  intro i e hi
  obtain ⟨l, hl⟩ := hg.results
  rcases Nat.lt_or_ge i st.results.length with h1 | h1
  · rw [hl, List.getElem?_append_left h1] at hi
    rcases h i e hi with ⟨cb, h2, h3⟩ | h2
    · exact .inl ⟨cb, hg.kept _ _ h2, h3⟩
    · exact .inr h2
  · exact .inl (hg.new i h1 (List.getElem?_eq_some_iff.1 hi).1)

theorem Covered.runCallbacks {l : List CB} (h : Covered l st)
    (hr : Hiku.runCallbacks (runCB env) l st = .ok st') : Covered [] st' := by
  induction l generalizing st with
  | nil => simp [Hiku.runCallbacks] at hr; exact hr ▸ h
  | cons c r ih =>
    simp only [Hiku.runCallbacks, bind_ok_iff] at hr
    obtain ⟨s1, h1, h2⟩ := hr
    refine ih (Covered.grow ?_ (grow_runCB h1)) h2
    intro i e hi
    rcases h i e hi with h3 | ⟨cb, h3, h4⟩
    · exact .inl h3
    · rcases List.mem_cons.1 h3 with rfl | h3
      · obtain ⟨v, hv⟩ := runCB_reads h4 h1
        rw [hi] at hv; cases hv
      · exact .inr ⟨cb, h3, h4⟩

theorem Covered.fire (h : Covered [] st) (o : Obj) (hr : fireCallbacks qlens (runCB env) o st = .ok st') :
    Covered [] st' := by
  refine Covered.runCallbacks ?_ hr
  intro i e hi
  rcases h i e hi with ⟨cb, h1, h2⟩ | ⟨cb, h1, _⟩
  · have hq : (qlens.put st (Queue.popCallbacks (qlens.get st) o).2).q.cbs (.fut i) =
        if o = .fut i then [] else st.q.cbs (.fut i) := Queue.cbs_pop _ _ _
    by_cases ho : o = .fut i
    · refine .inr ⟨cb, ?_, h2⟩
      rw [Queue.pop_fst, ho]; exact h1
    · refine .inl ⟨cb, ?_, h2⟩
      rw [hq, if_neg ho]; exact h1
  · cases h1

theorem Covered.fireFutures {l : List Nat} (h : Covered [] st)
    (hr : Hiku.fireFutures qlens (runCB env) l st = .ok st') : Covered [] st' := by
  induction l generalizing st with
  | nil => simp [Hiku.fireFutures] at hr; exact hr ▸ h
  | cons c r ih =>
    simp only [Hiku.fireFutures, bind_ok_iff] at hr
    obtain ⟨s1, h1, h2⟩ := hr
    exact ih (h.fire _ h1) h2

theorem Covered.fireTaskSets {l : List Nat} (h : Covered [] st)
    (hr : Hiku.fireTaskSets qlens (runCB env) l st = .ok st') : Covered [] st' := by
  induction l generalizing st with
  | nil => simp [Hiku.fireTaskSets] at hr; exact hr ▸ h
  | cons c r ih =>
    simp only [Hiku.fireTaskSets, bind_ok_iff] at hr
    obtain ⟨s1, h1, h2⟩ := hr
    have h3 := h.fire _ h1
    exact ih (st := qlens.put s1 ((qlens.get s1).removeTs c)) (fun i e hi => h3 i e hi) h2

theorem Covered.drains {r : Except Err St} (h : Covered [] st) (hr : Drains qlens (runCB env) st r)
    (he : r = .ok st') : Covered [] st' := by
  induction hr with
  | stop => cases he; exact h
  | fail => simp at he
  | next _ hf _ ih => exact ih (h.fireTaskSets hf) he

theorem Covered.progresses {done : List Nat} (h : Covered [] st)
    (hr : Progresses qlens (runCB env) done st (.ok st')) : Covered [] st' := by
  cases hr with
  | ok hf hd => exact Covered.drains (Covered.fireFutures (by exact h) hf) hd rfl

theorem Covered.loops {choose : Nat → List Nat → List Nat} {round n : Nat} {r : Except Err St} (h : Covered [] st)
    (hl : Loops env choose round st n r) : ∀ st', r = .ok st' → Covered [] st' := by
  induction hl with
  | stop => intro st' e; cases e; exact h
  | fail => intro st' e; cases e
  | next _ hp _ ih => exact ih (Covered.progresses (by exact h) hp)

theorem covered_start {g : Nat} {q : QNode} (h : startQuery env g q = .ok st) : Covered [] st := by
  unfold startQuery at h
  split at h
  · simp at h
  · simp only [bind_ok_iff] at h
    obtain ⟨q', _, ⟨qu, ts⟩, _, h⟩ := h
    refine Covered.grow ?_ (grow_processNode (grow_subCall _) h)
    intro i e hi
    simp at hi

end Hiku
