import Verif.Spec.Latency
import Verif.Proofs.Loop
import Verif.Proofs.PlanStatic

/-! Deadlines of tasks and task sets. -/

namespace Hiku
namespace Lat

/-! ### maxima -/

theorem le_maxOf {l : List Nat} {x : Nat} (h : x ∈ l) : x ≤ maxOf l := by
  induction l with
  | nil => simp at h
  | cons y r ih =>
    simp only [maxOf, List.foldr_cons]
    rcases List.mem_cons.1 h with rfl | h
    · exact Nat.le_max_left _ _
    · exact Nat.le_trans (ih h) (Nat.le_max_right _ _)

theorem maxOf_le {l : List Nat} {m : Nat} (h : ∀ x ∈ l, x ≤ m) : maxOf l ≤ m := by
  induction l with
  | nil => simp [maxOf]
  | cons y r ih =>
    simp only [maxOf, List.foldr_cons]
    exact Nat.max_le.2 ⟨h y (by simp), ih fun x hx => h x (by simp [hx])⟩

/-! ### times of steps and callbacks -/

section
variable (wt : PFunc → Nat) (subt : Nat → List QNode → Nat)

/-- the time of the objects behind a link -/
def childTime (g : Graph) (gl : GLink) (ql : QItem) : Nat :=
  match ql with
  | .field .. => 0
  | .link _ q _ _ => match g.node gl.node with
      | some t => nodeTime wt subt g t q
      | none => 0

def groupTime (gn : GNode) (k : FKey) (items : List (GItem × QItem)) : Nat :=
  callTime wt subt gn k (items.map (·.2))

/-- until the next step may start -/
def stepDep (gn : GNode) : Step → Nat
  | .fields k items => groupTime wt subt gn k items
  | .link gl _ => wt gl.func

/-- until everything of the step is done -/
def stepOwn (g : Graph) (gn : GNode) : Step → Nat
  | .fields k items => groupTime wt subt gn k items
  | .link gl ql => wt gl.func + childTime wt subt g gl ql

def stepsTime (g : Graph) (gn : GNode) : List Step → Nat
  | [] => 0
  | s :: r => max (stepOwn wt subt g gn s) (stepDep wt subt gn s + stepsTime g gn r)

end

def cbTimeG (env : Env) (wt : PFunc → Nat) (gi : Nat) (cb : CB) : Nat :=
  match env.sys.graphs[gi]? with
  | none => 0
  | some g =>
      match cb with
      | .store .. => 0
      | .schedLink _ _ gl ql _ => wt gl.func + childTime wt (subTime env.sys env.H wt gi) g gl ql
      | .procLink _ _ gl ql _ _ => childTime wt (subTime env.sys env.H wt gi) g gl ql
      | .procSteps _ gn _ steps => stepsTime wt (subTime env.sys env.H wt gi) g gn steps

def cbTime (env : Env) (wt : PFunc → Nat) (wfs : List Wf) (cb : CB) : Nat :=
  match wfs[cb.wf]? with
  | none => 0
  | some wf => cbTimeG env wt wf.graph cb

theorem cbTime_eq {env : Env} {wt : PFunc → Nat} {wfs : List Wf} {cb : CB} {wf : Wf} (h : wfs[cb.wf]? = some wf) :
    cbTime env wt wfs cb = cbTimeG env wt wf.graph cb := by simp [cbTime, h]

/-! ### the invariant -/

/-- the time by which the object is finished -/
def limObj (Lim due : Nat → Nat) : Obj → Nat
  | .fut f => due f
  | .ts t => Lim t

/-- the object exists already -/
def Old (st : St) : Obj → Prop
  | .fut f => f < st.results.length
  | .ts t => t < st.q.nextTs

/-- `Lim t` is the time by which the task set `t` is finished, `due f` the time by which the future `f` is
finished. -/
structure LI (env : Env) (wt : PFunc → Nat) (now : Nat) (Lim due : Nat → Nat) (st : St) : Prop where
  regs : ∀ o cb, (o, cb) ∈ st.q.regs → Old st o ∧ now ≤ limObj Lim due o ∧
    ∃ wf, st.wfs[cb.wf]? = some wf ∧ limObj Lim due o + cbTime env wt st.wfs cb ≤ Lim wf.ts
  futs : ∀ t s f, dget st.q.futures t = some s → f ∈ s → due f ≤ Lim t
  kids : ∀ t s c, dget st.q.forks t = some s → c ∈ s → Lim c ≤ Lim t
  live : ∀ t, (dget st.q.futures t).isSome → now ≤ Lim t
  wfs : ∀ (j : Nat) wf, st.wfs[j]? = some wf → wf.ts < st.q.nextTs
  lt : ∀ pre s post, st.log = pre ++ .call s :: post → s.fut < st.results.length
  calls : ∀ pre s post, st.log = pre ++ .call s :: post → due s.fut = rounds pre + wt s.func
  known : ∀ f, f < st.results.length → ∃ s, Ev.call s ∈ st.log ∧ s.fut = f
  now : rounds st.log = now

/-- the deadlines of what existed before are the same -/
structure Ext (st : St) (Lim due Lim' due' : Nat → Nat) : Prop where
  ts : ∀ t, t < st.q.nextTs → Lim' t = Lim t
  fut : ∀ f, f < st.results.length → due' f = due f
  le : ∀ t, ∃ t', Lim' t ≤ Lim t'

theorem Ext.refl {st : St} {Lim due : Nat → Nat} : Ext st Lim due Lim due :=
  ⟨fun _ _ => rfl, fun _ _ => rfl, fun t => ⟨t, Nat.le_refl _⟩⟩

theorem Ext.trans {st st' : St} {L d L' d' L'' d'' : Nat → Nat} (h : Ext st L d L' d') (h' : Ext st' L' d' L'' d'')
    (hr : st.results.length ≤ st'.results.length) (ht : st.q.nextTs ≤ st'.q.nextTs) : Ext st L d L'' d'' :=
  ⟨fun t hl => (h'.ts t (by omega)).trans (h.ts t hl), fun f hl => (h'.fut f (by omega)).trans (h.fut f hl), by
    intro t
    obtain ⟨t', h1⟩ := h'.le t
    obtain ⟨t'', h2⟩ := h.le t'
    exact ⟨t'', Nat.le_trans h1 h2⟩⟩

theorem Ext.obj {st : St} {L d L' d' : Nat → Nat} (h : Ext st L d L' d') {o : Obj} (ho : Old st o) :
    limObj L' d' o = limObj L d o := by
  cases o with
  | fut f => exact h.fut f ho
  | ts t => exact h.ts t ho

theorem Old.mono {st st' : St} {o : Obj} (h : Old st o) (hr : st.results.length ≤ st'.results.length)
    (ht : st.q.nextTs ≤ st'.q.nextTs) : Old st' o := by
  cases o with
  | fut f => simp only [Old] at h ⊢; omega
  | ts t => simp only [Old] at h ⊢; omega

theorem rounds_append (l l' : List Ev) : rounds (l ++ l') = rounds l + rounds l' := by simp [rounds]

theorem log_snoc {l pre post : List Ev} {e : Ev} {s : Submit} (h : l ++ [e] = pre ++ .call s :: post) :
    (post = [] ∧ pre = l ∧ e = .call s) ∨ ∃ post', l = pre ++ .call s :: post' := by
  rcases List.eq_nil_or_concat post with rfl | ⟨post', x, rfl⟩
  · obtain ⟨e1, e2⟩ := List.append_inj' h rfl
    exact .inl ⟨rfl, e1.symm, by simpa using e2⟩
  · have e : l ++ [e] = (pre ++ .call s :: post') ++ [x] := by simpa using h
    exact .inr ⟨post', (List.append_inj' e rfl).1⟩

section
variable {env : Env} {wt : PFunc → Nat} {now : Nat} {Lim due : Nat → Nat} {st st' : St}

theorem LI.submit {w : Nat} {wf : Wf} {nd : Option String} {f : PFunc} {args : List Arg} {fut tw : Nat}
    (hL : LI env wt now Lim due st) (hi : st.q.Inv st.results.length) (hw : st.wfs[w]? = some wf) (ht : wf.ts = tw)
    (hb : now + wt f ≤ Lim tw) (h : submitCall env w nd f args st = .ok (st', fut)) :
    ∃ due', Ext st Lim due Lim due' ∧ LI env wt now Lim due' st' ∧ due' fut = now + wt f ∧
      fut < st'.results.length := by
  simp only [submitCall, hw] at h
  split at h
  · simp at h
  split at h
  · simp at h
  rename_i q' hq
  simp at h
  obtain ⟨rfl, rfl⟩ := h
  obtain ⟨s, hs, he⟩ := Queue.submit_ok hq
  rw [ht] at hs he
  refine ⟨fun x => if x = st.results.length then now + wt f else due x,
    ⟨fun _ _ => rfl, fun x hx => if_neg (by omega), fun t => ⟨t, Nat.le_refl _⟩⟩, ?_, by simp, by simp⟩
  have hob : ∀ o, Old st o → limObj Lim (fun x => if x = st.results.length then now + wt f else due x) o =
      limObj Lim due o := by
    intro o ho
    cases o with
    | ts t => rfl
    | fut x => simp only [limObj, Old] at ho ⊢; exact if_neg (by omega)
  refine ⟨?_, ?_, ?_, ?_, ?_, ?_, ?_, ?_, ?_⟩
  · intro o cb hm
    obtain ⟨h1, h2, h3⟩ := hL.regs o cb (by simpa [he, Queue.regs] using hm)
    rw [hob o h1]
    refine ⟨h1.mono (by simp) (by simp [he]), h2, h3⟩
  · intro t s' x hx hm
    simp only [he, dget_dset] at hx
    by_cases e : tw = t
    · subst e
      rw [if_pos rfl] at hx; cases hx
      rcases List.mem_append.1 hm with hm | hm
      · have := hi.flt _ _ _ hs hm
        have e : (if x = st.results.length then now + wt f else due x) = due x := if_neg (by omega)
        simp only [e]
        exact hL.futs _ _ _ hs hm
      · simp at hm; subst hm; simpa using hb
    · rw [if_neg e] at hx
      have := hi.flt _ _ _ hx hm
      have e : (if x = st.results.length then now + wt f else due x) = due x := if_neg (by omega)
      simp only [e]
      exact hL.futs _ _ _ hx hm
  · intro t s' c hc
    simp only [he] at hc
    exact hL.kids t s' c hc
  · intro t hl
    simp only [he, dget_dset] at hl
    by_cases e : tw = t
    · subst e; exact hL.live _ (by simp [hs])
    · rw [if_neg e] at hl; exact hL.live t hl
  · intro j wf hj
    simp only [he]
    exact hL.wfs j wf hj
  · intro pre s' post hl
    rcases log_snoc hl with ⟨_, _, e⟩ | ⟨post', e⟩
    · simp at e; subst e; simp
    · have := hL.lt _ _ _ e
      simp only [List.length_append, List.length_singleton]; omega
  · intro pre s' post hl
    rcases log_snoc hl with ⟨_, rfl, e⟩ | ⟨post', e⟩
    · simp at e; subst e; simp [hL.now]
    · have := hL.lt _ _ _ e
      have e' : (if s'.fut = st.results.length then now + wt f else due s'.fut) = due s'.fut := if_neg (by omega)
      simp only [e']
      exact hL.calls _ _ _ e
  · intro x hx
    simp only [List.length_append, List.length_singleton] at hx
    by_cases e : x = st.results.length
    · exact ⟨_, List.mem_append.2 (.inr (by simp; rfl)), e.symm⟩
    · obtain ⟨s', h1, h2⟩ := hL.known x (by omega)
      exact ⟨s', List.mem_append.2 (.inl h1), h2⟩
  · simp only [rounds_append, hL.now]; simp [rounds]

theorem LI.addCB {o : Obj} {cb : CB} {wf : Wf} (hL : LI env wt now Lim due st) (ho : Old st o)
    (hn : now ≤ limObj Lim due o) (hw : st.wfs[cb.wf]? = some wf)
    (hb : limObj Lim due o + cbTimeG env wt wf.graph cb ≤ Lim wf.ts) :
    LI env wt now Lim due (addCB o cb st) where
  regs := by
    intro o' cb' hm
    have hm := (Queue.regs_addCallback st.q o cb).mem_iff.1 hm
    rcases List.mem_append.1 hm with hm | hm
    · exact hL.regs o' cb' hm
    · simp at hm
      obtain ⟨rfl, rfl⟩ := hm
      exact ⟨ho, hn, wf, hw, by rw [show (Hiku.addCB o' cb' st).wfs = st.wfs from rfl, cbTime_eq hw]; exact hb⟩
  futs := hL.futs
  kids := hL.kids
  live := hL.live
  wfs := hL.wfs
  lt := hL.lt
  calls := hL.calls
  known := hL.known
  now := hL.now

theorem LI.fork {tw dep X : Nat} {q' : Queue CB} (hL : LI env wt now Lim due st)
    (hi : st.q.Inv st.results.length) (hl : (dget st.q.futures tw).isSome)
    (h : st.q.fork (some tw) = .ok (q', dep)) (h1 : now ≤ X) (h2 : X ≤ Lim tw) :
    ∃ Lim', Ext st Lim due Lim' due ∧ LI env wt now Lim' due { st with q := q' } ∧ Lim' dep = X := by
  obtain ⟨s, hs⟩ := Option.isSome_iff_exists.1 ((hi.keys tw).1 hl)
  obtain ⟨q'', g1, g2, g3, g4, g5⟩ := Queue.fork_of_live hi hs
  rw [g1] at h; simp at h; obtain ⟨rfl, rfl⟩ := h
  have hold : ∀ t s, dget st.q.futures t = some s → t < st.q.nextTs := hi.lt
  have holdk : ∀ t s, dget st.q.forks t = some s → t < st.q.nextTs := by
    intro t s hs
    obtain ⟨x, hx⟩ := Option.isSome_iff_exists.1 ((hi.keys t).2 (by simp [hs]))
    exact hi.lt _ _ hx
  have hne : ∀ t, t < st.q.nextTs → (if t = st.q.nextTs then X else Lim t) = Lim t := fun t ht => if_neg (by omega)
  refine ⟨fun t => if t = st.q.nextTs then X else Lim t, ⟨hne, fun _ _ => rfl, by
    intro t
    by_cases e : t = st.q.nextTs
    · exact ⟨tw, by simpa [e] using h2⟩
    · exact ⟨t, by simp [e]⟩⟩, ?_, by simp⟩
  have hob : ∀ o, Old st o → limObj (fun t => if t = st.q.nextTs then X else Lim t) due o = limObj Lim due o := by
    intro o ho
    cases o with
    | fut x => rfl
    | ts t => exact hne t ho
  refine ⟨?_, ?_, ?_, ?_, ?_, hL.lt, hL.calls, hL.known, hL.now⟩
  · intro o cb hm
    obtain ⟨h1, h2, wf, h3, h4⟩ := hL.regs o cb (by simpa [Queue.regs, g3] using hm)
    rw [hob o h1]
    refine ⟨h1.mono (Nat.le_refl _) (by simp [g2]), h2, wf, h3, ?_⟩
    have := hL.wfs _ _ h3
    simp only [hne _ this]
    exact h4
  · intro t s' f hx hm
    simp only [g4] at hx
    by_cases e : st.q.nextTs = t
    · rw [if_pos e] at hx; cases hx; simp at hm
    · rw [if_neg e] at hx
      simp only [hne t (hold _ _ hx)]
      exact hL.futs _ _ _ hx hm
  · intro t s' c hx hm
    simp only [g5] at hx
    by_cases e : tw = t
    · subst e
      rw [if_pos rfl] at hx; cases hx
      simp only [hne tw (holdk _ _ hs)]
      rcases List.mem_append.1 hm with hm | hm
      · obtain ⟨x, hx⟩ := Option.isSome_iff_exists.1 (hi.kid _ _ _ hs hm).2
        simp only [hne c (hold _ _ hx)]
        exact hL.kids _ _ _ hs hm
      · simp at hm; subst hm; simpa using h2
    · rw [if_neg e] at hx
      by_cases e' : st.q.nextTs = t
      · rw [if_pos e'] at hx; cases hx; simp at hm
      · rw [if_neg e'] at hx
        simp only [hne t (holdk _ _ hx)]
        obtain ⟨x, hx'⟩ := Option.isSome_iff_exists.1 (hi.kid _ _ _ hx hm).2
        simp only [hne c (hold _ _ hx')]
        exact hL.kids _ _ _ hx hm
  · intro t hl'
    simp only [g4] at hl'
    by_cases e : st.q.nextTs = t
    · subst e; simpa using h1
    · rw [if_neg e] at hl'
      obtain ⟨x, hx⟩ := Option.isSome_iff_exists.1 hl'
      simp only [hne t (hold _ _ hx)]
      exact hL.live t hl'
  · intro j wf hj
    have := hL.wfs j wf hj
    simp only [g2]; omega

/-- changes of the workflows which keep the graphs and task sets of the old ones -/
theorem LI.changeWfs {wfs' : List Wf} (hL : LI env wt now Lim due st)
    (h1 : ∀ (j : Nat) wf, st.wfs[j]? = some wf → ∃ wf', wfs'[j]? = some wf' ∧ wf'.graph = wf.graph ∧ wf'.ts = wf.ts)
    (h2 : ∀ (j : Nat) wf, wfs'[j]? = some wf → wf.ts < st.q.nextTs) :
    LI env wt now Lim due { st with wfs := wfs' } where
  regs := by
    intro o cb hm
    obtain ⟨g1, g2, wf, g3, g4⟩ := hL.regs o cb hm
    obtain ⟨wf', e1, e2, e3⟩ := h1 _ _ g3
    refine ⟨g1, g2, wf', e1, ?_⟩
    rw [cbTime_eq g3] at g4
    rw [cbTime_eq (wfs := wfs') e1, e2, e3]
    exact g4
  futs := hL.futs
  kids := hL.kids
  live := hL.live
  wfs := h2
  lt := hL.lt
  calls := hL.calls
  known := hL.known
  now := hL.now

theorem LI.setIndex {w : Nat} {idx : Index} (hL : LI env wt now Lim due st) :
    LI env wt now Lim due (setIndex w idx st) := by
  refine hL.changeWfs (wfs' := st.wfs.modify w fun wf => { wf with index := idx }) ?_ ?_
  · intro j wf hj
    rw [List.getElem?_modify, hj]
    by_cases e : w = j
    · exact ⟨{ wf with index := idx }, by simp [e], rfl, rfl⟩
    · exact ⟨wf, by simp [e], rfl, rfl⟩
  · intro j wf hj
    rw [List.getElem?_modify] at hj
    cases hh : st.wfs[j]? with
    | none => simp [hh] at hj
    | some x =>
      have := hL.wfs j x hh
      by_cases e : w = j
      · simp [hh, e] at hj; subst hj; exact this
      · simp [hh, e] at hj; subst hj; exact this

theorem LI.pushWf {wf : Wf} (hL : LI env wt now Lim due st) (h : wf.ts < st.q.nextTs) :
    LI env wt now Lim due { st with wfs := st.wfs ++ [wf] } := by
  refine hL.changeWfs ?_ ?_
  · intro j wf' hj
    have : j < st.wfs.length := (List.getElem?_eq_some_iff.1 hj).1
    exact ⟨wf', by rw [List.getElem?_append_left this, hj], rfl, rfl⟩
  · intro j wf' hj
    by_cases e : j < st.wfs.length
    · rw [List.getElem?_append_left e] at hj; exact hL.wfs j wf' hj
    · rw [List.getElem?_append_right (by omega)] at hj
      have : wf' = wf := by
        cases hk : j - st.wfs.length with
        | zero => rw [hk] at hj; simpa using hj.symm
        | succ k => rw [hk] at hj; simp at hj
      subst this; exact h

end

end Lat
end Hiku
