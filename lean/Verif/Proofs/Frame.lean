import Verif.Proofs.Cost
import Verif.Proofs.Queue
import Verif.Spec.Options

/-! What the scheduling functions of the engine may change, for arbitrary data functions. -/

namespace Hiku

def CB.wf : CB → Nat
  | .store w .. => w
  | .schedLink w .. => w
  | .procLink w .. => w
  | .procSteps w .. => w

/-- the grouping key of a graph item (engine.py:77, 89, 111) -/
def GItem.fkey : GItem → FKey
  | .field gf => gf.func.key
  | .link gl => .plain gl.func

/-- Sub-graphs exist and are built on older graphs. -/
def SubsDecrease (env : Env) : Prop :=
  ∀ gi g, env.sys.graphs[gi]? = some g → ∀ gn, IsNode g gn → ∀ n gf, gn.get n = some (.field gf) →
    ∀ sg reqs proc, gf.func = .checked sg reqs proc →
      ∃ s, env.sys.subs[sg]? = some s ∧ s.graph < gi

section
variable (a b : Nat) (sc : Nat → QNode → Nat)

def linkCost (g : Graph) (gl : GLink) (ql : QItem) : Nat :=
  match ql with
  | .field .. => 0
  | .link _ q _ _ => match g.node gl.node with
      | some t => costNode a b sc g t q
      | none => 0

def itemsCost (items : List (GItem × QItem)) : Nat :=
  (items.map fun x => costGItem a b sc x.1).sum

def stepCost (g : Graph) : Step → Nat
  | .fields _ items => itemsCost a b sc items
  | .link gl ql => a + linkCost a b sc g gl ql

end

def cbCostG (env : Env) (a b gi : Nat) (cb : CB) : Nat :=
  match env.sys.graphs[gi]? with
  | none => 0
  | some g =>
      match cb with
      | .store .. => 0
      | .schedLink _ _ gl ql _ => a + linkCost a b (costSub env.sys a b gi) g gl ql
      | .procLink _ _ gl ql _ _ => linkCost a b (costSub env.sys a b gi) g gl ql
      | .procSteps _ _ _ steps => (steps.map (stepCost a b (costSub env.sys a b gi) g)).sum

def cbCost (env : Env) (a b : Nat) (wfs : List Wf) (cb : CB) : Nat :=
  match wfs[cb.wf]? with
  | none => 0
  | some wf => cbCostG env a b wf.graph cb

/-- well-formed steps of a node -/
def StepOK (gn : GNode) : Step → Prop
  | .fields k items => items ≠ [] ∧ ∀ x ∈ items, gn.get x.2.name = some x.1 ∧ x.1.fkey = k
  | .link gl ql => ∃ n q o al, ql = .link n q o al ∧ gn.get n = some (.link gl)

/-- static well-formedness of a callback of a workflow on the graph number `gi` -/
def Scoped (env : Env) (gi : Nat) (cb : CB) : Prop :=
  ∃ g, env.sys.graphs[gi]? = some g ∧
    match cb with
    | .procSteps _ gn _ steps => IsNode g gn ∧ ∀ s ∈ steps, StepOK gn s
    | _ => True

/-- the task set `tw` is waiting for `o` -/
def Waits (st : St) (tw : Nat) : Obj → Prop
  | .fut f => ∃ s, dget st.q.futures tw = some s ∧ f ∈ s
  | .ts t => ∃ s, dget st.q.forks tw = some s ∧ t ∈ s

/-- A callback on `o` belongs to a workflow whose task set is waiting for `o`. -/
def Loc (env : Env) (st : St) (o : Obj) (cb : CB) : Prop :=
  ∃ wf, st.wfs[cb.wf]? = some wf ∧ Scoped env wf.graph cb ∧ Waits st wf.ts o

def callCount (log : List Ev) : Nat :=
  (log.filter fun | .call _ => true | .done _ => false).length

def freshObj (nf0 nt0 : Nat) : Obj → Prop
  | .fut f => nf0 ≤ f
  | .ts t => nt0 ≤ t

/-- the futures submitted between two states -/
def newFuts (st st' : St) : List Nat := List.range' st.results.length (st'.results.length - st.results.length)

/-- `st` becomes `st'` by work on behalf of a workflow with the task set `tw`: only `tw` and task
sets numbered from `nt0` on change, callbacks `new` are registered on objects numbered from `nf0`,
`nt0` on only, and the cost is within the budget. -/
structure Frame (env : Env) (a b tw nf0 nt0 : Nat) (st st' : St) (new : List (Obj × CB))
    (budget : Nat) : Prop where
  inv : st'.q.Inv st'.results.length
  res : ∃ r, st'.results = st.results ++ r
  nts : st.q.nextTs ≤ st'.q.nextTs
  wfs : ∀ (j : Nat) (wf : Wf), st.wfs[j]? = some wf → ∃ wf' : Wf, st'.wfs[j]? = some wf' ∧ wf'.graph = wf.graph ∧
    wf'.query = wf.query ∧ wf'.ts = wf.ts ∧
    ∀ c : Cell, (dget wf.index c).isSome → (dget wf'.index c).isSome
  futs : ∀ t s, dget st.q.futures t = some s → ∃ s', dget st'.q.futures t = some s' ∧
    (∀ f ∈ s, f ∈ s') ∧ (t ≠ tw → t < nt0 → s' = s)
  kids : ∀ t s, dget st.q.forks t = some s → ∃ s', dget st'.q.forks t = some s' ∧
    (∀ f ∈ s, f ∈ s') ∧ (t ≠ tw → t < nt0 → s' = s)
  cbs : ∀ o, st'.q.cbs o = st.q.cbs o ++ (new.filter fun x => x.1 = o).map (·.2)
  regs : st'.q.regs.Perm (st.q.regs ++ new)
  fresh : ∀ x ∈ new, freshObj nf0 nt0 x.1
  loc : ∀ x ∈ new, Loc env st' x.1 x.2
  outp : st'.q.outstanding.Perm (st.q.outstanding ++ newFuts st st')
  live : st'.q.futures.length + st.q.nextTs ≤ st.q.futures.length + st'.q.nextTs
  log : callCount st'.log + st.results.length = callCount st.log + st'.results.length
  cost : (new.map fun x => cbCost env a b st'.wfs x.2).sum + a * st'.results.length +
    b * st'.q.nextTs ≤ a * st.results.length + b * st.q.nextTs + budget

variable {env : Env} {a b tw nf0 nt0 : Nat}

theorem Frame.results_le {st st' : St} {new : List (Obj × CB)} {k : Nat}
    (h : Frame env a b tw nf0 nt0 st st' new k) : st.results.length ≤ st'.results.length := by
  obtain ⟨r, hr⟩ := h.res; simp [hr]

theorem Frame.out {st st' : St} {new : List (Obj × CB)} {k : Nat}
    (h : Frame env a b tw nf0 nt0 st st' new k) :
    st'.q.outstanding.length + st.results.length ≤ st.q.outstanding.length + st'.results.length := by
  have h1 := h.outp.length_eq
  have h2 := h.results_le
  simp [newFuts] at h1
  omega

theorem newFuts_trans {st st' st'' : St} (h : st.results.length ≤ st'.results.length)
    (h' : st'.results.length ≤ st''.results.length) : newFuts st st' ++ newFuts st' st'' = newFuts st st'' := by
  unfold newFuts
  have := List.range'_append (s := st.results.length) (m := st'.results.length - st.results.length)
    (n := st''.results.length - st'.results.length) (step := 1)
  rw [show st.results.length + 1 * (st'.results.length - st.results.length) = st'.results.length by omega] at this
  rw [this]
  congr 1
  omega

theorem newFuts_same {st st' : St} (h : st'.results.length = st.results.length) : newFuts st st' = [] := by
  unfold newFuts; rw [h]; simp

theorem outp_same {st st' : St} (h : st'.results.length = st.results.length) (h' : st'.q.outstanding = st.q.outstanding) :
    st'.q.outstanding.Perm (st.q.outstanding ++ newFuts st st') := by
  rw [newFuts_same h, h', List.append_nil]

theorem Waits.frame {st st' : St} {new : List (Obj × CB)} {k t : Nat} {o : Obj}
    (h : Frame env a b tw nf0 nt0 st st' new k) (hl : Waits st t o) : Waits st' t o := by
  cases o with
  | fut f =>
    obtain ⟨s, hs, hf⟩ := hl
    obtain ⟨s', hs', hm, _⟩ := h.futs _ _ hs
    exact ⟨s', hs', hm f hf⟩
  | ts t =>
    obtain ⟨s, hs, hf⟩ := hl
    obtain ⟨s', hs', hm, _⟩ := h.kids _ _ hs
    exact ⟨s', hs', hm t hf⟩

theorem Loc.frame {st st' : St} {new : List (Obj × CB)} {k : Nat} {o : Obj} {cb : CB}
    (h : Frame env a b tw nf0 nt0 st st' new k) (hl : Loc env st o cb) : Loc env st' o cb := by
  obtain ⟨wf, h1, h2, h3⟩ := hl
  obtain ⟨wf', g1, g2, _, g4, _⟩ := h.wfs _ _ h1
  exact ⟨wf', g1, g2 ▸ h2, g4 ▸ h3.frame h⟩

theorem cbCost_congr {wfs wfs' : List Wf} {cb : CB} {wf : Wf} (h : wfs[cb.wf]? = some wf)
    (hw : ∃ wf', wfs'[cb.wf]? = some wf' ∧ wf'.graph = wf.graph) :
    cbCost env a b wfs' cb = cbCost env a b wfs cb := by
  obtain ⟨wf', h1, h2⟩ := hw
  simp only [cbCost, h, h1, h2]

theorem Frame.trans {st st' st'' : St} {n1 n2 : List (Obj × CB)} {k1 k2 : Nat}
    (h1 : Frame env a b tw nf0 nt0 st st' n1 k1) (h2 : Frame env a b tw nf0 nt0 st' st'' n2 k2) :
    Frame env a b tw nf0 nt0 st st'' (n1 ++ n2) (k1 + k2) where
  inv := h2.inv
  res := by
    obtain ⟨r, hr⟩ := h1.res
    obtain ⟨r', hr'⟩ := h2.res
    exact ⟨r ++ r', by rw [hr', hr, List.append_assoc]⟩
  nts := Nat.le_trans h1.nts h2.nts
  wfs := by
    intro j wf hj
    obtain ⟨wf', g1, g2, g3, g4, g5⟩ := h1.wfs j wf hj
    obtain ⟨wf'', e1, e2, e3, e4, e5⟩ := h2.wfs j wf' g1
    exact ⟨wf'', e1, e2.trans g2, e3.trans g3, e4.trans g4, fun c hc => e5 c (g5 c hc)⟩
  futs := by
    intro t s hs
    obtain ⟨s', g1, g2, g3⟩ := h1.futs t s hs
    obtain ⟨s'', e1, e2, e3⟩ := h2.futs t s' g1
    exact ⟨s'', e1, fun f hf => e2 f (g2 f hf), fun x y => (e3 x y).trans (g3 x y)⟩
  kids := by
    intro t s hs
    obtain ⟨s', g1, g2, g3⟩ := h1.kids t s hs
    obtain ⟨s'', e1, e2, e3⟩ := h2.kids t s' g1
    exact ⟨s'', e1, fun f hf => e2 f (g2 f hf), fun x y => (e3 x y).trans (g3 x y)⟩
  cbs := by
    intro o
    rw [h2.cbs, h1.cbs]; simp
  regs := by
    refine h2.regs.trans ?_
    rw [← List.append_assoc]
    exact List.Perm.append_right _ h1.regs
  fresh := by
    intro x hx
    rcases List.mem_append.1 hx with hx | hx
    · exact h1.fresh x hx
    · exact h2.fresh x hx
  loc := by
    intro x hx
    rcases List.mem_append.1 hx with hx | hx
    · exact (h1.loc x hx).frame h2
    · exact h2.loc x hx
  outp := by
    rw [← newFuts_trans h1.results_le h2.results_le, ← List.append_assoc]
    exact h2.outp.trans (h1.outp.append_right _)
  live := by have := h1.live; have := h2.live; omega
  log := by have := h1.log; have := h2.log; omega
  cost := by
    have e : (n1.map fun x => cbCost env a b st''.wfs x.2) =
        n1.map fun x => cbCost env a b st'.wfs x.2 := by
      apply List.map_congr_left
      intro x hx
      obtain ⟨wf, hw, _⟩ := h1.loc x hx
      obtain ⟨wf', g1, g2, _⟩ := h2.wfs _ _ hw
      exact cbCost_congr hw ⟨wf', g1, g2⟩
    rw [List.map_append, List.sum_append, e]
    have := h1.cost; have := h2.cost
    omega

theorem Frame.weaken {st st' : St} {n : List (Obj × CB)} {k k' : Nat}
    (h : Frame env a b tw nf0 nt0 st st' n k) (hk : k ≤ k') :
    Frame env a b tw nf0 nt0 st st' n k' :=
  { h with cost := Nat.le_trans h.cost (by omega) }

/-- work of an inner workflow with a new task set is work of the outer workflow -/
theorem Frame.inner {st st' : St} {n : List (Obj × CB)} {k dep : Nat}
    (h : Frame env a b dep nf0 nt0 st st' n k) (hd : nt0 ≤ dep) :
    Frame env a b tw nf0 nt0 st st' n k :=
  { h with
    futs := by
      intro t s hs
      obtain ⟨s', g1, g2, g3⟩ := h.futs t s hs
      exact ⟨s', g1, g2, fun _ y => g3 (by omega) y⟩
    kids := by
      intro t s hs
      obtain ⟨s', g1, g2, g3⟩ := h.kids t s hs
      exact ⟨s', g1, g2, fun _ y => g3 (by omega) y⟩ }

theorem Frame.refl {st : St} (hi : st.q.Inv st.results.length) :
    Frame env a b tw nf0 nt0 st st [] 0 where
  inv := hi
  res := ⟨[], by simp⟩
  nts := Nat.le_refl _
  wfs := fun j wf h => ⟨wf, h, rfl, rfl, rfl, fun _ h => h⟩
  futs := fun t s h => ⟨s, h, fun _ h => h, fun _ _ => rfl⟩
  kids := fun t s h => ⟨s, h, fun _ h => h, fun _ _ => rfl⟩
  cbs := by simp
  regs := by simp
  fresh := by simp
  loc := by simp
  outp := by rw [newFuts_same rfl, List.append_nil]
  live := by omega
  log := by omega
  cost := by simp

/-- a live task set stays live -/
theorem Frame.isLive {st st' : St} {n : List (Obj × CB)} {k t : Nat}
    (h : Frame env a b tw nf0 nt0 st st' n k) (hl : (dget st.q.futures t).isSome) :
    (dget st'.q.futures t).isSome := by
  obtain ⟨s, hs⟩ := Option.isSome_iff_exists.1 hl
  obtain ⟨s', g1, _⟩ := h.futs t s hs
  simp [g1]

theorem Frame.wfAt {st st' : St} {n : List (Obj × CB)} {k w : Nat} {wf : Wf}
    (h : Frame env a b tw nf0 nt0 st st' n k) (hw : st.wfs[w]? = some wf) :
    ∃ wf', st'.wfs[w]? = some wf' ∧ wf'.graph = wf.graph ∧ wf'.query = wf.query ∧ wf'.ts = wf.ts := by
  obtain ⟨wf', g1, g2, g3, g4, _⟩ := h.wfs w wf hw
  exact ⟨wf', g1, g2, g3, g4⟩

/-! ### Primitive operations -/

theorem callCount_append (l l' : List Ev) : callCount (l ++ l') = callCount l + callCount l' := by
  simp [callCount]

theorem frame_submit {w : Nat} {wf : Wf} {nd : Option String} {f : PFunc} {args : List Arg} {st st' : St} {fut : Nat}
    (hi : st.q.Inv st.results.length) (hw : st.wfs[w]? = some wf) (ht : wf.ts = tw)
    (h : submitCall env w nd f args st = .ok (st', fut)) :
    Frame env a b tw nf0 nt0 st st' [] a ∧ fut = st.results.length ∧ st'.wfs = st.wfs ∧
      st'.results.length = st.results.length + 1 ∧
      ∃ s, dget st'.q.futures tw = some s ∧ fut ∈ s := by
  simp only [submitCall, hw] at h
  split at h
  · simp at h
  split at h
  · simp at h
  · rename_i q' hq
    simp at h
    obtain ⟨rfl, rfl⟩ := h
    obtain ⟨s, hs, he⟩ := Queue.submit_ok hq
    rw [ht] at hs
    have hinv := hi.submit hq
    refine ⟨⟨?_, ⟨_, rfl⟩, ?_, ?_, ?_, ?_, ?_, ?_, by simp, by simp, ?_, ?_, ?_, ?_⟩, rfl, rfl, by simp, ?_⟩
    · simpa using hinv
    · rw [he]; simp
    · exact fun j wf h => ⟨wf, h, rfl, rfl, rfl, fun _ h => h⟩
    · intro t s' hs'
      simp only [he, dget_dset, ht]
      by_cases e : tw = t
      · subst e
        rw [hs] at hs'; cases hs'
        rw [if_pos rfl]
        exact ⟨_, rfl, fun f hf => List.mem_append.2 (.inl hf), fun h => absurd rfl h⟩
      · rw [if_neg e]
        exact ⟨s', hs', fun _ h => h, fun _ _ => rfl⟩
    · intro t s' hs'
      simp only [he]
      exact ⟨s', hs', fun _ h => h, fun _ _ => rfl⟩
    · intro o; simp [he, Queue.cbs]
    · simp [he, Queue.regs]
    · have := Queue.outstanding_submit_perm hq
      simpa [newFuts] using this
    · simp only [he]
      have hl : (dset st.q.futures wf.ts (s ++ [st.results.length])).length = st.q.futures.length := by
        rw [ht]
        have : ∀ d : List (Nat × List Nat), (∃ s, dget d tw = some s) → ∀ v,
            (dset d tw v).length = d.length := by
          intro d
          induction d with
          | nil => rintro ⟨s, h⟩; simp at h
          | cons x r ih =>
            obtain ⟨x1, x2⟩ := x
            rintro ⟨s, h⟩ v
            simp only [dset]
            rw [dget_cons] at h
            split
            · simp
            · rename_i e; rw [if_neg e] at h; simp [ih ⟨s, h⟩ v]
        exact this _ ⟨s, hs⟩ _
      simp only [ht] at hl ⊢
      omega
    · simp only [callCount_append]
      simp [callCount]; omega
    · have : q'.nextTs = st.q.nextTs := by rw [he]
      simp [this, Nat.mul_add]; omega
    · simp only [he, dget_dset, ht, if_true]
      exact ⟨_, rfl, by simp⟩

theorem frame_addCB {o : Obj} {cb : CB} {st : St} (hi : st.q.Inv st.results.length)
    (hf : freshObj nf0 nt0 o) (hl : Loc env st o cb) :
    Frame env a b tw nf0 nt0 st (addCB o cb st) [(o, cb)] (cbCost env a b st.wfs cb) where
  inv := hi.addCallback o cb
  res := ⟨[], by simp [addCB]⟩
  nts := Nat.le_refl _
  wfs := fun j wf h => ⟨wf, h, rfl, rfl, rfl, fun _ h => h⟩
  futs := fun t s h => ⟨s, h, fun _ h => h, fun _ _ => rfl⟩
  kids := fun t s h => ⟨s, h, fun _ h => h, fun _ _ => rfl⟩
  cbs := by
    intro o'
    simp only [addCB, Queue.cbs_addCallback]
    by_cases e : o = o' <;> simp [e]
  regs := Queue.regs_addCallback _ _ _
  fresh := by simpa using hf
  loc := by intro x hx; simp at hx; subst hx; exact hl
  outp := outp_same rfl rfl
  live := Nat.le_refl _
  log := rfl
  cost := by simp [addCB, Queue.addCallback]; omega

theorem frame_setIndex {w : Nat} {wf : Wf} {idx : Index} {st : St}
    (hi : st.q.Inv st.results.length) (hw : st.wfs[w]? = some wf)
    (hm : ∀ c, (dget wf.index c).isSome → (dget idx c).isSome) :
    Frame env a b tw nf0 nt0 st (setIndex w idx st) [] 0 where
  inv := hi
  res := ⟨[], by simp [setIndex]⟩
  nts := Nat.le_refl _
  wfs := by
    intro j wf' hj
    simp only [setIndex, List.getElem?_modify]
    by_cases e : w = j
    · subst e
      rw [hw] at hj; cases hj
      simp [hw]; exact fun a b c => hm (a, b, c)
    · simp [e, hj]
  futs := fun t s h => ⟨s, h, fun _ h => h, fun _ _ => rfl⟩
  kids := fun t s h => ⟨s, h, fun _ h => h, fun _ _ => rfl⟩
  cbs := by simp [setIndex]
  regs := by simp [setIndex]
  fresh := by simp
  loc := by simp
  outp := outp_same rfl rfl
  live := Nat.le_refl _
  log := rfl
  cost := by simp [setIndex]

theorem frame_pushWf {wf : Wf} {st : St} (hi : st.q.Inv st.results.length) :
    Frame env a b tw nf0 nt0 st { st with wfs := st.wfs ++ [wf] } [] 0 where
  inv := hi
  res := ⟨[], by simp⟩
  nts := Nat.le_refl _
  wfs := by
    intro j wf' hj
    have : j < st.wfs.length := by
      rw [List.getElem?_eq_some_iff] at hj; exact hj.1
    refine ⟨wf', ?_, rfl, rfl, rfl, fun _ h => h⟩
    simp only [List.getElem?_append_left this, hj]
  futs := fun t s h => ⟨s, h, fun _ h => h, fun _ _ => rfl⟩
  kids := fun t s h => ⟨s, h, fun _ h => h, fun _ _ => rfl⟩
  cbs := by simp
  regs := by simp
  fresh := by simp
  loc := by simp
  outp := outp_same rfl rfl
  live := Nat.le_refl _
  log := rfl
  cost := by simp

theorem frame_fork {st : St} {q' : Queue CB} {dep : Nat} (hi : st.q.Inv st.results.length)
    (hl : (dget st.q.futures tw).isSome) (hnt : nt0 ≤ st.q.nextTs)
    (h : st.q.fork (some tw) = .ok (q', dep)) :
    Frame env a b tw nf0 nt0 st { st with q := q' } [] b ∧ dep = st.q.nextTs ∧
      q'.nextTs = st.q.nextTs + 1 ∧
      (dget q'.futures dep).isSome ∧ ∃ s, dget q'.forks tw = some s ∧ dep ∈ s := by
  have hinv := hi.fork hl h
  have hout := Queue.outstanding_fork hi h
  obtain ⟨s, hs⟩ := Option.isSome_iff_exists.1 ((hi.keys tw).1 hl)
  obtain ⟨st', hst⟩ := Option.isSome_iff_exists.1 hl
  have htw := hi.lt _ _ hst
  obtain ⟨q'', h1, h2, h3, h4, h5⟩ := Queue.fork_of_live hi hs
  obtain ⟨_, _, _, hfu, _⟩ := Queue.fork_ok hi.lt hi.keys h
  rw [h1] at h; simp at h; obtain ⟨rfl, rfl⟩ := h
  refine ⟨⟨hinv, ⟨[], by simp⟩, by simp [h2], ?_, ?_, ?_, ?_, ?_, by simp, by simp, ?_, ?_, rfl, ?_⟩,
    rfl, h2, ?_, ?_⟩
  · exact fun j wf h => ⟨wf, h, rfl, rfl, rfl, fun _ h => h⟩
  · intro t s' hs'
    have : t < st.q.nextTs := hi.lt _ _ hs'
    refine ⟨s', ?_, fun _ h => h, fun _ _ => rfl⟩
    simp only [h4]
    rw [if_neg (by omega)]; exact hs'
  · intro t s' hs'
    simp only [h5]
    by_cases e : tw = t
    · subst e
      rw [hs] at hs'; cases hs'
      rw [if_pos rfl]
      exact ⟨_, rfl, fun f hf => List.mem_append.2 (.inl hf), fun h => absurd rfl h⟩
    · rw [if_neg e]
      have : t < st.q.nextTs := by
        obtain ⟨x, hx⟩ := Option.isSome_iff_exists.1 ((hi.keys t).2 (by simp [hs']))
        exact hi.lt _ _ hx
      rw [if_neg (by omega)]
      exact ⟨s', hs', fun _ h => h, fun _ _ => rfl⟩
  · intro o; simp [Queue.cbs, h3]
  · simp [Queue.regs, h3]
  · exact outp_same rfl hout
  · simp only [hfu, h2]
    have := Queue.length_dset_le st.q.futures st.q.nextTs ([] : List Nat)
    omega
  · simp [h2, Nat.mul_add]; omega
  · simp [h4]
  · exact ⟨_, by rw [h5, if_pos rfl], by simp⟩

end Hiku
