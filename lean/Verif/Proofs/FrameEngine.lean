import Verif.Proofs.Frame

/-! Frames of the scheduling functions. -/

namespace Hiku

variable {env : Env} {a b tw nf0 nt0 : Nat}

/-! ### Stores only add cells -/

theorem isSome_dset {κ ν : Type} [DecidableEq κ] {d : List (κ × ν)} {k c : κ} {v : ν}
    (h : (dget d c).isSome) : (dget (dset d k v) c).isSome := by
  rw [dget_dset]; split <;> simp_all

theorem isSome_dupdate {κ ν : Type} [DecidableEq κ] {d : List (κ × ν)} {kvs : List (κ × ν)} {c : κ}
    (h : (dget d c).isSome) : (dget (dupdate d kvs) c).isSome := by
  induction kvs generalizing d with
  | nil => exact h
  | cons x r ih => rw [dupdate_cons]; exact ih (isSome_dset h)

theorem isSome_storeRows {idx : Index} {n : String} {names : List String} {l : List (Val × List Val)}
    {c : Cell} (h : (dget idx c).isSome) : (dget (storeRows idx n names l) c).isSome := by
  induction l generalizing idx with
  | nil => exact h
  | cons x r ih => obtain ⟨i, row⟩ := x; exact ih (isSome_dupdate h)

theorem storeFields_mono {H : PyHash} {idx idx' : Index} {gn : GNode} {qfs : List QItem}
    {ids : Option (List Val)} {r : Val} (h : storeFields H idx gn qfs ids r = .ok idx') {c : Cell}
    (hc : (dget idx c).isSome) : (dget idx' c).isSome := by
  simp only [storeFields, bind_ok_iff] at h
  obtain ⟨rows, _, h⟩ := h
  split at h
  · split at h
    · simp at h
    · simp at h; subst h; exact isSome_storeRows hc
  · split at h
    · simp at h
    · split at h
      · simp at h; subst h; exact isSome_dupdate hc
      · simp at h

theorem storeLinkRows_mono {idx idx' : Index} {n : String} {gl : GLink} {key : String}
    {l : List (Val × Val)} (h : storeLinkRows idx n gl key l = .ok idx') {c : Cell}
    (hc : (dget idx c).isSome) : (dget idx' c).isSome := by
  induction l generalizing idx with
  | nil => simp [storeLinkRows] at h; subst h; exact hc
  | cons x r ih =>
    obtain ⟨i, res⟩ := x
    simp only [storeLinkRows, bind_ok_iff] at h
    obtain ⟨v, _, h⟩ := h
    exact ih h (isSome_dset hc)

theorem storeLinks_mono {H : PyHash} {idx idx' : Index} {gn : GNode} {gl : GLink} {ql : QItem}
    {ids : Option (List Val)} {r : Val} (h : storeLinks H idx gn gl ql ids r = .ok idx') {c : Cell}
    (hc : (dget idx c).isSome) : (dget idx' c).isSome := by
  simp only [storeLinks, writeLinks, bind_ok_iff] at h
  obtain ⟨_, _, h⟩ := h
  split at h
  · split at h
    · simp at h
    · exact storeLinkRows_mono h hc
  · simp only [bind_ok_iff] at h
    obtain ⟨v, _, h⟩ := h
    simp at h; subst h; exact isSome_dset hc

/-! ### Sub-graph calls -/

/-- cost of requirements in the sub-graph `s` -/
def subReqCost (env : Env) (a b : Nat) (s : SubGraph) (reqs : QNode) : Nat :=
  match env.sys.graphs[s.graph]? with
  | none => 0
  | some g => (reqs.fields.map (costThis a b (costSub env.sys a b s.graph) g s.node)).sum

theorem costSub_eq {gi sg : Nat} {s : SubGraph} (hs : env.sys.subs[sg]? = some s) (hlt : s.graph < gi)
    (reqs : QNode) : costSub env.sys a b gi sg reqs = subReqCost env a b s reqs := by
  rw [costSub]
  simp only [hs, hlt, dif_pos, subReqCost]
  cases hh : env.sys.graphs[s.graph]? <;> simp [hh]

def checkedCost (env : Env) (a b : Nat) (s : SubGraph) (x : GItem × QItem) : Nat :=
  match checkedOf x.1 with
  | .ok r => subReqCost env a b s r.1
  | .error _ => 0

/-- the frame of sub-graph calls on graphs numbered below `n` -/
def SubFrame (env : Env) (a b n : Nat) (sub : SubCall) : Prop :=
  ∀ sg s, env.sys.subs[sg]? = some s → s.graph < n →
    ∀ items ids dep st st' src nf0 nt0, st.q.Inv st.results.length → (dget st.q.futures dep).isSome →
      nf0 ≤ st.results.length → nt0 ≤ dep → nt0 ≤ st.q.nextTs →
      sub sg items ids dep st = .ok (st', src) →
      ∃ new, Frame env a b dep nf0 nt0 st st' new ((items.map (checkedCost env a b s)).sum)

/-! ### Scheduling -/

/-- items of one call: not empty, all with the function `k` -/
def GroupOK (gn : GNode) (k : FKey) (items : List (GItem × QItem)) : Prop :=
  items ≠ [] ∧ ∀ x ∈ items, gn.get x.2.name = some x.1 ∧ x.1.fkey = k

theorem itemsCost_plain {sc : Nat → QNode → Nat} {gn : GNode} {f : PFunc}
    {items : List (GItem × QItem)} (h : GroupOK gn (.plain f) items) :
    a ≤ itemsCost a b sc items := by
  obtain ⟨hne, h⟩ := h
  cases items with
  | nil => exact absurd rfl hne
  | cons x r =>
    obtain ⟨_, hk⟩ := h x (by simp)
    have : costGItem a b sc x.1 = a := by
      cases hx : x.1 with
      | link gl => rfl
      | field gf =>
        rw [hx] at hk
        simp only [GItem.fkey] at hk
        simp only [costGItem, costField]
        cases hf : gf.func with
        | plain f => rfl
        | checked sg reqs proc => rw [hf] at hk; simp [Func.key] at hk
    simp [itemsCost, this]

theorem itemsCost_sub {gi : Nat} {g : Graph} {gn : GNode} {sg : Nat}
    (hsd : SubsDecrease env) (hg : env.sys.graphs[gi]? = some g) (hn : IsNode g gn)
    {items : List (GItem × QItem)} (h : GroupOK gn (.sub sg) items) :
    ∃ s, env.sys.subs[sg]? = some s ∧ s.graph < gi ∧
      b + (items.map (checkedCost env a b s)).sum ≤ itemsCost a b (costSub env.sys a b gi) items := by
  obtain ⟨hne, h⟩ := h
  have hx : ∀ x ∈ items, ∃ s, env.sys.subs[sg]? = some s ∧ s.graph < gi ∧
      b + checkedCost env a b s x = costGItem a b (costSub env.sys a b gi) x.1 := by
    intro x hx
    obtain ⟨hget, hk⟩ := h x hx
    cases hxi : x.1 with
    | link gl => rw [hxi] at hk; simp [GItem.fkey] at hk
    | field gf =>
      rw [hxi] at hk hget
      simp only [GItem.fkey] at hk
      cases hf : gf.func with
      | plain f => rw [hf] at hk; simp [Func.key] at hk
      | checked sg' reqs proc =>
        rw [hf] at hk; simp [Func.key] at hk; subst hk
        obtain ⟨s, hs, hlt⟩ := hsd gi g hg gn hn _ gf hget _ _ _ hf
        refine ⟨s, hs, hlt, ?_⟩
        obtain ⟨nm, ty, fn, op, ds⟩ := gf
        simp only at hf; subst hf
        simp only [checkedCost, hxi, checkedOf, costGItem, costField, costSub_eq hs hlt]
  cases items with
  | nil => exact absurd rfl hne
  | cons x r =>
    obtain ⟨s, hs, hlt, hc⟩ := hx x (by simp)
    refine ⟨s, hs, hlt, ?_⟩
    have hr : (r.map (checkedCost env a b s)).sum ≤
        (r.map fun x => costGItem a b (costSub env.sys a b gi) x.1).sum := by
      apply sum_map_le
      intro y hy
      obtain ⟨s', hs', _, hc'⟩ := hx y (by simp [hy])
      rw [hs] at hs'; cases hs'
      omega
    simp only [itemsCost, List.map_cons, List.sum_cons]
    omega

section
variable {w : Nat} {wf : Wf} {g : Graph} {gn : GNode} {sub : SubCall} {n : Nat}

theorem frame_scheduleFields (hsd : SubsDecrease env) (hsub : SubFrame env a b n sub)
    {k : FKey} {items : List (GItem × QItem)} {ids : Option (List Val)} {st st' : St} {o : Obj}
    (hi : st.q.Inv st.results.length) (hw : st.wfs[w]? = some wf) (ht : wf.ts = tw)
    (hl : (dget st.q.futures tw).isSome) (hg : env.sys.graphs[wf.graph]? = some g)
    (hgn : wf.graph ≤ n) (hn : IsNode g gn) (hit : GroupOK gn k items)
    (hnf : nf0 ≤ st.results.length) (hnt : nt0 ≤ st.q.nextTs)
    (h : scheduleFields env sub w gn k items ids st = .ok (st', o)) :
    (∃ new, Frame env a b tw nf0 nt0 st st' new
      (itemsCost a b (costSub env.sys a b wf.graph) items)) ∧ freshObj nf0 nt0 o ∧ Waits st' tw o := by
  unfold scheduleFields at h
  cases k with
  | sub sg =>
    simp only at h
    split at h
    · simp at h
    · rename_i ids'
      simp only [hw, bind_ok_iff] at h
      obtain ⟨⟨q', dep⟩, hfork, ⟨st1, src⟩, hs, h⟩ := h
      rw [ht] at hfork
      simp at h
      obtain ⟨rfl, rfl⟩ := h
      obtain ⟨f1, hdep, hq', hdl, hdk⟩ := frame_fork (env := env) (a := a) (b := b) (nf0 := nf0) hi hl hnt hfork
      obtain ⟨s, hsg, hlt, hcost⟩ := itemsCost_sub (a := a) (b := b) hsd hg hn hit
      have hdn : nt0 ≤ dep := by omega
      obtain ⟨new, f2⟩ := hsub sg s hsg (by omega) items ids' dep _ st1 src nf0 nt0 f1.inv hdl
        hnf hdn (by simp [hq']; omega) hs
      have f3 := f1.trans (f2.inner (tw := tw) hdn)
      obtain ⟨wf', hw', e1, e2, e3⟩ := f3.wfAt hw
      have hwt : Waits st1 tw (.ts dep) :=
        Waits.frame f2 (o := .ts dep) (by obtain ⟨s, h1, h2⟩ := hdk; exact ⟨s, h1, h2⟩)
      have hloc : Loc env st1 (.ts dep) (.store w gn (items.map (·.2)) (some ids') src) :=
        ⟨wf', hw', ⟨g, by rw [e1]; exact hg, trivial⟩, by rw [e3, ht]; exact hwt⟩
      have f4 := frame_addCB (env := env) (a := a) (b := b) (tw := tw) (nf0 := nf0) (nt0 := nt0)
        f3.inv (o := .ts dep) hdn hloc
      refine ⟨⟨_, (f3.trans f4).weaken ?_⟩, hdn, hwt.frame f4⟩
      have : cbCost env a b st1.wfs (.store w gn (items.map (·.2)) (some ids') src) = 0 := by
        have : (CB.store w gn (items.map (·.2)) (some ids') src).wf = w := rfl
        simp only [cbCost, this, hw', cbCostG]
        split <;> rfl
      rw [this]
      omega
  | plain f =>
    simp only [bind_ok_iff] at h
    obtain ⟨⟨st1, fut⟩, hs, h⟩ := h
    simp at h
    obtain ⟨rfl, rfl⟩ := h
    obtain ⟨f1, hfut, hwfs, hres, hin⟩ :=
      frame_submit (env := env) (a := a) (b := b) (nf0 := nf0) (nt0 := nt0) hi hw ht hs
    have hw1 : st1.wfs[w]? = some wf := by rw [hwfs]; exact hw
    have hwt : Waits st1 tw (.fut fut) := hin
    have hloc : Loc env st1 (.fut fut) (.store w gn (items.map (·.2)) ids (.fut fut)) :=
      ⟨wf, hw1, ⟨g, hg, trivial⟩, by rw [ht]; exact hwt⟩
    have hfr : freshObj nf0 nt0 (.fut fut) := by simp only [freshObj]; omega
    have f4 := frame_addCB (env := env) (a := a) (b := b) (tw := tw) (nf0 := nf0) (nt0 := nt0)
      f1.inv hfr hloc
    refine ⟨⟨_, (f1.trans f4).weaken ?_⟩, hfr, hwt.frame f4⟩
    have : cbCost env a b st1.wfs (.store w gn (items.map (·.2)) ids (.fut fut)) = 0 := by
      have : (CB.store w gn (items.map (·.2)) ids (.fut fut)).wf = w := rfl
      simp only [cbCost, this, hw1, cbCostG]
      split <;> rfl
    rw [this]
    have := itemsCost_plain (a := a) (b := b) (sc := costSub env.sys a b wf.graph) hit
    omega

theorem frame_scheduleLink {gl : GLink} {ql : QItem} {ids : Option (List Val)} {st st' : St} {o : Obj}
    (hi : st.q.Inv st.results.length) (hw : st.wfs[w]? = some wf) (ht : wf.ts = tw)
    (hg : env.sys.graphs[wf.graph]? = some g)
    (hnf : nf0 ≤ st.results.length)
    (h : scheduleLink env w gn gl ql ids st = .ok (st', o)) :
    (∃ new, Frame env a b tw nf0 nt0 st st' new
      (a + linkCost a b (costSub env.sys a b wf.graph) g gl ql)) ∧ freshObj nf0 nt0 o ∧
      Waits st' tw o := by
  simp only [scheduleLink, hw, bind_ok_iff] at h
  obtain ⟨reqArgs, _, ⟨st1, fut⟩, hs, h⟩ := h
  simp at h
  obtain ⟨rfl, rfl⟩ := h
  obtain ⟨f1, hfut, hwfs, hres, hin⟩ :=
    frame_submit (env := env) (a := a) (b := b) (nf0 := nf0) (nt0 := nt0) hi hw ht hs
  have hw1 : st1.wfs[w]? = some wf := by rw [hwfs]; exact hw
  have hwt : Waits st1 tw (.fut fut) := hin
  have hloc : Loc env st1 (.fut fut) (.procLink w gn gl ql ids fut) :=
    ⟨wf, hw1, ⟨g, hg, trivial⟩, by rw [ht]; exact hwt⟩
  have hfr : freshObj nf0 nt0 (.fut fut) := by simp only [freshObj]; omega
  have f4 := frame_addCB (env := env) (a := a) (b := b) (tw := tw) (nf0 := nf0) (nt0 := nt0)
    f1.inv hfr hloc
  refine ⟨⟨_, (f1.trans f4).weaken ?_⟩, hfr, hwt.frame f4⟩
  have : cbCost env a b st1.wfs (.procLink w gn gl ql ids fut) =
      linkCost a b (costSub env.sys a b wf.graph) g gl ql := by
    have : (CB.procLink w gn gl ql ids fut).wf = w := rfl
    simp only [cbCost, this, hw1, cbCostG, hg]
  rw [this]
  omega

theorem frame_runSteps (hsd : SubsDecrease env) (hsub : SubFrame env a b n sub)
    {steps : List Step} {ids : Option (List Val)} {st st' : St}
    (hi : st.q.Inv st.results.length) (hw : st.wfs[w]? = some wf) (ht : wf.ts = tw)
    (hl : (dget st.q.futures tw).isSome) (hg : env.sys.graphs[wf.graph]? = some g)
    (hgn : wf.graph ≤ n) (hn : IsNode g gn) (hst : ∀ s ∈ steps, StepOK gn s)
    (hnf : nf0 ≤ st.results.length) (hnt : nt0 ≤ st.q.nextTs)
    (h : runSteps env sub w gn ids steps st = .ok st') :
    ∃ new, Frame env a b tw nf0 nt0 st st' new
      ((steps.map (stepCost a b (costSub env.sys a b wf.graph) g)).sum) := by
  cases steps with
  | nil => simp [runSteps] at h; subst h; exact ⟨[], Frame.refl hi⟩
  | cons step rest =>
    simp only [runSteps, bind_ok_iff] at h
    obtain ⟨⟨st1, o⟩, hs, h⟩ := h
    simp at h
    have key : (∃ new, Frame env a b tw nf0 nt0 st st1 new
        (stepCost a b (costSub env.sys a b wf.graph) g step)) ∧ freshObj nf0 nt0 o ∧ Waits st1 tw o := by
      cases step with
      | fields k items =>
        exact frame_scheduleFields hsd hsub hi hw ht hl hg hgn hn (hst (.fields k items) (by simp)) hnf hnt hs
      | link gl ql => exact frame_scheduleLink hi hw ht hg hnf hs
    obtain ⟨⟨new, f1⟩, hfr, hwt⟩ := key
    split at h
    · rename_i he
      subst h
      exact ⟨new, f1.weaken (by simp)⟩
    · subst h
      obtain ⟨wf', hw', e1, e2, e3⟩ := f1.wfAt hw
      have hloc : Loc env st1 o (.procSteps w gn ids rest) :=
        ⟨wf', hw', ⟨g, by rw [e1]; exact hg, hn, fun s hs => hst s (by simp [hs])⟩,
          by rw [e3, ht]; exact hwt⟩
      have f2 := frame_addCB (env := env) (a := a) (b := b) (tw := tw) (nf0 := nf0) (nt0 := nt0)
        f1.inv hfr hloc
      refine ⟨_, (f1.trans f2).weaken ?_⟩
      have : cbCost env a b st1.wfs (.procSteps w gn ids rest) =
          (rest.map (stepCost a b (costSub env.sys a b wf.graph) g)).sum := by
        have : (CB.procSteps w gn ids rest).wf = w := rfl
        simp only [cbCost, this, hw', cbCostG, e1, hg]
      rw [this]; simp

theorem frame_scheduleGroups (hsd : SubsDecrease env) (hsub : SubFrame env a b n sub)
    {groups : List (FKey × List (GItem × QItem))} {ids : Option (List Val)} {st st' : St}
    {deps : List (FKey × Obj)}
    (hi : st.q.Inv st.results.length) (hw : st.wfs[w]? = some wf) (ht : wf.ts = tw)
    (hl : (dget st.q.futures tw).isSome) (hg : env.sys.graphs[wf.graph]? = some g)
    (hgn : wf.graph ≤ n) (hn : IsNode g gn) (hit : ∀ x ∈ groups, GroupOK gn x.1 x.2)
    (hnf : nf0 ≤ st.results.length) (hnt : nt0 ≤ st.q.nextTs)
    (h : scheduleGroups env sub w gn ids groups st = .ok (st', deps)) :
    (∃ new, Frame env a b tw nf0 nt0 st st' new
      ((groups.map fun x => itemsCost a b (costSub env.sys a b wf.graph) x.2).sum)) ∧
    ∀ x ∈ deps, freshObj nf0 nt0 x.2 ∧ Waits st' tw x.2 := by
  induction groups generalizing st wf deps with
  | nil =>
    simp [scheduleGroups] at h
    obtain ⟨rfl, rfl⟩ := h
    exact ⟨⟨[], Frame.refl hi⟩, by simp⟩
  | cons x r ih =>
    obtain ⟨k, items⟩ := x
    simp only [scheduleGroups, bind_ok_iff] at h
    obtain ⟨⟨st1, o⟩, hs, ⟨st2, deps'⟩, hr, h⟩ := h
    simp at h
    obtain ⟨rfl, rfl⟩ := h
    obtain ⟨⟨n1, f1⟩, hfr, hwt⟩ :=
      frame_scheduleFields hsd hsub hi hw ht hl hg hgn hn (hit (k, items) (by simp)) hnf hnt hs
    obtain ⟨wf', hw', e1, e2, e3⟩ := f1.wfAt hw
    have hrl := f1.results_le
    have hnl := f1.nts
    obtain ⟨⟨n2, f2⟩, hd⟩ := ih (wf := wf') f1.inv hw' (by rw [e3]; exact ht) (f1.isLive hl)
      (by rw [e1]; exact hg) (by omega) (fun x hx => hit x (by simp [hx])) (by omega) (by omega) hr
    rw [e1] at f2
    refine ⟨⟨_, (f1.trans f2).weaken (by simp)⟩, ?_⟩
    intro y hy
    rcases List.mem_cons.1 hy with rfl | hy
    · exact ⟨hfr, hwt.frame f2⟩
    · exact hd y hy

theorem frame_scheduleLinks {links : List (GLink × QItem)} {ids : Option (List Val)} {st st' : St}
    {toFunc : List (String × FKey)} {toDep : List (FKey × Obj)}
    (hi : st.q.Inv st.results.length) (hw : st.wfs[w]? = some wf) (ht : wf.ts = tw)
    (hg : env.sys.graphs[wf.graph]? = some g)
    (hd : ∀ x ∈ toDep, freshObj nf0 nt0 x.2 ∧ Waits st tw x.2)
    (hnf : nf0 ≤ st.results.length)
    (h : scheduleLinks env w gn ids toFunc toDep links st = .ok st') :
    ∃ new, Frame env a b tw nf0 nt0 st st' new
      ((links.map fun x => a + linkCost a b (costSub env.sys a b wf.graph) g x.1 x.2).sum) := by
  induction links generalizing st wf with
  | nil => simp [scheduleLinks] at h; subst h; exact ⟨[], Frame.refl hi⟩
  | cons x r ih =>
    obtain ⟨gl, ql⟩ := x
    simp only [scheduleLinks] at h
    split at h
    · split at h
      · simp at h
      · split at h
        · simp at h
        · rename_i o ho
          obtain ⟨hfr, hwt⟩ := hd _ (dget_mem ho)
          have hloc : Loc env st o (.schedLink w gn gl ql ids) := ⟨wf, hw, ⟨g, hg, trivial⟩, by rw [ht]; exact hwt⟩
          have f1 := frame_addCB (env := env) (a := a) (b := b) (tw := tw) (nf0 := nf0) (nt0 := nt0)
            hi hfr hloc
          have : cbCost env a b st.wfs (.schedLink w gn gl ql ids) =
              a + linkCost a b (costSub env.sys a b wf.graph) g gl ql := by
            have : (CB.schedLink w gn gl ql ids).wf = w := rfl
            simp only [cbCost, this, hw, cbCostG, hg]
          rw [this] at f1
          obtain ⟨n2, f2⟩ := ih (wf := wf) f1.inv hw ht hg
            (fun y hy => ⟨(hd y hy).1, (hd y hy).2.frame f1⟩) hnf h
          exact ⟨_, (f1.trans f2).weaken (by simp)⟩
    · simp only [bind_ok_iff] at h
      obtain ⟨⟨st1, o⟩, hs, h⟩ := h
      obtain ⟨⟨n1, f1⟩, _, _⟩ := frame_scheduleLink (a := a) (b := b) (nf0 := nf0) (nt0 := nt0) hi hw ht hg hnf hs
      obtain ⟨wf', hw', e1, e2, e3⟩ := f1.wfAt hw
      have hrl := f1.results_le
      obtain ⟨n2, f2⟩ := ih (wf := wf') f1.inv hw' (by rw [e3]; exact ht) (by rw [e1]; exact hg)
        (fun y hy => ⟨(hd y hy).1, (hd y hy).2.frame f1⟩) (by omega) h
      rw [e1] at f2
      exact ⟨_, (f1.trans f2).weaken (by simp)⟩

/-! ### Splitting and grouping -/

/-- a field with its function, as found in the node -/
def FieldOK (gn : GNode) (f : FKey × GItem × QItem) : Prop :=
  gn.get f.2.2.name = some f.2.1 ∧ f.2.1.fkey = f.1

def LinkOK (gn : GNode) (x : GLink × QItem) : Prop :=
  ∃ nm q o al, x.2 = .link nm q o al ∧ gn.get nm = some (.link x.1)

theorem splitField_ok {name : String} {q : QItem} {f : FKey × GItem × QItem} (hq : q.name = name)
    (h : splitField gn name q = .ok f) : FieldOK gn f ∧ f.2.2 = q := by
  unfold splitField at h
  split at h
  · simp at h
  · rename_i gf hg; simp at h; subst h; exact ⟨⟨by simpa [hq] using hg, rfl⟩, rfl⟩
  · rename_i gl hg; simp at h; subst h; exact ⟨⟨by simpa [hq] using hg, rfl⟩, rfl⟩

theorem splitField_cost {sc : Nat → QNode → Nat} {name : String} {q : QItem} {f : FKey × GItem × QItem}
    (h : splitField gn name q = .ok f) : costGItem a b sc f.2.1 = costName a b sc gn name := by
  unfold splitField at h
  simp only [costName]
  split at h
  · simp at h
  · rename_i gf hg; simp at h; subst h; simp [hg]
  · rename_i gl hg; simp at h; subst h; simp [hg]

theorem costItem_link {sc : Nat → QNode → Nat} {gl : GLink} {nm : String} {q : QNode} {o : Opts}
    {al : Option String} (h : gn.get nm = some (.link gl)) :
    costItem a b sc g gn (.link nm q o al) =
      costReq a b sc gn gl + a + linkCost a b sc g gl (.link nm q o al) := by
  simp only [costItem, h, linkCost]
  cases hh : g.node gl.node <;> simp [hh]

theorem splitItems_ok {sc : Nat → QNode → Nat} {l : List QItem}
    {fs : List (FKey × GItem × QItem)} {ls : List (GLink × QItem)}
    (h : splitItems gn l = .ok (fs, ls)) :
    (∀ f ∈ fs, FieldOK gn f) ∧ (∀ x ∈ ls, LinkOK gn x) ∧
    (fs.map fun f => costGItem a b sc f.2.1).sum +
      (ls.map fun x => a + linkCost a b sc g x.1 x.2).sum = costItems a b sc g gn l := by
  induction l generalizing fs ls with
  | nil => simp [splitItems] at h; obtain ⟨rfl, rfl⟩ := h; simp [costItems]
  | cons i r ih =>
    cases i with
    | field nm o al =>
      simp only [splitItems, bind_ok_iff] at h
      obtain ⟨f, hf, ⟨fs', ls'⟩, hr, h⟩ := h
      simp at h; obtain ⟨rfl, rfl⟩ := h
      obtain ⟨h1, h2, h3⟩ := ih hr
      have hfo := (splitField_ok (by rfl) hf).1
      have hfc := splitField_cost (a := a) (b := b) (sc := sc) hf
      refine ⟨?_, h2, ?_⟩
      · intro f' hf'
        rcases List.mem_cons.1 hf' with rfl | hf'
        · exact hfo
        · exact h1 f' hf'
      · simp only [List.map_cons, List.sum_cons, hfc, costItems, costItem]; omega
    | link nm q o al =>
      simp only [splitItems] at h
      split at h
      · simp at h
      · rename_i gl hg
        simp only [bind_ok_iff] at h
        obtain ⟨pre, hpre, ⟨fs', ls'⟩, hr, h⟩ := h
        simp at h; obtain ⟨rfl, rfl⟩ := h
        obtain ⟨h1, h2, h3⟩ := ih hr
        have hpre' : (∀ f ∈ pre, FieldOK gn f) ∧
            (pre.map fun f => costGItem a b sc f.2.1).sum = costReq a b sc gn gl := by
          simp only [costReq]
          split at hpre
          · rename_i hq
            simp only [bind_ok_iff] at hpre
            obtain ⟨f, hf, hp⟩ := hpre
            simp at hp; subst hp
            have hfo := (splitField_ok (by rfl) hf).1
            have hfc := splitField_cost (a := a) (b := b) (sc := sc) hf
            exact ⟨by simpa using hfo, by simp [hfc, hq]⟩
          · rename_i hq
            simp at hpre; subst hpre
            simp [hq]
        refine ⟨?_, ?_, ?_⟩
        · intro f hf
          rcases List.mem_append.1 hf with hf | hf
          · exact hpre'.1 f hf
          · exact h1 f hf
        · intro x hx
          rcases List.mem_cons.1 hx with rfl | hx
          · exact ⟨nm, q, o, al, rfl, hg⟩
          · exact h2 x hx
        · simp only [List.map_append, List.sum_append, hpre'.2, List.map_cons, List.sum_cons,
            costItems, costItem_link hg]
          omega
      · rename_i gf hg
        simp only [bind_ok_iff] at h
        obtain ⟨⟨fs', ls'⟩, hr, h⟩ := h
        simp at h; obtain ⟨rfl, rfl⟩ := h
        obtain ⟨h1, h2, h3⟩ := ih hr
        refine ⟨?_, h2, ?_⟩
        · intro f hf
          rcases List.mem_cons.1 hf with rfl | hf
          · exact ⟨hg, rfl⟩
          · exact h1 f hf
        · have e1 : costGItem a b sc (.field gf) = costField a b sc gf := rfl
          simp only [List.map_cons, List.sum_cons, costItems, costItem, hg, e1]
          omega

theorem addToGroup_ok {sc : Nat → QNode → Nat} {k : FKey} {x : GItem × QItem}
    {gs : List (FKey × List (GItem × QItem))} (hx : gn.get x.2.name = some x.1 ∧ x.1.fkey = k)
    (h : ∀ y ∈ gs, GroupOK gn y.1 y.2) :
    (∀ y ∈ addToGroup k x gs, GroupOK gn y.1 y.2) ∧
    ((addToGroup k x gs).map fun y => itemsCost a b sc y.2).sum =
      (gs.map fun y => itemsCost a b sc y.2).sum + costGItem a b sc x.1 := by
  induction gs with
  | nil =>
    simp only [addToGroup]
    refine ⟨?_, by simp [itemsCost]⟩
    intro y hy
    simp at hy; subst hy
    exact ⟨by simp, by simpa using hx⟩
  | cons y r ih =>
    obtain ⟨k', xs⟩ := y
    simp only [addToGroup]
    split
    · rename_i e; subst e
      refine ⟨?_, by simp [itemsCost]; omega⟩
      intro y hy
      rcases List.mem_cons.1 hy with rfl | hy
      · obtain ⟨g1, g2⟩ := h (k', xs) (by simp)
        refine ⟨by simp, ?_⟩
        intro z hz
        rcases List.mem_append.1 hz with hz | hz
        · exact g2 z hz
        · simp at hz; subst hz; exact hx
      · exact h y (by simp [hy])
    · obtain ⟨i1, i2⟩ := ih fun y hy => h y (by simp [hy])
      refine ⟨?_, by simp [i2]; omega⟩
      intro y hy
      rcases List.mem_cons.1 hy with rfl | hy
      · exact h _ (by simp)
      · exact i1 y hy

theorem groupByFunc_ok {sc : Nat → QNode → Nat} {fs : List (FKey × GItem × QItem)}
    (h : ∀ f ∈ fs, FieldOK gn f) :
    (∀ y ∈ groupByFunc fs, GroupOK gn y.1 y.2) ∧
    ((groupByFunc fs).map fun y => itemsCost a b sc y.2).sum =
      (fs.map fun f => costGItem a b sc f.2.1).sum := by
  have gen : ∀ (fs : List (FKey × GItem × QItem)) acc, (∀ f ∈ fs, FieldOK gn f) →
      (∀ y ∈ acc, GroupOK gn y.1 y.2) →
      (∀ y ∈ fs.foldl (fun acc f => addToGroup f.1 (f.2.1, f.2.2) acc) acc, GroupOK gn y.1 y.2) ∧
      ((fs.foldl (fun acc f => addToGroup f.1 (f.2.1, f.2.2) acc) acc).map
        fun y => itemsCost a b sc y.2).sum =
        (acc.map fun y => itemsCost a b sc y.2).sum + (fs.map fun f => costGItem a b sc f.2.1).sum := by
    intro fs
    induction fs with
    | nil => intro acc _ ha; exact ⟨ha, by simp⟩
    | cons f r ih =>
      intro acc hf ha
      obtain ⟨i1, i2⟩ := addToGroup_ok (a := a) (b := b) (sc := sc) (k := f.1) (x := (f.2.1, f.2.2))
        (hf f (by simp)) ha
      obtain ⟨j1, j2⟩ := ih _ (fun f hf' => hf f (by simp [hf'])) i1
      refine ⟨j1, ?_⟩
      simp only [List.foldl_cons, j2, i2, List.map_cons, List.sum_cons]
      omega
  have := gen fs [] h (by simp)
  simpa [groupByFunc] using this

/-- invariant of `GroupQuery`: the last step is a group with the current function -/
theorem groupField_ok {sc : Nat → QNode → Nat} {steps : List Step} {cur : Option FKey} {k : FKey}
    {gi : GItem} {q : QItem} (hs : ∀ s ∈ steps, StepOK gn s)
    (hc : ∀ k', cur = some k' → ∃ items, steps.getLast? = some (.fields k' items))
    (hx : gn.get q.name = some gi ∧ gi.fkey = k) :
    (∀ s ∈ groupField steps cur k gi q, StepOK gn s) ∧
    (∃ items, (groupField steps cur k gi q).getLast? = some (.fields k items)) ∧
    ((groupField steps cur k gi q).map (stepCost a b sc g)).sum =
      (steps.map (stepCost a b sc g)).sum + costGItem a b sc gi := by
  unfold groupField
  have new : (∀ s ∈ steps ++ [Step.fields k [(gi, q)]], StepOK gn s) ∧
      (∃ items, (steps ++ [Step.fields k [(gi, q)]]).getLast? = some (.fields k items)) ∧
      ((steps ++ [Step.fields k [(gi, q)]]).map (stepCost a b sc g)).sum =
      (steps.map (stepCost a b sc g)).sum + costGItem a b sc gi := by
    refine ⟨?_, by simp, by simp [stepCost, itemsCost]⟩
    intro s hs'
    rcases List.mem_append.1 hs' with hs' | hs'
    · exact hs s hs'
    · simp at hs'; subst hs'; exact ⟨by simp, by simpa using hx⟩
  split
  · rename_i he
    obtain ⟨items, hl⟩ := hc k he
    rw [hl]
    have hdec : steps = steps.dropLast ++ [.fields k items] := by
      rw [List.getLast?_eq_some_iff] at hl
      obtain ⟨ys, rfl⟩ := hl; simp
    refine ⟨?_, by simp, ?_⟩
    · intro s hs'
      rcases List.mem_append.1 hs' with hs' | hs'
      · exact hs s (by rw [hdec]; simp [hs'])
      · simp at hs'; subst hs'
        obtain ⟨_, g2⟩ := hs (.fields k items) (by rw [hdec]; simp)
        refine ⟨by simp, ?_⟩
        intro z hz
        rcases List.mem_append.1 hz with hz | hz
        · exact g2 z hz
        · simp at hz; subst hz; exact hx
    · conv => rhs; rw [hdec]
      simp [stepCost, itemsCost]; omega
  · exact new

theorem groupItems_ok {sc : Nat → QNode → Nat} {l : List QItem} {steps steps' : List Step}
    {cur : Option FKey} (hs : ∀ s ∈ steps, StepOK gn s)
    (hc : ∀ k', cur = some k' → ∃ items, steps.getLast? = some (.fields k' items))
    (h : groupItems gn steps cur l = .ok steps') :
    (∀ s ∈ steps', StepOK gn s) ∧
    (steps'.map (stepCost a b sc g)).sum =
      (steps.map (stepCost a b sc g)).sum + costItems a b sc g gn l := by
  induction l generalizing steps cur with
  | nil => simp [groupItems] at h; subst h; exact ⟨hs, by simp [costItems]⟩
  | cons i r ih =>
    cases i with
    | field nm o al =>
      simp only [groupItems, bind_ok_iff] at h
      obtain ⟨⟨k, gi, q⟩, hf, h⟩ := h
      obtain ⟨hfo, _⟩ := splitField_ok (by rfl) hf
      have hfc := splitField_cost (a := a) (b := b) (sc := sc) hf
      obtain ⟨i1, i2, i3⟩ := groupField_ok (a := a) (b := b) (sc := sc) (g := g) hs hc hfo
      obtain ⟨j1, j2⟩ := ih i1 (by rintro k' ⟨⟩; exact i2) h
      simp only at hfc
      refine ⟨j1, ?_⟩
      rw [j2, i3]; simp [costItems, costItem, hfc]; omega
    | link nm q o al =>
      simp only [groupItems] at h
      split at h
      · simp at h
      · simp at h
      · rename_i gl hg
        simp only [bind_ok_iff] at h
        obtain ⟨steps1, hs1, h⟩ := h
        have key : (∀ s ∈ steps1, StepOK gn s) ∧ (steps1.map (stepCost a b sc g)).sum =
            (steps.map (stepCost a b sc g)).sum + costReq a b sc gn gl := by
          simp only [costReq]
          split at hs1
          · rename_i hq
            simp only [bind_ok_iff] at hs1
            obtain ⟨⟨k, gi, f⟩, hf, hp⟩ := hs1
            simp at hp; subst hp
            obtain ⟨hfo, _⟩ := splitField_ok (by rfl) hf
            have hfc := splitField_cost (a := a) (b := b) (sc := sc) hf
            obtain ⟨i1, i2, i3⟩ := groupField_ok (a := a) (b := b) (sc := sc) (g := g) hs hc hfo
            simp only at hfc
            exact ⟨i1, by rw [i3]; simp [hfc, hq]⟩
          · rename_i hq
            simp at hs1; subst hs1
            exact ⟨hs, by simp [hq]⟩
        obtain ⟨j1, j2⟩ := ih (steps := steps1 ++ [.link gl (.link nm q o al)]) (cur := none)
          (by
            intro s hs'
            rcases List.mem_append.1 hs' with hs' | hs'
            · exact key.1 s hs'
            · simp at hs'; subst hs'; exact ⟨nm, q, o, al, rfl, hg⟩) (by simp) h
        refine ⟨j1, ?_⟩
        rw [j2, List.map_append, List.sum_append, key.2]
        simp only [costItems, costItem_link hg, List.map_cons, List.map_nil, stepCost,
          List.sum_cons, List.sum_nil]
        omega

/-! ### Nodes, links, sub-graphs -/

theorem frame_processNode (hsd : SubsDecrease env) (hsub : SubFrame env a b n sub)
    {q : QNode} {ids : Option (List Val)} {st st' : St}
    (hi : st.q.Inv st.results.length) (hw : st.wfs[w]? = some wf) (ht : wf.ts = tw)
    (hl : (dget st.q.futures tw).isSome) (hg : env.sys.graphs[wf.graph]? = some g)
    (hgn : wf.graph ≤ n) (hn : IsNode g gn)
    (hnf : nf0 ≤ st.results.length) (hnt : nt0 ≤ st.q.nextTs)
    (h : processNode env sub w gn q ids st = .ok st') :
    ∃ new, Frame env a b tw nf0 nt0 st st' new
      (costNode a b (costSub env.sys a b wf.graph) g gn q) := by
  unfold processNode at h
  have hcn : costNode a b (costSub env.sys a b wf.graph) g gn q =
      costItems a b (costSub env.sys a b wf.graph) g gn q.fields := by
    obtain ⟨fs, ord⟩ := q; simp only [costNode, QNode.fields]
  rw [hcn]
  by_cases ho : q.ordered = true
  · rw [if_pos ho] at h
    simp only [bind_ok_iff] at h
    obtain ⟨steps, hs, h⟩ := h
    obtain ⟨h1, h2⟩ := groupItems_ok (a := a) (b := b) (sc := costSub env.sys a b wf.graph) (g := g)
      (by simp) (by simp) hs
    obtain ⟨new, f⟩ := frame_runSteps hsd hsub hi hw ht hl hg hgn hn h1 hnf hnt h
    exact ⟨new, f.weaken (by rw [h2]; simp)⟩
  · rw [if_neg ho] at h
    simp only [bind_ok_iff] at h
    obtain ⟨⟨fields, links⟩, hs, ⟨st1, toDep⟩, hgr, h⟩ := h
    obtain ⟨h1, h2, h3⟩ := splitItems_ok (a := a) (b := b) (sc := costSub env.sys a b wf.graph) (g := g) hs
    obtain ⟨g1, g2⟩ := groupByFunc_ok (a := a) (b := b) (sc := costSub env.sys a b wf.graph) h1
    obtain ⟨⟨n1, f1⟩, hd⟩ := frame_scheduleGroups hsd hsub hi hw ht hl hg hgn hn g1 hnf hnt hgr
    obtain ⟨wf', hw', e1, e2, e3⟩ := f1.wfAt hw
    have hrl := f1.results_le
    obtain ⟨n2, f2⟩ := frame_scheduleLinks (a := a) (b := b) (wf := wf') f1.inv hw' (by rw [e3]; exact ht)
      (by rw [e1]; exact hg) hd (by omega) h
    rw [e1] at f2
    exact ⟨_, (f1.trans f2).weaken (by simp only []; omega)⟩

theorem isNode_of_node {s : String} {t : GNode} (h : g.node s = some t) : IsNode g t := .inr ⟨s, h⟩

theorem frame_processLink (hsd : SubsDecrease env) (hsub : SubFrame env a b n sub)
    {gl : GLink} {ql : QItem} {ids : Option (List Val)} {result : Val} {st st' : St}
    (hi : st.q.Inv st.results.length) (hw : st.wfs[w]? = some wf) (ht : wf.ts = tw)
    (hl : (dget st.q.futures tw).isSome) (hg : env.sys.graphs[wf.graph]? = some g)
    (hgn : wf.graph ≤ n)
    (hnf : nf0 ≤ st.results.length) (hnt : nt0 ≤ st.q.nextTs)
    (h : processLink env sub w gn gl ql ids result st = .ok st') :
    ∃ new, Frame env a b tw nf0 nt0 st st' new
      (linkCost a b (costSub env.sys a b wf.graph) g gl ql) := by
  simp only [processLink, hw, bind_ok_iff] at h
  obtain ⟨idx, hidx, toIds, _, h⟩ := h
  have f1 := frame_setIndex (env := env) (a := a) (b := b) (tw := tw) (nf0 := nf0) (nt0 := nt0)
    (idx := idx) hi hw (fun c hc => storeLinks_mono hidx hc)
  split at h
  · simp at h; subst h
    exact ⟨_, f1.weaken (by omega)⟩
  · rw [hg] at h
    simp only at h
    split at h
    · simp at h
    · simp at h
    · rename_i t q hgt
      obtain ⟨wf', hw', e1, e2, e3⟩ := f1.wfAt hw
      obtain ⟨n2, f2⟩ := frame_processNode (a := a) (b := b) (nf0 := nf0) (nt0 := nt0) hsd hsub f1.inv hw' (by rw [e3]; exact ht) (f1.isLive hl)
        (by rw [e1]; exact hg) (by omega) (isNode_of_node hgt) hnf hnt h
      rw [e1] at f2
      exact ⟨_, (f1.trans f2).weaken (by simp [linkCost, hgt])⟩

end

theorem mem_of_dget_fieldsMap {q : QNode} {k : String} {i : QItem}
    (h : dget q.fieldsMap k = some i) : i ∈ q.fields ∧ i.name = k := by
  have := dget_mem h
  simp only [QNode.fieldsMap, dmk] at this
  have gen : ∀ (l : List (String × QItem)) d, (k, i) ∈ dupdate d l → (k, i) ∈ d ∨ (k, i) ∈ l := by
    intro l
    induction l with
    | nil => intro d h; exact .inl h
    | cons x r ih =>
      intro d h
      rw [dupdate_cons] at h
      rcases ih _ h with h | h
      · have : ∀ d : List (String × QItem), (k, i) ∈ dset d x.1 x.2 → (k, i) ∈ d ∨ (k, i) = x := by
          intro d
          induction d with
          | nil => intro h; simp [dset] at h; right; exact Prod.ext h.1 h.2
          | cons y s ih' =>
            obtain ⟨y1, y2⟩ := y
            simp only [dset]
            split
            · intro h
              rcases List.mem_cons.1 h with h | h
              · right; exact h
              · left; simp [h]
            · intro h
              rcases List.mem_cons.1 h with h | h
              · left; simp [h]
              · rcases ih' h with h | h
                · left; simp [h]
                · right; exact h
        rcases this d h with h | h
        · exact .inl h
        · exact .inr (by simp [h])
      · exact .inr (by simp [h])
  rcases gen _ _ this with h | h
  · simp at h
  · obtain ⟨j, hj, he⟩ := List.mem_map.1 h
    simp at he
    obtain ⟨rfl, rfl⟩ := he
    exact ⟨hj, rfl⟩

theorem sum_mem_le {α : Type} {l : List α} {f : α → Nat} {x : α} (h : x ∈ l) : f x ≤ (l.map f).sum := by
  induction l with
  | nil => simp at h
  | cons y r ih =>
    rcases List.mem_cons.1 h with rfl | h
    · simp
    · have := ih h; simp; omega

theorem subFrame_subGraphCall (hsd : SubsDecrease env) {n : Nat} {inner : SubCall}
    (hin : SubFrame env a b n inner) : SubFrame env a b (n + 1) (subGraphCall env inner) := by
  intro sg s hs hlt items ids dep st st' src nf0 nt0 hi hl hnf hdn hnt h
  simp only [subGraphCall, hs] at h
  split at h
  · simp at h
  · rename_i g hg
    simp only [bind_ok_iff] at h
    obtain ⟨ch, hch, opts, hop, h⟩ := h
    split at h
    · simp at h
    · rename_i thisQ hthis
      simp only [bind_ok_iff] at h
      obtain ⟨st1, h1, st2, h2, h⟩ := h
      simp at h
      obtain ⟨rfl, rfl⟩ := h
      have f0 := frame_pushWf (env := env) (a := a) (b := b) (tw := dep) (nf0 := nf0) (nt0 := nt0)
        (wf := { graph := s.graph, query := merge env.H (ch.map (·.1)), ts := dep }) hi
      have hw0 : (st.wfs ++ [({ graph := s.graph, query := merge env.H (ch.map (·.1)), ts := dep } : Wf)])[st.wfs.length]? =
          some { graph := s.graph, query := merge env.H (ch.map (·.1)), ts := dep } := by simp
      obtain ⟨n1, f1⟩ := frame_processLink (tw := dep) (a := a) (b := b) (nf0 := nf0) (nt0 := nt0)
        hsd hin f0.inv hw0 rfl hl hg (by simp; omega) hnf hnt h1
      obtain ⟨wf1, hw1, e1, e2, e3⟩ := f1.wfAt hw0
      have hrl := f1.results_le
      have hnl := f1.nts
      obtain ⟨n2, f2⟩ := frame_processNode (tw := dep) (a := a) (b := b) (nf0 := nf0) (nt0 := nt0)
        hsd hin f1.inv hw1 e3 (f1.isLive hl) (by rw [e1]; exact hg)
        (by rw [e1]; simp; omega) (.inl rfl) (Nat.le_trans hnf hrl) (Nat.le_trans hnt hnl) h2
      rw [e1] at f2
      refine ⟨_, ((f0.trans f1).trans f2).weaken ?_⟩
      -- the cost of the merged requirements
      have hm := costThis_merge a b (costSub env.sys a b s.graph) env.H g s.node (ch.map (·.1))
      have hsum : ((ch.map (·.1)).map fun q =>
          (q.fields.map (costThis a b (costSub env.sys a b s.graph) g s.node)).sum).sum =
          (items.map (checkedCost env a b s)).sum := by
        rw [mapM_ok_iff] at hch
        clear h1 h2 hthis f0 f1 f2 hm hw0 hw1 e1 e2 e3 hrl hnl hop
        induction hch with
        | nil => rfl
        | @cons x y l l' hxy _ ih =>
          simp only [List.map_cons, List.sum_cons] at ih ⊢
          have e : checkedCost env a b s x =
              (y.1.fields.map (costThis a b (costSub env.sys a b s.graph) g s.node)).sum := by
            simp only [checkedCost, hxy, subReqCost, hg]
          rw [e, ih]
      rw [hsum] at hm
      obtain ⟨hmem, hname⟩ := mem_of_dget_fieldsMap hthis
      generalize merge env.H (ch.map (·.1)) = R at *
      have hpart := sum_filter_add R.fields (fun r => decide (r.name ≠ THIS))
        (costThis a b (costSub env.sys a b s.graph) g s.node)
      have hle := sum_mem_le (f := costThis a b (costSub env.sys a b s.graph) g s.node)
        (l := R.fields.filter fun r => !decide (r.name ≠ THIS)) (x := thisQ)
        (List.mem_filter.2 ⟨hmem, by simp [hname]⟩)
      have hthisc : costThis a b (costSub env.sys a b s.graph) g s.node thisQ =
          linkCost a b (costSub env.sys a b s.graph) g (thisLink s.node) thisQ := by
        cases thisQ with
        | field nm o al => simp [QItem.name] at hname; simp [costThis, hname, linkCost]
        | link nm q o al =>
          simp [QItem.name] at hname
          simp only [costThis, hname, linkCost, thisLink, if_true]
          cases hh : g.node s.node <;> simp [hh]
      have hother : ((R.fields.filter fun r => decide (r.name ≠ THIS)).map
          (costThis a b (costSub env.sys a b s.graph) g s.node)).sum =
          costNode a b (costSub env.sys a b s.graph) g g.root
            (.mk (R.fields.filter fun r => decide (r.name ≠ THIS)) false) := by
        rw [costNode_eq]
        congr 1
        apply List.map_congr_left
        intro r hr
        have hr2 : r.name ≠ THIS := of_decide_eq_true (List.mem_filter.1 hr).2
        cases r with
        | field nm o al => simp only [costThis]; exact if_neg hr2
        | link nm q o al => simp only [costThis]; exact if_neg hr2
      simp only [] at hother ⊢
      omega

theorem subFrame_zero {sub : SubCall} : SubFrame env a b 0 sub := by
  intro sg s _ h; omega

theorem SubFrame.mono {n m : Nat} {sub : SubCall} (h : SubFrame env a b n sub) (hm : m ≤ n) :
    SubFrame env a b m sub := fun sg s hs hlt => h sg s hs (by omega)

theorem subFrame_subCall (hsd : SubsDecrease env) : ∀ n, SubFrame env a b n (subCall env n)
  | 0 => subFrame_zero
  | n + 1 => subFrame_subGraphCall hsd (subFrame_subCall hsd n)

/-! ### Callbacks -/

theorem frame_runCB (hsd : SubsDecrease env) {cb : CB} {wf : Wf} {st st' : St}
    (hi : st.q.Inv st.results.length) (hw : st.wfs[cb.wf]? = some wf) (ht : wf.ts = tw)
    (hl : (dget st.q.futures tw).isSome) (hsc : Scoped env wf.graph cb)
    (hnf : nf0 ≤ st.results.length) (hnt : nt0 ≤ st.q.nextTs)
    (h : runCB env cb st = .ok st') :
    ∃ new, Frame env a b tw nf0 nt0 st st' new (cbCost env a b st.wfs cb) := by
  have hlev : ∀ g, env.sys.graphs[wf.graph]? = some g → wf.graph ≤ env.levels := by
    intro g hg
    have := (List.getElem?_eq_some_iff.1 hg).1
    simp only [Env.levels]; omega
  cases cb with
  | store w gn qfs ids src =>
    simp only [runCB, bind_ok_iff] at h
    obtain ⟨result, _, h⟩ := h
    have hw' : st.wfs[w]? = some wf := hw
    simp only [hw', bind_ok_iff] at h
    obtain ⟨idx, hidx, h⟩ := h
    simp at h; subst h
    exact ⟨_, (frame_setIndex hi hw' fun c hc => storeFields_mono hidx hc).weaken (by omega)⟩
  | schedLink w gn gl ql ids =>
    simp only [runCB, bind_ok_iff] at h
    obtain ⟨⟨st1, o⟩, hs, h⟩ := h
    simp at h; subst h
    have hw' : st.wfs[w]? = some wf := hw
    obtain ⟨g, hg, _⟩ := hsc
    obtain ⟨⟨new, f⟩, _⟩ := frame_scheduleLink (a := a) (b := b) (nf0 := nf0) (nt0 := nt0) hi hw' ht hg hnf hs
    refine ⟨new, f.weaken ?_⟩
    have : (CB.schedLink w gn gl ql ids).wf = w := rfl
    simp [cbCost, this, hw', cbCostG, hg]
  | procLink w gn gl ql ids fut =>
    simp only [runCB, bind_ok_iff] at h
    obtain ⟨result, _, h⟩ := h
    have hw' : st.wfs[w]? = some wf := hw
    obtain ⟨g, hg, _⟩ := hsc
    obtain ⟨new, f⟩ := frame_processLink (a := a) (b := b) (nf0 := nf0) (nt0 := nt0) hsd
      (subFrame_subCall hsd env.levels) hi hw' ht hl hg (hlev g hg) hnf hnt h
    refine ⟨new, f.weaken ?_⟩
    have : (CB.procLink w gn gl ql ids fut).wf = w := rfl
    simp [cbCost, this, hw', cbCostG, hg]
  | procSteps w gn ids steps =>
    simp only [runCB] at h
    have hw' : st.wfs[w]? = some wf := hw
    obtain ⟨g, hg, hn, hst⟩ := hsc
    obtain ⟨new, f⟩ := frame_runSteps (a := a) (b := b) (nf0 := nf0) (nt0 := nt0) hsd
      (subFrame_subCall hsd env.levels) hi hw' ht hl hg (hlev g hg) hn hst hnf hnt h
    refine ⟨new, f.weaken ?_⟩
    have : (CB.procSteps w gn ids steps).wf = w := rfl
    simp [cbCost, this, hw', cbCostG, hg]

end Hiku
