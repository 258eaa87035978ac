import Verif.Proofs.SemStatic
import Verif.Spec.Calls

/-! The invariant of the correctness proof of the engine. -/

namespace Hiku

theorem indexKey_none (H : PyHash) (n : String) : indexKey H n none = n := rfl

theorem LoadedIn.mono {log log' : List Ev} {f : PFunc} {gn : GNode} {i : Val} {n : String}
    (h : LoadedIn log f gn i n) (hl : ∀ e ∈ log, e ∈ log') : LoadedIn log' f gn i n := by
  obtain ⟨s, qfs, ids, done, h1, h2, h3⟩ := h
  exact ⟨s, qfs, ids, done, hl _ h1, hl _ h2, h3⟩

/-- the cell of a field or link of an object in a workflow -/
def Present (H : PyHash) (st : St) (w : Nat) (gn : GNode) (i : Val) (n : String) (o : Opts) : Prop :=
  ∃ wf, st.wfs[w]? = some wf ∧ (dget wf.index (gn.indexName, i, indexKey H n o)).isSome

/-- what a pending callback will load -/
def Goal (w : Nat) (gn : GNode) (i : Val) (it : QItem) : CB → Prop
  | .store w' gn' qfs ids _ => w' = w ∧ gn' = gn ∧ i ∈ identsOf ids ∧ it ∈ qfs
  | .schedLink w' gn' _ ql ids => w' = w ∧ gn' = gn ∧ i ∈ identsOf ids ∧ it = ql
  | .procLink w' gn' _ ql ids _ => w' = w ∧ gn' = gn ∧ i ∈ identsOf ids ∧ it = ql
  | .procSteps w' gn' ids steps => w' = w ∧ gn' = gn ∧ i ∈ identsOf ids ∧ ∃ s ∈ steps, it ∈ s.items

theorem Goal.wf {w : Nat} {gn : GNode} {i : Val} {it : QItem} {cb : CB} (h : Goal w gn i it cb) :
    cb.wf = w := by
  cases cb <;> exact h.1

section
variable (env : Env) (D : Data) (U : String → Opts → Prop)

/-- the item of the object is loaded, or will be loaded by a pending callback -/
inductive Cov (st : St) (pend : CB → Prop) (w gi : Nat) (g : Graph) : GNode → Val → QItem → Prop
  | pend {gn i it} (cb : CB) : pend cb → Goal w gn i it cb → Cov st pend w gi g gn i it
  | val {gn i it} (gf : GField) : Present env.H st w gn i it.name it.options →
      gn.get it.name = some (.field gf) → Cov st pend w gi g gn i it
  | link {gn i n q o a} (gl : GLink) (t : GNode) : Present env.H st w gn i n o →
      gn.get n = some (.link gl) → g.node gl.node = some t →
      (∀ i' ∈ targets gl.typeEnum (semLink D (semSub env.sys D gi) gn i gl o),
        ∀ it' ∈ q.fields, Cov st pend w gi g t i' it') →
      Cov st pend w gi g gn i (.link n q o a)

/-- the rows which a function should return -/
def rowsSem (gi : Nat) (gn : GNode) (ids : Option (List Val)) (qfs : List QItem) : List (List Val) :=
  (identsOf ids).map fun i => qfs.map fun q => cellSem D (semSub env.sys D gi) gn i q.name q.options

/-- every stored cell is true -/
def Sound (st : St) : Prop :=
  ∀ (w : Nat) (wf : Wf) (g : Graph), st.wfs[w]? = some wf → env.sys.graphs[wf.graph]? = some g →
    ∀ gn, IsNode g gn → ∀ i n o gi, U n o → gn.get n = some gi →
      ∀ v, dget wf.index (gn.indexName, i, indexKey env.H n o) = some v →
        v = cellSem D (semSub env.sys D wf.graph) gn i n o

/-- every stored field was loaded by a call which is finished -/
def Sourced (st : St) : Prop :=
  ∀ (w : Nat) (wf : Wf) (g : Graph), st.wfs[w]? = some wf → env.sys.graphs[wf.graph]? = some g →
    ∀ gn, IsNode g gn → ∀ i n o gf f, U n o → gn.get n = some (.field gf) → gf.func = .plain f →
      (dget wf.index (gn.indexName, i, indexKey env.H n o)).isSome → LoadedIn st.log f gn i n

structure SOK (st : St) : Prop where
  inv : st.q.Inv st.results.length
  sound : Sound env D U st
  sourced : Sourced env U st

/-- where the data of a store callback comes from -/
def SrcOk (st : St) (pend : CB → Prop) (gi : Nat) (gn : GNode) (qfs : List QItem)
    (ids : Option (List Val)) : Src → Prop
  | .fut f => (∃ r, st.results[f]? = some (.ok r) ∧ RowsOf gn qfs.length ids r (rowsSem env D gi gn ids qfs)) ∧
      ∃ s, Ev.call s ∈ st.log ∧ s.fut = f ∧
        (∀ q ∈ qfs, ∃ gf, gn.get q.name = some (.field gf) ∧ gf.func = .plain s.func) ∧
        s.args = withCtx s.func (.fields qfs :: idsArg ids)
  | .sub w procs => ids.isSome ∧ ∃ (wf : Wf) (g : Graph) (nn : String) (t : GNode) (q : QNode),
      st.wfs[w]? = some wf ∧ env.sys.graphs[wf.graph]? = some g ∧ g.node nn = some t ∧
      g.root.get THIS = none ∧
      dget wf.query.resultMap THIS = some (.link THIS q none none) ∧
      dget wf.index (rootName, rootIdent, THIS) = some (.list ((identsOf ids).map (.ref nn))) ∧
      NodeOk U g t q ∧
      NodeOk U g g.root (.mk (wf.query.fields.filter fun r => r.name ≠ THIS) false) ∧
      (∀ i ∈ identsOf ids, IdentOk D wf.graph t i) ∧
      (∀ i ∈ identsOf ids, ∀ it ∈ q.fields, Cov env D st pend w wf.graph g t i it) ∧
      (∀ it ∈ wf.query.fields.filter (fun r => r.name ≠ THIS),
        Cov env D st pend w wf.graph g g.root rootIdent it) ∧
      (∀ i ∈ identsOf ids, List.Forall₂ (fun qf p =>
        env.world.proc p.1 (semNode D (semSub env.sys D wf.graph) g t i q)
          (semNode D (semSub env.sys D wf.graph) g g.root rootIdent
            (.mk (wf.query.fields.filter fun r => r.name ≠ THIS) false)) p.2 =
          .ok (cellSem D (semSub env.sys D gi) gn i qf.name qf.options)) qfs procs) ∧
      (∀ q ∈ qfs, ∀ gf, gn.get q.name = some (.field gf) → ∀ f, gf.func ≠ .plain f)

/-- a pending callback is well-formed -/
def CBOk (st : St) (pend : CB → Prop) (cb : CB) : Prop :=
  ∃ (wf : Wf) (g : Graph), st.wfs[cb.wf]? = some wf ∧ env.sys.graphs[wf.graph]? = some g ∧
    match cb with
    | .store _ gn qfs ids src => IsNode g gn ∧ IdsOk D wf.graph gn ids ∧ (∀ q ∈ qfs, FItem U gn q) ∧
        SrcOk env D U st pend wf.graph gn qfs ids src
    | .schedLink _ gn gl ql ids => IsNode g gn ∧ IdsOk D wf.graph gn ids ∧ LItem U g gn gl ql
    | .procLink _ gn gl ql ids fut => IsNode g gn ∧ IdsOk D wf.graph gn ids ∧ LItem U g gn gl ql ∧
        ∃ r, st.results[fut]? = some (.ok r) ∧ LinkValues gn gl ids r
          ((identsOf ids).map fun i => semLink D (semSub env.sys D wf.graph) gn i gl ql.options)
    | .procSteps _ gn ids steps => IsNode g gn ∧ IdsOk D wf.graph gn ids ∧
        (∀ s ∈ steps, StepGood U g gn s) ∧
        ∀ pre gl ql post, steps = pre ++ .link gl ql :: post → pre ≠ [] → Preceded pre gl

/-- where a callback is registered -/
def CBLoc (st : St) (o : Obj) : CB → Prop
  | .store _ _ _ _ (.fut f) => o = .fut f
  | .store _ _ _ _ (.sub w _) => ∃ wf : Wf, st.wfs[w]? = some wf ∧ o = .ts wf.ts
  | _ => True

/-- cells which must be there when the callback is run -/
def Needs (w : Nat) (gn : GNode) (i : Val) (r : String) : CB → Prop
  | .schedLink w' gn' gl _ ids => w' = w ∧ gn' = gn ∧ i ∈ identsOf ids ∧ gl.requires = some r
  | .procSteps w' gn' ids (.link gl _ :: _) => w' = w ∧ gn' = gn ∧ i ∈ identsOf ids ∧ gl.requires = some r
  | _ => False

/-- cells which the callback writes -/
def Provides (w : Nat) (gn : GNode) (i : Val) (r : String) : CB → Prop
  | .store w' gn' qfs ids _ => w' = w ∧ gn' = gn ∧ i ∈ identsOf ids ∧ ∃ q ∈ qfs, q.name = r ∧ q.options = none
  | _ => False

/-- what a callback needs is there or is written by callbacks which are run before -/
def Ready (st : St) (l : List CB) : Prop :=
  ∀ pre cb post, l = pre ++ cb :: post → ∀ w gn i r, Needs w gn i r cb →
    Present env.H st w gn i r none ∨ ∃ c ∈ pre, Provides w gn i r c

def PendQ (st : St) (cb : CB) : Prop := ∃ o, cb ∈ st.q.cbs o

/-- `st'` has everything which `st` has -/
structure Le (st st' : St) : Prop where
  res : ∃ r, st'.results = st.results ++ r
  wfs : ∀ (j : Nat) (wf : Wf), st.wfs[j]? = some wf → ∃ wf' : Wf, st'.wfs[j]? = some wf' ∧
    wf'.graph = wf.graph ∧ wf'.query = wf.query ∧ wf'.ts = wf.ts ∧
    ∀ c v, dget wf.index c = some v → dget wf'.index c = some v
  log : ∀ e ∈ st.log, e ∈ st'.log

/-- a step of the scheduling functions -/
structure SFrame (st st' : St) : Prop where
  le : Le st st'
  ok : SOK env D U st'
  live : ∀ t, (dget st.q.futures t).isSome → (dget st'.q.futures t).isSome
  cbs : ∀ o, ∃ l, st'.q.cbs o = st.q.cbs o ++ l ∧
    ∀ cb ∈ l, CBOk env D U st' (PendQ st') cb ∧ CBLoc st' o cb
  ready : (∀ o, Ready env st (st.q.cbs o)) → ∀ o, Ready env st' (st'.q.cbs o)
  calls : CallsOk env D U st.log → CallsOk env D U st'.log

end

/-! ### Monotonicity -/

section
variable {env : Env} {D : Data} {U : String → Opts → Prop} {st st' st'' : St} {pend pend' : CB → Prop}

theorem Le.refl (st : St) : Le st st :=
  ⟨⟨[], by simp⟩, fun _ wf h => ⟨wf, h, rfl, rfl, rfl, fun _ _ h => h⟩, fun _ h => h⟩

theorem Le.trans (h : Le st st') (h' : Le st' st'') : Le st st'' := by
  refine ⟨?_, ?_, fun e he => h'.log e (h.log e he)⟩
  · obtain ⟨r, hr⟩ := h.res
    obtain ⟨r', hr'⟩ := h'.res
    exact ⟨r ++ r', by rw [hr', hr, List.append_assoc]⟩
  · intro j wf hj
    obtain ⟨wf', g1, g2, g3, g4, g5⟩ := h.wfs j wf hj
    obtain ⟨wf'', e1, e2, e3, e4, e5⟩ := h'.wfs j wf' g1
    exact ⟨wf'', e1, e2.trans g2, e3.trans g3, e4.trans g4, fun c v hc => e5 c v (g5 c v hc)⟩

theorem Le.result (h : Le st st') {f : Nat} {r : Except Err Val} (hr : st.results[f]? = some r) :
    st'.results[f]? = some r := by
  obtain ⟨x, hx⟩ := h.res
  rw [hx, List.getElem?_append_left (List.getElem?_eq_some_iff.1 hr).1]; exact hr

theorem Present.mono (hle : Le st st') {w : Nat} {gn : GNode} {i : Val} {n : String} {o : Opts}
    (h : Present env.H st w gn i n o) : Present env.H st' w gn i n o := by
  obtain ⟨wf, h1, h2⟩ := h
  obtain ⟨wf', g1, _, _, _, g5⟩ := hle.wfs w wf h1
  obtain ⟨v, hv⟩ := Option.isSome_iff_exists.1 h2
  exact ⟨wf', g1, by rw [g5 _ v hv]; rfl⟩

/-- pending callbacks are replaced by what they load -/
theorem Cov.subst (hle : Le st st') {w gi : Nat} {g : Graph} {gn : GNode} {i : Val} {it : QItem}
    (hp : ∀ cb, pend cb → cb.wf = w → ∀ gn i it, Goal w gn i it cb → Cov env D st' pend' w gi g gn i it)
    (h : Cov env D st pend w gi g gn i it) : Cov env D st' pend' w gi g gn i it := by
  induction h with
  | pend cb h1 h2 => exact hp cb h1 h2.wf _ _ _ h2
  | val gf h1 h2 => exact .val gf (h1.mono hle) h2
  | link gl t h1 h2 h3 _ ih => exact .link gl t (h1.mono hle) h2 h3 ih

theorem Cov.mono (hle : Le st st') (hp : ∀ cb, pend cb → pend' cb) {w gi : Nat} {g : Graph}
    {gn : GNode} {i : Val} {it : QItem} (h : Cov env D st pend w gi g gn i it) :
    Cov env D st' pend' w gi g gn i it :=
  h.subst hle fun cb h _ _ _ _ hg => .pend cb (hp cb h) hg

theorem SrcOk.subst (hle : Le st st') {gi : Nat} {gn : GNode} {qfs : List QItem}
    {ids : Option (List Val)} {src : Src}
    (hp : ∀ w wf g, st.wfs[w]? = some wf → env.sys.graphs[wf.graph]? = some g →
      ∀ gn i it, Cov env D st pend w wf.graph g gn i it → Cov env D st' pend' w wf.graph g gn i it)
    (h : SrcOk env D U st pend gi gn qfs ids src) : SrcOk env D U st' pend' gi gn qfs ids src := by
  cases src with
  | fut f =>
    obtain ⟨⟨r, h1, h2⟩, s, h3, h4⟩ := h
    exact ⟨⟨r, hle.result h1, h2⟩, s, hle.log _ h3, h4⟩
  | sub w procs =>
    obtain ⟨hs, wf, g, nn, t, q, h1, h2, h3, h4, h5, h6, h7, h8, h9, h10, h11, h12, h13⟩ := h
    obtain ⟨wf', g1, g2, g3, g4, g5⟩ := hle.wfs w wf h1
    refine ⟨hs, wf', g, nn, t, q, g1, by rw [g2]; exact h2, h3, h4, by rw [g3]; exact h5, g5 _ _ h6, h7,
      by rw [g3]; exact h8, by rw [g2]; exact h9, ?_, ?_, ?_, h13⟩
    · rw [g2]
      exact fun i hi it hit => hp w wf g h1 h2 _ _ _ (h10 i hi it hit)
    · rw [g2, g3]
      exact fun it hit => hp w wf g h1 h2 _ _ _ (h11 it hit)
    · rw [g2, g3]; exact h12

theorem CBOk.subst (hle : Le st st') {cb : CB}
    (hp : ∀ w wf g, st.wfs[w]? = some wf → env.sys.graphs[wf.graph]? = some g →
      ∀ gn i it, Cov env D st pend w wf.graph g gn i it → Cov env D st' pend' w wf.graph g gn i it)
    (h : CBOk env D U st pend cb) : CBOk env D U st' pend' cb := by
  obtain ⟨wf, g, h1, h2, h3⟩ := h
  obtain ⟨wf', g1, g2, g3, g4, g5⟩ := hle.wfs _ wf h1
  refine ⟨wf', g, g1, by rw [g2]; exact h2, ?_⟩
  cases cb with
  | store w gn qfs ids src =>
    simp only [g2] at h3 ⊢
    exact ⟨h3.1, h3.2.1, h3.2.2.1, h3.2.2.2.subst hle hp⟩
  | schedLink w gn gl ql ids => simpa only [g2] using h3
  | procLink w gn gl ql ids fut =>
    simp only [g2] at h3 ⊢
    obtain ⟨a1, a2, a3, r, a4, a5⟩ := h3
    exact ⟨a1, a2, a3, r, hle.result a4, a5⟩
  | procSteps w gn ids steps => simpa only [g2] using h3

theorem CBOk.mono (hle : Le st st') (hp : ∀ cb, pend cb → pend' cb) {cb : CB}
    (h : CBOk env D U st pend cb) : CBOk env D U st' pend' cb :=
  h.subst hle fun _ _ _ _ _ _ _ _ hc => hc.mono hle hp

theorem CBLoc.mono (hle : Le st st') {o : Obj} {cb : CB} (h : CBLoc st o cb) : CBLoc st' o cb := by
  cases cb with
  | store w gn qfs ids src =>
    cases src with
    | fut f => exact h
    | sub w' procs =>
      obtain ⟨wf, h1, h2⟩ := h
      obtain ⟨wf', g1, _, _, g4, _⟩ := hle.wfs _ wf h1
      exact ⟨wf', g1, by rw [g4]; exact h2⟩
  | _ => trivial

theorem Ready.mono (hle : Le st st') {l : List CB} (h : Ready env st l) : Ready env st' l := by
  intro pre cb post he w gn i r hn
  rcases h pre cb post he w gn i r hn with h | h
  · exact .inl (h.mono hle)
  · exact .inr h

theorem Ready.snoc {l : List CB} {cb : CB} (h : Ready env st l)
    (hn : ∀ w gn i r, Needs w gn i r cb →
      Present env.H st w gn i r none ∨ ∃ c ∈ l, Provides w gn i r c) : Ready env st (l ++ [cb]) := by
  intro pre c post he
  rcases append_cons_eq_append_singleton he.symm with ⟨_, rfl, rfl⟩ | ⟨post', _, h2⟩
  · exact hn
  · exact h pre c post' h2.symm

theorem Ready.nil : Ready env st [] := by
  intro pre cb post he
  simp at he

theorem SFrame.mem (h : SFrame env D U st st') {o : Obj} {cb : CB} (hc : cb ∈ st.q.cbs o) :
    cb ∈ st'.q.cbs o := by
  obtain ⟨l, hl, _⟩ := h.cbs o
  rw [hl]; simp [hc]

theorem SFrame.pendq (h : SFrame env D U st st') {cb : CB} (hc : PendQ st cb) : PendQ st' cb := by
  obtain ⟨o, ho⟩ := hc
  exact ⟨o, h.mem ho⟩

theorem SFrame.trans (h : SFrame env D U st st') (h' : SFrame env D U st' st'') :
    SFrame env D U st st'' where
  le := h.le.trans h'.le
  ok := h'.ok
  live := fun t ht => h'.live t (h.live t ht)
  cbs := by
    intro o
    obtain ⟨l, h1, h2⟩ := h.cbs o
    obtain ⟨l', h1', h2'⟩ := h'.cbs o
    refine ⟨l ++ l', by rw [h1', h1, List.append_assoc], ?_⟩
    intro cb hc
    rcases List.mem_append.1 hc with hc | hc
    · exact ⟨(h2 cb hc).1.mono h'.le fun _ => h'.pendq, (h2 cb hc).2.mono h'.le⟩
    · exact h2' cb hc
  ready := fun hr => h'.ready (h.ready hr)
  calls := fun hc => h'.calls (h.calls hc)

theorem SFrame.refl (h : SOK env D U st) : SFrame env D U st st :=
  ⟨.refl st, h, fun _ h => h, fun _ => ⟨[], by simp, by simp⟩, fun h => h, fun h => h⟩

theorem SFrame.wfAt (h : SFrame env D U st st') {w : Nat} {wf : Wf} (hw : st.wfs[w]? = some wf) :
    ∃ wf', st'.wfs[w]? = some wf' ∧ wf'.graph = wf.graph ∧ wf'.query = wf.query ∧ wf'.ts = wf.ts := by
  obtain ⟨wf', g1, g2, g3, g4, _⟩ := h.le.wfs w wf hw
  exact ⟨wf', g1, g2, g3, g4⟩

end

end Hiku
