import Verif.Proofs.SemMerge
import Verif.Proofs.SemStatic
import Verif.Proofs.SemSub
import Verif.Proofs.FrameEngine

/-! Simulation: programs whose graphs have the same fields and links with other, but equivalent, functions
behave in the same way (used for graph transformers). -/

namespace Hiku.Sim
open Hiku

/-! ### Related outcomes, lists and dicts -/

inductive ERel {α β : Type} (R : α → β → Prop) : Except Err α → Except Err β → Prop
  | ok {a : α} {b : β} : R a b → ERel R (.ok a) (.ok b)
  | error (e : Err) : ERel R (.error e) (.error e)

theorem ERel.bind {α β γ δ : Type} {R : α → β → Prop} {S : γ → δ → Prop} {x : Except Err α} {y : Except Err β}
    {f : α → Except Err γ} {g : β → Except Err δ} (h : ERel R x y) (hf : ∀ a b, R a b → ERel S (f a) (g b)) :
    ERel S (x >>= f) (y >>= g) := by
  cases h with
  | ok hab => exact hf _ _ hab
  | error e => exact .error e

theorem ERel.mono {α β : Type} {R S : α → β → Prop} {x : Except Err α} {y : Except Err β} (h : ERel R x y)
    (hs : ∀ a b, R a b → S a b) : ERel S x y := by
  cases h with
  | ok hab => exact .ok (hs _ _ hab)
  | error e => exact .error e

theorem ERel.rfl' {α : Type} (x : Except Err α) : ERel (fun a b => b = a) x x := by
  cases x with
  | ok a => exact .ok rfl
  | error e => exact .error e

inductive ORel {α β : Type} (R : α → β → Prop) : Option α → Option β → Prop
  | none : ORel R none none
  | some {a : α} {b : β} : R a b → ORel R (some a) (some b)

section Dict
variable {κ ν μ : Type} [DecidableEq κ]

def DRel (R : ν → μ → Prop) (d : List (κ × ν)) (d' : List (κ × μ)) : Prop :=
  List.Forall₂ (fun p p' => p'.1 = p.1 ∧ R p.2 p'.2) d d'

theorem DRel.dget {R : ν → μ → Prop} {d : List (κ × ν)} {d' : List (κ × μ)} (h : DRel R d d') (k : κ) :
    ORel R (Hiku.dget d k) (Hiku.dget d' k) := by
  induction h with
  | nil => exact .none
  | @cons p p' d d' h1 _ ih =>
    obtain ⟨a, b⟩ := p
    obtain ⟨a', b'⟩ := p'
    obtain ⟨rfl, h2⟩ := h1
    simp only [dget_cons]
    split
    · exact .some h2
    · exact ih

theorem DRel.dset {R : ν → μ → Prop} {d : List (κ × ν)} {d' : List (κ × μ)} (h : DRel R d d') (k : κ) {v : ν}
    {v' : μ} (hv : R v v') : DRel R (Hiku.dset d k v) (Hiku.dset d' k v') := by
  induction h with
  | nil => exact .cons ⟨rfl, hv⟩ .nil
  | @cons p p' d d' h1 h2 ih =>
    obtain ⟨a, b⟩ := p
    obtain ⟨a', b'⟩ := p'
    obtain ⟨rfl, h3⟩ := h1
    simp only [Hiku.dset]
    by_cases he : a' = k
    · simp only [if_pos he]; exact .cons ⟨rfl, hv⟩ h2
    · simp only [if_neg he]; exact .cons ⟨rfl, h3⟩ ih

theorem DRel.derase {R : ν → μ → Prop} {d : List (κ × ν)} {d' : List (κ × μ)} (h : DRel R d d') (k : κ) :
    DRel R (Hiku.derase d k) (Hiku.derase d' k) := by
  induction h with
  | nil => exact .nil
  | @cons p p' d d' h1 h2 ih =>
    obtain ⟨a, b⟩ := p
    obtain ⟨a', b'⟩ := p'
    obtain ⟨rfl, h3⟩ := h1
    unfold Hiku.derase at ih ⊢
    by_cases he : a' = k
    · simpa [he] using ih
    · simp only [ne_eq, he, not_false_eq_true, decide_true, List.filter_cons_of_pos]
      exact .cons ⟨rfl, h3⟩ ih

theorem DRel.dupdate {R : ν → μ → Prop} {l : List (κ × ν)} {l' : List (κ × μ)} (hl : DRel R l l') :
    ∀ {d : List (κ × ν)} {d' : List (κ × μ)}, DRel R d d' → DRel R (Hiku.dupdate d l) (Hiku.dupdate d' l') := by
  induction hl with
  | nil => exact fun h => h
  | @cons p p' l l' h1 _ ih =>
    intro d d' h
    obtain ⟨a, b⟩ := p
    obtain ⟨a', b'⟩ := p'
    obtain ⟨rfl, h3⟩ := h1
    rw [dupdate_cons, dupdate_cons]
    exact ih (h.dset a' h3)

end Dict

theorem forall2_append {α β : Type} {R : α → β → Prop} {l m : List α} {l' m' : List β} (h : List.Forall₂ R l l')
    (h' : List.Forall₂ R m m') : List.Forall₂ R (l ++ m) (l' ++ m') := by
  induction h with
  | nil => exact h'
  | cons h1 _ ih => exact .cons h1 ih

/-! ### Related programs -/

section
variable (env env' : Env) (U : String → Opts → Prop) (P : PFunc → PFunc → List Arg → Prop)

/-- functions of fields which give the same outcome for every list of fields -/
inductive FuncSim : Func → Func → Prop
  | plain {f f' : PFunc} : (∀ qfs rest, P f f' (withCtx f (.fields qfs :: rest))) → f'.passCtx = f.passCtx →
      (∀ n qfs rest, env'.world.call n f'.id (withCtx f (.fields qfs :: rest)) =
        env.world.call n f.id (withCtx f (.fields qfs :: rest))) →
      FuncSim (.plain f) (.plain f')
  | checked {sg sg' : Nat} {reqs : QNode} {p : Nat} : env'.sys.subs[sg']? = env.sys.subs[sg]? →
      FuncSim (.checked sg reqs p) (.checked sg' reqs p)

structure FieldSim (f f' : GField) : Prop where
  name : f'.name = f.name
  options : f'.options = f.options
  func : FuncSim env env' P f.func f'.func

structure LinkSim (l l' : GLink) : Prop where
  same : l' = { l with func := l'.func }
  rel : ∀ args, P l.func l'.func args
  ctx : l'.func.passCtx = l.func.passCtx
  call : ∀ n args, env'.world.call n l'.func.id args = env.world.call n l.func.id args

inductive ItemSim : GItem → GItem → Prop
  | field {f f' : GField} : FieldSim env env' P f f' → ItemSim (.field f) (.field f')
  | link {l l' : GLink} : LinkSim env env' P l l' → ItemSim (.link l) (.link l')

end

section
variable (env env' : Env) (U : String → Opts → Prop) (P : Option String → PFunc → PFunc → List Arg → Prop)

/-- the grouping keys of a field in both nodes -/
def Keys (gn gn' : GNode) (k k' : FKey) : Prop :=
  ∃ n f f', gn.get n = some (.field f) ∧ gn'.get n = some (.field f') ∧ FieldSim env env' (P gn.name) f f' ∧
    k = f.func.key ∧ k' = f'.func.key

/-- every field and link of the first node is in the second one (which may have more); fields have one
function in the first node iff they have one function in the second -/
structure NodeSim (gn gn' : GNode) : Prop where
  name : gn'.name = gn.name
  items : ∀ n i, gn.get n = some i → ∃ i', gn'.get n = some i' ∧ ItemSim env env' (P gn.name) i i'
  keys : ∀ k1 k1' k2 k2', Keys env env' P gn gn' k1 k1' → Keys env env' P gn gn' k2 k2' → (k1 = k2 ↔ k1' = k2')

structure GraphSim (g g' : Graph) : Prop where
  root : NodeSim env env' P g.root g'.root
  node : ∀ m t, g.node m = some t → ∃ t', g'.node m = some t' ∧ NodeSim env env' P t t'

/-! ### Related states -/

def LinkAt (gi : Nat) (gl : GLink) (ql : QItem) : Prop :=
  ∃ g t n q o a, env.sys.graphs[gi]? = some g ∧ g.node gl.node = some t ∧ ql = .link n q o a ∧ NodeOk U g t q

def GroupSim (gn gn' : GNode) (k k' : FKey) (items items' : List (GItem × QItem)) : Prop :=
  Keys env env' P gn gn' k k' ∧ items ≠ [] ∧
  List.Forall₂ (fun x x' => x'.2 = x.2 ∧ gn.get x.2.name = some x.1 ∧
    ∃ f f', x.1 = .field f ∧ x'.1 = .field f' ∧ f.func.key = k ∧ FieldSim env env' (P gn.name) f f') items items'

def StepSim (gi : Nat) (gn gn' : GNode) : Step → Step → Prop
  | .fields k items, .fields k' items' => GroupSim env env' P gn gn' k k' items items'
  | .link gl ql, .link gl' ql' => LinkSim env env' (P gn.name) gl gl' ∧ ql' = ql ∧ LinkAt env U gi gl ql
  | _, _ => False

def graphOf (st : St) (w : Nat) : Option Nat := (st.wfs[w]?).map Wf.graph

end

section
variable (env env' : Env) (U : String → Opts → Prop) (P : Nat → Option String → PFunc → PFunc → List Arg → Prop)

structure SysSim : Prop where
  H : env'.H = env.H
  atOnce : env'.atOnce = env.atOnce
  proc : env'.world.proc = env.world.proc
  levels : env'.sys.graphs.length = env.sys.graphs.length
  graph : ∀ (j : Nat) g, env.sys.graphs[j]? = some g → ∃ g', env'.sys.graphs[j]? = some g' ∧ GraphSim env env' (P j) g g'

def CBSim (G : Nat → Option Nat) : CB → CB → Prop
  | .store w node qfs ids src, .store w' node' qfs' ids' src' =>
      w' = w ∧ node'.name = node.name ∧ qfs' = qfs ∧ ids' = ids ∧ src' = src
  | .schedLink w node gl ql ids, .schedLink w' node' gl' ql' ids' =>
      w' = w ∧ node'.name = node.name ∧ ql' = ql ∧ ids' = ids ∧
      ∃ gi, G w = some gi ∧ LinkSim env env' (P gi node.name) gl gl' ∧ LinkAt env U gi gl ql
  | .procLink w node gl ql ids fut, .procLink w' node' gl' ql' ids' fut' =>
      w' = w ∧ node'.name = node.name ∧ ql' = ql ∧ ids' = ids ∧ fut' = fut ∧
      ∃ gi, G w = some gi ∧ LinkSim env env' (P gi node.name) gl gl' ∧ LinkAt env U gi gl ql
  | .procSteps w node ids steps, .procSteps w' node' ids' steps' =>
      w' = w ∧ ids' = ids ∧ ∃ gi g, G w = some gi ∧ env.sys.graphs[gi]? = some g ∧ IsNode g node ∧
        NodeSim env env' (P gi) node node' ∧ List.Forall₂ (StepSim env env' U (P gi) gi node node') steps steps'
  | _, _ => False

structure QRel (R : CB → CB → Prop) (q q' : Queue CB) : Prop where
  futures : q'.futures = q.futures
  forks : q'.forks = q.forks
  next : q'.nextTs = q.nextTs
  cbs : DRel (List.Forall₂ R) q.callbacks q'.callbacks

def EvSim (G : Nat → Option Nat) : Ev → Ev → Prop
  | .call s, .call s' => s' = { s with func := s'.func } ∧ ∃ gi, G s.wf = some gi ∧ P gi s.node s.func s'.func s.args
  | .done l, .done l' => l' = l
  | _, _ => False

structure StSim (st st' : St) : Prop where
  atOnce : env'.atOnce = env.atOnce
  results : st'.results = st.results
  wfs : st'.wfs = st.wfs
  log : List.Forall₂ (EvSim P (graphOf st)) st.log st'.log
  q : QRel (CBSim env env' U P (graphOf st)) st.q st'.q

/-- workflows keep their graphs -/
def Ext (st st1 : St) : Prop := ∀ w gi, graphOf st w = some gi → graphOf st1 w = some gi

/-- related states which extend the given one -/
def Out (st : St) (a b : St) : Prop := StSim env env' U P a b ∧ Ext st a

end

variable {env env' : Env} {U : String → Opts → Prop} {P : Nat → Option String → PFunc → PFunc → List Arg → Prop}

theorem Ext.refl (st : St) : Ext st st := fun _ _ h => h
theorem Ext.trans {a b c : St} (h : Ext a b) (h' : Ext b c) : Ext a c := fun w gi hw => h' w gi (h w gi hw)

theorem CBSim.mono {G G' : Nat → Option Nat} (hG : ∀ w gi, G w = some gi → G' w = some gi) {cb cb' : CB}
    (h : CBSim env env' U P G cb cb') : CBSim env env' U P G' cb cb' := by
  cases cb <;> cases cb' <;> simp only [CBSim] at h ⊢ <;> try exact h
  · obtain ⟨a, b, c, d, gi, h1, h2⟩ := h
    exact ⟨a, b, c, d, gi, hG _ _ h1, h2⟩
  · obtain ⟨a, b, c, d, e, gi, h1, h2⟩ := h
    exact ⟨a, b, c, d, e, gi, hG _ _ h1, h2⟩
  · obtain ⟨a, b, gi, g, h1, h2⟩ := h
    exact ⟨a, b, gi, g, hG _ _ h1, h2⟩

theorem EvSim.mono {G G' : Nat → Option Nat} (hG : ∀ w gi, G w = some gi → G' w = some gi) {e e' : Ev}
    (h : EvSim P G e e') : EvSim P G' e e' := by
  cases e <;> cases e' <;> simp only [EvSim] at h ⊢ <;> try exact h
  obtain ⟨a, gi, h1, h2⟩ := h
  exact ⟨a, gi, hG _ _ h1, h2⟩

theorem QRel.mono {R S : CB → CB → Prop} (hs : ∀ a b, R a b → S a b) {q q' : Queue CB} (h : QRel R q q') :
    QRel S q q' where
  futures := h.futures
  forks := h.forks
  next := h.next
  cbs := h.cbs.imp fun _ _ h => ⟨h.1, h.2.imp fun _ _ => hs _ _⟩

/-! ### Queue -/

theorem QRel.outstanding {R : CB → CB → Prop} {q q' : Queue CB} (h : QRel R q q') : q'.outstanding = q.outstanding := by
  unfold Queue.outstanding
  rw [h.futures]

theorem QRel.submit {R : CB → CB → Prop} {q q' : Queue CB} (h : QRel R q q') (ts fut : Nat) :
    ERel (QRel R) (q.submit ts fut) (q'.submit ts fut) := by
  unfold Queue.submit
  rw [h.futures]
  cases dget q.futures ts with
  | none => exact .error _
  | some s => exact .ok ⟨rfl, h.forks, h.next, h.cbs⟩

theorem QRel.fork {R : CB → CB → Prop} {q q' : Queue CB} (h : QRel R q q') (from_ : Option Nat) :
    ERel (fun a b => QRel R a.1 b.1 ∧ b.2 = a.2) (q.fork from_) (q'.fork from_) := by
  obtain ⟨a, b, c, d⟩ := q
  obtain ⟨a', b', c', d'⟩ := q'
  obtain ⟨h1, h2, h3, h4⟩ := h
  simp only at h1 h2 h3 h4
  subst h1 h2 h3
  unfold Queue.fork
  cases from_ with
  | none => exact .ok ⟨⟨rfl, rfl, rfl, h4⟩, rfl⟩
  | some p =>
    simp only
    cases dget (dset b' d' []) p with
    | none => exact .error _
    | some s => exact .ok ⟨⟨rfl, rfl, rfl, h4⟩, rfl⟩

theorem ORel.getD {α β : Type} {R : α → β → Prop} {x : Option (List α)} {y : Option (List β)}
    (h : ORel (List.Forall₂ R) x y) : List.Forall₂ R (x.getD []) (y.getD []) := by
  cases h with
  | none => exact .nil
  | some h => exact h

theorem QRel.addCallback {R : CB → CB → Prop} {q q' : Queue CB} (h : QRel R q q') (o : Obj) {cb cb' : CB}
    (hc : R cb cb') : QRel R (q.addCallback o cb) (q'.addCallback o cb') where
  futures := h.futures
  forks := h.forks
  next := h.next
  cbs := h.cbs.dset o (forall2_append (h.cbs.dget o).getD (.cons hc .nil))

theorem QRel.pop {R : CB → CB → Prop} {q q' : Queue CB} (h : QRel R q q') (o : Obj) :
    List.Forall₂ R (q.popCallbacks o).1 (q'.popCallbacks o).1 ∧
    QRel R (q.popCallbacks o).2 (q'.popCallbacks o).2 :=
  ⟨(h.cbs.dget o).getD, h.futures, h.forks, h.next, h.cbs.derase o⟩

theorem QRel.dropDone {R : CB → CB → Prop} {q q' : Queue CB} (h : QRel R q q') (done : List Nat) :
    QRel R (q.dropDone done) (q'.dropDone done) where
  futures := by simp only [Queue.dropDone, h.futures]
  forks := h.forks
  next := h.next
  cbs := h.cbs

theorem QRel.removeTs {R : CB → CB → Prop} {q q' : Queue CB} (h : QRel R q q') (t : Nat) :
    QRel R (q.removeTs t) (q'.removeTs t) where
  futures := by simp only [Queue.removeTs, h.futures]
  forks := by simp only [Queue.removeTs, h.forks]
  next := h.next
  cbs := h.cbs

theorem QRel.completed {R : CB → CB → Prop} {q q' : Queue CB} (h : QRel R q q') : q'.completed = q.completed := by
  unfold Queue.completed
  rw [h.futures, h.forks]

/-! ### Scheduling -/

/-- related states with another queue -/
theorem StSim.setQ {st st' : St} (h : StSim env env' U P st st') {q q' : Queue CB}
    (hq : QRel (CBSim env env' U P (graphOf st)) q q') : StSim env env' U P { st with q := q } { st' with q := q' } where
  atOnce := h.atOnce
  results := h.results
  wfs := h.wfs
  log := h.log
  q := hq

theorem StSim.addCB {st st' : St} (h : StSim env env' U P st st') (o : Obj) {cb cb' : CB}
    (hc : CBSim env env' U P (graphOf st) cb cb') : StSim env env' U P (addCB o cb st) (addCB o cb' st') :=
  h.setQ (h.q.addCallback o hc)

theorem Env.refused_congr {env env' : Env} (h : env'.atOnce = env.atOnce) (n : Nat) (r : Except Err Val) :
    env'.refused n r = env.refused n r := by
  unfold Env.refused; rw [h]

theorem StSim.submit {st st' : St} (h : StSim env env' U P st st') (w : Nat) {gi : Nat}
    (hgi : graphOf st w = some gi) (nd : Option String) {f f' : PFunc} (args : List Arg) (hp : P gi nd f f' (withCtx f args)) (hc : f'.passCtx = f.passCtx)
    (hcall : ∀ n, env'.world.call n f'.id (withCtx f args) = env.world.call n f.id (withCtx f args)) :
    ERel (fun a b => Out env env' U P st a.1 b.1 ∧ b.2 = a.2) (submitCall env w nd f args st)
      (submitCall env' w nd f' args st') := by
  unfold submitCall
  rw [h.wfs]
  cases hw : st.wfs[w]? with
  | none => exact .error _
  | some wf =>
    simp only [h.results, hc]
    have hcall' := hcall st.results.length
    unfold withCtx at hcall'
    rw [hcall', Env.refused_congr h.atOnce]
    cases hr : env.refused st.results.length
        (env.world.call st.results.length f.id (if f.passCtx then Arg.ctx :: args else args)) with
    | some e => exact .error _
    | none =>
    simp only
    have hq := h.q.submit wf.ts st.results.length
    cases h1 : st.q.submit wf.ts st.results.length with
    | error e =>
      rw [h1] at hq
      cases h2 : st'.q.submit wf.ts st.results.length with
      | error e' => rw [h2] at hq; cases hq; exact .error _
      | ok q' => rw [h2] at hq; cases hq
    | ok q =>
      rw [h1] at hq
      cases h2 : st'.q.submit wf.ts st.results.length with
      | error e' => rw [h2] at hq; cases hq
      | ok q' =>
        rw [h2] at hq
        cases hq with
        | ok hq =>
        refine .ok ⟨⟨⟨h.atOnce, rfl, rfl, ?_, hq⟩, Ext.refl _⟩, rfl⟩
        · exact forall2_append h.log (.cons ⟨rfl, gi, hgi, hp⟩ .nil)

/-- related calls of sub-graphs -/
def SubSim (env env' : Env) (U : String → Opts → Prop) (P : Nat → Option String → PFunc → PFunc → List Arg → Prop) (sub sub' : SubCall) : Prop :=
  ∀ (gi : Nat) (g : Graph) (gn gn' : GNode) (sg sg' : Nat) (items items' : List (GItem × QItem)) (ids : List Val)
    (dep : Nat) (st st' : St), env.sys.graphs[gi]? = some g → IsNode g gn →
    env'.sys.subs[sg']? = env.sys.subs[sg]? →
    GroupSim env env' (P gi) gn gn' (.sub sg) (.sub sg') items items' → StSim env env' U P st st' →
    ERel (fun a b => Out env env' U P st a.1 b.1 ∧ b.2 = a.2) (sub sg items ids dep st) (sub' sg' items' ids dep st')

theorem GroupSim.snd {gn gn' : GNode} {k k' : FKey} {items items' : List (GItem × QItem)}
    (h : GroupSim env env' (P gi) gn gn' k k' items items') : items'.map (·.2) = items.map (·.2) := by
  have := h.2.2
  clear h
  induction this with
  | nil => rfl
  | cons h1 _ ih => simp [h1.1, ih]

theorem sim_scheduleFields {sub sub' : SubCall} (hsub : SubSim env env' U P sub sub') {gi : Nat} {g : Graph}
    {gn gn' : GNode} (hg : env.sys.graphs[gi]? = some g) (hn : IsNode g gn) (hname : gn'.name = gn.name)
    {k k' : FKey} {items items' : List (GItem × QItem)} (hgr : GroupSim env env' (P gi) gn gn' k k' items items')
    (w : Nat) (ids : Option (List Val)) {st st' : St} (hgi : graphOf st w = some gi) (h : StSim env env' U P st st') :
    ERel (fun a b => Out env env' U P st a.1 b.1 ∧ b.2 = a.2) (scheduleFields env sub w gn k items ids st)
      (scheduleFields env' sub' w gn' k' items' ids st') := by
  have hsnd := hgr.snd
  obtain ⟨n, f, f', h1, h2, h3, rfl, rfl⟩ := hgr.1
  unfold scheduleFields
  simp only [hsnd]
  generalize hfn : f.func = fn at *
  generalize hfn' : f'.func = fn' at *
  have hfs := h3.func
  rw [hfn, hfn'] at hfs
  cases hfs with
  | @plain pf pf' hp hc hcall =>
    simp only [Func.key]
    have : ERel (fun a b => Out env env' U P st a.1 b.1 ∧ b.2 = a.2)
        (submitCall env w gn.name pf (match ids with
          | none => [Arg.fields (items.map (·.2))]
          | some ids' => [Arg.fields (items.map (·.2)), Arg.ids ids']) st)
        (submitCall env' w gn'.name pf' (match ids with
          | none => [Arg.fields (items.map (·.2))]
          | some ids' => [Arg.fields (items.map (·.2)), Arg.ids ids']) st') := by
      rw [hname]
      cases ids with
      | none => exact h.submit w hgi gn.name _ (hp _ _) hc fun n => hcall n _ _
      | some l => exact h.submit w hgi gn.name _ (hp _ _) hc fun n => hcall n _ _
    refine this.bind ?_
    rintro ⟨a, fa⟩ ⟨b, fb⟩ ⟨⟨hab, he⟩, hf⟩
    simp only at hf hab he ⊢
    subst hf
    exact .ok ⟨⟨hab.addCB _ ⟨rfl, hname, rfl, rfl, rfl⟩, he⟩, rfl⟩
  | @checked sg sg' reqs p hs =>
    simp only [Func.key] at hgr ⊢
    cases ids with
    | none => exact .error _
    | some ids =>
      simp only [h.wfs]
      cases hw : st.wfs[w]? with
      | none => exact .error _
      | some wf =>
        refine (h.q.fork (some wf.ts)).bind ?_
        rintro ⟨q1, d1⟩ ⟨q2, d2⟩ ⟨hq, hd⟩
        simp only at hq hd ⊢
        subst hd
        refine (hsub gi g gn gn' sg sg' items items' ids d2 { st with q := q1 }
          { st' with q := q2, wfs := st.wfs } hg hn hs hgr ⟨h.atOnce, h.results, rfl, h.log, hq⟩).bind ?_
        rintro ⟨a, sa⟩ ⟨b, sb⟩ ⟨⟨hab, he⟩, hf⟩
        simp only at hf hab he ⊢
        subst hf
        exact .ok ⟨⟨hab.addCB _ ⟨rfl, hname, rfl, rfl, rfl⟩, he⟩, rfl⟩

theorem linkReqs_congr {idx : Index} {gn gn' : GNode} (hname : gn'.name = gn.name) (req : String)
    (ids : Option (List Val)) : linkReqs idx gn' req ids = linkReqs idx gn req ids := by
  unfold linkReqs
  rw [hname]

theorem sim_scheduleLink {gi : Nat} {gn gn' : GNode} (hname : gn'.name = gn.name) {gl gl' : GLink} (hl : LinkSim env env' (P gi gn.name) gl gl')
    {ql : QItem} (w : Nat) (hla : LinkAt env U gi gl ql) (ids : Option (List Val)) {st st' : St} (hgi : graphOf st w = some gi)
    (h : StSim env env' U P st st') :
    ERel (fun a b => Out env env' U P st a.1 b.1 ∧ b.2 = a.2) (scheduleLink env w gn gl ql ids st)
      (scheduleLink env' w gn' gl' ql ids st') := by
  unfold scheduleLink
  rw [h.wfs]
  cases hw : st.wfs[w]? with
  | none => exact .error _
  | some wf =>
    have e1 : gl'.reqTruthy = gl.reqTruthy := by rw [hl.same]; rfl
    have e2 : gl'.requires = gl.requires := by rw [hl.same]
    have e3 : gl'.options = gl.options := by rw [hl.same]
    simp only [e1, e2, e3, linkReqs_congr hname]
    refine (ERel.rfl' _).bind ?_
    rintro _ a rfl
    rw [hname]
    refine (h.submit w hgi gn.name _ (hl.rel _) hl.ctx fun n => hl.call n _).bind ?_
    rintro ⟨b, fb⟩ ⟨c, fc⟩ ⟨⟨hbc, he⟩, hf⟩
    simp only at hf hbc he ⊢
    subst hf
    exact .ok ⟨⟨hbc.addCB _ ⟨rfl, hname, rfl, rfl, rfl, gi, he _ _ hgi, hl, hla⟩, he⟩, rfl⟩

theorem sim_runSteps {sub sub' : SubCall} (hsub : SubSim env env' U P sub sub') {gi : Nat} {g : Graph}
    {gn gn' : GNode} (hg : env.sys.graphs[gi]? = some g) (hn : IsNode g gn) (hns : NodeSim env env' (P gi) gn gn')
    (w : Nat) (ids : Option (List Val)) {steps steps' : List Step}
    (hs : List.Forall₂ (StepSim env env' U (P gi) gi gn gn') steps steps') {st st' : St} (hgi : graphOf st w = some gi)
    (h : StSim env env' U P st st') :
    ERel (Out env env' U P st) (runSteps env sub w gn ids steps st) (runSteps env' sub' w gn' ids steps' st') := by
  cases hs with
  | nil => exact .ok ⟨h, Ext.refl _⟩
  | @cons s s' r r' h1 h2 =>
    unfold runSteps
    have hemp : r'.isEmpty = r.isEmpty := by cases h2 <;> rfl
    have : ERel (fun a b => Out env env' U P st a.1 b.1 ∧ b.2 = a.2)
        (match s with
          | .fields k items => scheduleFields env sub w gn k items ids st
          | .link gl ql => scheduleLink env w gn gl ql ids st)
        (match s' with
          | .fields k items => scheduleFields env' sub' w gn' k items ids st'
          | .link gl ql => scheduleLink env' w gn' gl ql ids st') := by
      cases s <;> cases s' <;> simp only [StepSim] at h1
      · exact sim_scheduleFields hsub hg hn hns.name h1 w ids hgi h
      · obtain ⟨a, rfl, b⟩ := h1
        exact sim_scheduleLink hns.name a w b ids hgi h
    refine this.bind ?_
    rintro ⟨b, fb⟩ ⟨c, fc⟩ ⟨⟨hbc, he⟩, hf⟩
    simp only at hf hbc he ⊢
    subst hf
    rw [hemp]
    cases r.isEmpty with
    | true => exact .ok ⟨hbc, he⟩
    | false => exact .ok ⟨hbc.addCB _ ⟨rfl, rfl, gi, g, he _ _ hgi, hg, hn, hns, h2⟩, he⟩

/-! ### Splitting nodes -/

/-- related entries of `SplitQuery` -/
def EntrySim (env env' : Env) (P : Option String → PFunc → PFunc → List Arg → Prop) (gn gn' : GNode) (x x' : FKey × GItem × QItem) : Prop :=
  x'.2.2 = x.2.2 ∧ gn.get x.2.2.name = some x.2.1 ∧ gn'.get x.2.2.name = some x'.2.1 ∧
    ∃ f f', x.2.1 = .field f ∧ x'.2.1 = .field f' ∧ FieldSim env env' (P gn.name) f f' ∧ x.1 = f.func.key ∧ x'.1 = f'.func.key

theorem EntrySim.keys {gn gn' : GNode} {x x' : FKey × GItem × QItem} (h : EntrySim env env' (P gi) gn gn' x x') :
    Keys env env' (P gi) gn gn' x.1 x'.1 := by
  obtain ⟨_, h1, h2, f, f', e1, e2, h3, h4, h5⟩ := h
  rw [e1] at h1
  rw [e2] at h2
  exact ⟨_, f, f', h1, h2, h3, h4, h5⟩

theorem NodeSim.field {gn gn' : GNode} (hns : NodeSim env env' (P gi) gn gn') {n : String} {f : GField}
    (h : gn.get n = some (.field f)) : ∃ f', gn'.get n = some (.field f') ∧ FieldSim env env' (P gi gn.name) f f' := by
  obtain ⟨i', h1, h2⟩ := hns.items n _ h
  cases h2 with
  | field h2 => exact ⟨_, h1, h2⟩

theorem NodeSim.link {gn gn' : GNode} (hns : NodeSim env env' (P gi) gn gn') {n : String} {l : GLink}
    (h : gn.get n = some (.link l)) : ∃ l', gn'.get n = some (.link l') ∧ LinkSim env env' (P gi gn.name) l l' := by
  obtain ⟨i', h1, h2⟩ := hns.items n _ h
  cases h2 with
  | link h2 => exact ⟨_, h1, h2⟩

theorem sim_splitField {gn gn' : GNode} (hns : NodeSim env env' (P gi) gn gn') {n : String} {f : GField}
    (h : gn.get n = some (.field f)) {q : QItem} (hq : q.name = n) :
    ∃ x x', splitField gn n q = .ok x ∧ splitField gn' n q = .ok x' ∧ EntrySim env env' (P gi) gn gn' x x' := by
  obtain ⟨f', h1, h2⟩ := hns.field h
  unfold splitField
  rw [h, h1]
  refine ⟨_, _, rfl, rfl, rfl, ?_, ?_, f, f', rfl, rfl, h2, rfl, rfl⟩
  · rw [hq]; exact h
  · rw [hq]; exact h1

variable (hgood : GoodSys U env.sys)

theorem splitField_name {gn : GNode} {n : String} {f : GField} (h : gn.get n = some (.field f)) {q : QItem} :
    splitField gn n q = .ok (f.func.key, .field f, q) := by
  unfold splitField
  rw [h]

include hgood in
theorem sim_splitItems {gi : Nat} {g : Graph} {gn gn' : GNode} (hg : env.sys.graphs[gi]? = some g) (hn : IsNode g gn)
    (hns : NodeSim env env' (P gi) gn gn') {l : List QItem} (hl : ∀ i ∈ l, ItemOk U g gn i) :
    ERel (fun a b => List.Forall₂ (EntrySim env env' (P gi) gn gn') a.1 b.1 ∧
        List.Forall₂ (fun x x' => LinkSim env env' (P gi gn.name) x.1 x'.1 ∧ x'.2 = x.2 ∧ LinkAt env U gi x.1 x.2) a.2 b.2)
      (splitItems gn l) (splitItems gn' l) := by
  induction l with
  | nil => exact .ok ⟨.nil, .nil⟩
  | cons i r ih =>
    have ihr := ih fun i hi => hl i (List.mem_cons_of_mem _ hi)
    have hi := hl i List.mem_cons_self
    cases i with
    | field n o a =>
      rw [ItemOk] at hi
      obtain ⟨_, gf, hgf, _⟩ := hi
      obtain ⟨x, x', e1, e2, hx⟩ := sim_splitField hns hgf (q := .field n o a) rfl
      simp only [splitItems, e1, e2, ok_bind']
      refine ihr.bind ?_
      rintro ⟨a1, a2⟩ ⟨b1, b2⟩ ⟨h1, h2⟩
      exact .ok ⟨.cons hx h1, h2⟩
    | link n q o a =>
      rw [ItemOk] at hi
      obtain ⟨hu, ⟨gl, t, h1, h2, h3⟩ | ⟨gf, hgf, _⟩⟩ := hi
      · obtain ⟨gl', h4, h5⟩ := hns.link h1
        simp only [splitItems, h1, h4]
        have e1 : gl'.reqTruthy = gl.reqTruthy := by rw [h5.same]; rfl
        have e2 : gl'.requires = gl.requires := by rw [h5.same]
        simp only [e1, e2]
        have hpre : ERel (List.Forall₂ (EntrySim env env' (P gi) gn gn'))
            (if gl.reqTruthy = true then (do
              let f ← splitField gn (gl.requires.getD "") (.field (gl.requires.getD "") none none)
              pure [f] : Except Err (List (FKey × GItem × QItem)))
            else pure [])
            (if gl.reqTruthy = true then (do
              let f ← splitField gn' (gl.requires.getD "") (.field (gl.requires.getD "") none none)
              pure [f] : Except Err (List (FKey × GItem × QItem)))
            else pure []) := by
          cases hr : gl.requires with
          | none => simp only [GLink.reqTruthy, hr]; exact .ok .nil
          | some rq =>
            obtain ⟨hne, hok⟩ := (hgood.links gi g hg gn hn n gl h1).2 rq hr
            rw [ItemOk] at hok
            obtain ⟨_, gf, hgf, _⟩ := hok
            obtain ⟨x, x', e1, e2, hx⟩ := sim_splitField hns hgf (q := .field rq none none) rfl
            have : gl.reqTruthy = true := by simp [GLink.reqTruthy, hr, hne]
            simp only [this, if_true, Option.getD_some, e1, e2, ok_bind']
            exact .ok (.cons hx .nil)
        refine hpre.bind ?_
        intro p p' hp
        refine ihr.bind ?_
        rintro ⟨a1, a2⟩ ⟨b1, b2⟩ ⟨k1, k2⟩
        exact .ok ⟨forall2_append hp k1, .cons ⟨h5, rfl, g, t, n, q, o, a, hg, h2, rfl, h3⟩ k2⟩
      · obtain ⟨gf', h4, h5⟩ := hns.field hgf
        simp only [splitItems, hgf, h4]
        refine ihr.bind ?_
        rintro ⟨a1, a2⟩ ⟨b1, b2⟩ ⟨k1, k2⟩
        exact .ok ⟨.cons ⟨rfl, hgf, h4, gf, gf', rfl, rfl, h5, rfl, rfl⟩ k1, k2⟩

/-- related groups -/
def Groups (env env' : Env) (P : Option String → PFunc → PFunc → List Arg → Prop) (gn gn' : GNode)
    (l l' : List (FKey × List (GItem × QItem))) : Prop :=
  List.Forall₂ (fun p p' => GroupSim env env' P gn gn' p.1 p'.1 p.2 p'.2) l l'

theorem EntrySim.group {gn gn' : GNode} {x x' : FKey × GItem × QItem} (h : EntrySim env env' (P gi) gn gn' x x') :
    GroupSim env env' (P gi) gn gn' x.1 x'.1 [(x.2.1, x.2.2)] [(x'.2.1, x'.2.2)] := by
  refine ⟨h.keys, by simp, .cons ?_ .nil⟩
  obtain ⟨h0, h1, h2, f, f', e1, e2, h3, h4, h5⟩ := h
  exact ⟨h0, h1, f, f', e1, e2, h4.symm, h3⟩

theorem GroupSim.append {gn gn' : GNode} {k k' : FKey} {l l' m m' : List (GItem × QItem)}
    (h : GroupSim env env' (P gi) gn gn' k k' l l') (h' : GroupSim env env' (P gi) gn gn' k k' m m') :
    GroupSim env env' (P gi) gn gn' k k' (l ++ m) (l' ++ m') :=
  ⟨h.1, by simp [h.2.1], forall2_append h.2.2 h'.2.2⟩

theorem sim_addToGroup {gn gn' : GNode} (hns : NodeSim env env' (P gi) gn gn') {x x' : FKey × GItem × QItem}
    (hx : EntrySim env env' (P gi) gn gn' x x') {l l' : List (FKey × List (GItem × QItem))}
    (hl : Groups env env' (P gi) gn gn' l l') :
    Groups env env' (P gi) gn gn' (addToGroup x.1 (x.2.1, x.2.2) l) (addToGroup x'.1 (x'.2.1, x'.2.2) l') := by
  induction hl with
  | nil => exact .cons hx.group .nil
  | @cons p p' l l' h1 h2 ih =>
    obtain ⟨k, xs⟩ := p
    obtain ⟨k', xs'⟩ := p'
    simp only [addToGroup]
    have hk := hns.keys _ _ _ _ h1.1 hx.keys
    simp only at hk
    by_cases he : k = x.1
    · rw [if_pos he, if_pos (hk.1 he)]
      have := hx.group
      rw [← he, ← hk.1 he] at this
      exact .cons (h1.append this) h2
    · rw [if_neg he, if_neg fun h => he (hk.2 h)]
      exact .cons h1 ih

theorem sim_groupByFunc {gn gn' : GNode} (hns : NodeSim env env' (P gi) gn gn') {l l' : List (FKey × GItem × QItem)}
    (hl : List.Forall₂ (EntrySim env env' (P gi) gn gn') l l') :
    Groups env env' (P gi) gn gn' (groupByFunc l) (groupByFunc l') := by
  unfold groupByFunc
  have : ∀ {acc acc'}, Groups env env' (P gi) gn gn' acc acc' → Groups env env' (P gi) gn gn'
      (l.foldl (fun acc f => addToGroup f.1 (f.2.1, f.2.2) acc) acc)
      (l'.foldl (fun acc f => addToGroup f.1 (f.2.1, f.2.2) acc) acc') := by
    induction hl with
    | nil => exact fun h => h
    | cons h1 _ ih => exact fun h => ih (sim_addToGroup hns h1 h)
  exact this .nil

theorem sim_scheduleGroups {sub sub' : SubCall} (hsub : SubSim env env' U P sub sub') {gi : Nat} {g : Graph}
    {gn gn' : GNode} (hg : env.sys.graphs[gi]? = some g) (hn : IsNode g gn) (hname : gn'.name = gn.name)
    {l l' : List (FKey × List (GItem × QItem))} (hl : Groups env env' (P gi) gn gn' l l') (w : Nat)
    (ids : Option (List Val)) {st st' : St} (hgi : graphOf st w = some gi) (h : StSim env env' U P st st') :
    ERel (fun a b => Out env env' U P st a.1 b.1 ∧
        List.Forall₂ (fun p p' => Keys env env' (P gi) gn gn' p.1 p'.1 ∧ p'.2 = p.2) a.2 b.2)
      (scheduleGroups env sub w gn ids l st) (scheduleGroups env' sub' w gn' ids l' st') := by
  induction hl generalizing st st' with
  | nil => exact .ok ⟨⟨h, Ext.refl _⟩, .nil⟩
  | @cons p p' l l' h1 h2 ih =>
    obtain ⟨k, xs⟩ := p
    obtain ⟨k', xs'⟩ := p'
    simp only [scheduleGroups]
    refine (sim_scheduleFields hsub hg hn hname h1 w ids hgi h).bind ?_
    rintro ⟨b, fb⟩ ⟨c, fc⟩ ⟨⟨hbc, he⟩, hf⟩
    simp only at hf hbc he ⊢
    subst hf
    refine (ih (he _ _ hgi) hbc).bind ?_
    rintro ⟨b2, fb2⟩ ⟨c2, fc2⟩ ⟨⟨hbc2, he2⟩, hf2⟩
    exact .ok ⟨⟨hbc2, he.trans he2⟩, .cons ⟨h1.1, rfl⟩ hf2⟩

theorem keys_dget {gn gn' : GNode} (hns : NodeSim env env' (P gi) gn gn') {d d' : List (FKey × Obj)}
    (hd : List.Forall₂ (fun p p' => Keys env env' (P gi) gn gn' p.1 p'.1 ∧ p'.2 = p.2) d d') {k k' : FKey}
    (hk : Keys env env' (P gi) gn gn' k k') : dget d' k' = dget d k := by
  induction hd with
  | nil => rfl
  | @cons p p' d d' h1 _ ih =>
    obtain ⟨a, b⟩ := p
    obtain ⟨a', b'⟩ := p'
    simp only at h1
    obtain ⟨h1, rfl⟩ := h1
    have := hns.keys _ _ _ _ h1 hk
    rw [dget_cons, dget_cons]
    by_cases he : a = k
    · rw [if_pos he, if_pos (this.1 he)]
    · rw [if_neg he, if_neg fun h => he (this.2 h), ih]

theorem sim_scheduleLinks {gi : Nat} {gn gn' : GNode} (hns : NodeSim env env' (P gi) gn gn') (w : Nat)
    (ids : Option (List Val)) {toFunc toFunc' : List (String × FKey)} (hf : DRel (Keys env env' (P gi) gn gn') toFunc toFunc')
    {toDep toDep' : List (FKey × Obj)}
    (hd : List.Forall₂ (fun p p' => Keys env env' (P gi) gn gn' p.1 p'.1 ∧ p'.2 = p.2) toDep toDep')
    {l l' : List (GLink × QItem)}
    (hl : List.Forall₂ (fun x x' => LinkSim env env' (P gi gn.name) x.1 x'.1 ∧ x'.2 = x.2 ∧ LinkAt env U gi x.1 x.2) l l')
    {st st' : St} (hgi : graphOf st w = some gi) (h : StSim env env' U P st st') :
    ERel (Out env env' U P st) (scheduleLinks env w gn ids toFunc toDep l st)
      (scheduleLinks env' w gn' ids toFunc' toDep' l' st') := by
  induction hl generalizing st st' with
  | nil => exact .ok ⟨h, Ext.refl _⟩
  | @cons x x' l l' h1 h2 ih =>
    obtain ⟨gl, ql⟩ := x
    obtain ⟨gl', ql'⟩ := x'
    obtain ⟨h3, h4, h5⟩ := h1
    simp only at h3 h4 h5
    subst h4
    have e1 : gl'.reqTruthy = gl.reqTruthy := by rw [h3.same]; rfl
    have e2 : gl'.requires = gl.requires := by rw [h3.same]
    simp only [scheduleLinks, e1, e2]
    cases gl.reqTruthy with
    | true =>
      simp only [if_true]
      have := hf.dget (gl.requires.getD "")
      cases hk : dget toFunc (gl.requires.getD "") with
      | none =>
        rw [hk] at this
        cases hk' : dget toFunc' (gl.requires.getD "") with
        | none => exact .error _
        | some k' => rw [hk'] at this; cases this
      | some k =>
        rw [hk] at this
        cases hk' : dget toFunc' (gl.requires.getD "") with
        | none => rw [hk'] at this; cases this
        | some k' =>
          rw [hk'] at this
          cases this with
          | some this =>
          simp only [keys_dget hns hd this]
          cases dget toDep k with
          | none => exact .error _
          | some dep =>
            simp only
            exact ih (st := addCB dep (.schedLink w gn gl ql' ids) st) hgi
              (h.addCB dep (cb := .schedLink w gn gl ql' ids) ⟨rfl, hns.name, rfl, rfl, gi, hgi, h3, h5⟩)
    | false =>
      simp only [Bool.false_eq_true, if_false]
      refine (sim_scheduleLink hns.name h3 w h5 ids hgi h).bind ?_
      rintro ⟨b, fb⟩ ⟨c, fc⟩ ⟨⟨hbc, he⟩, hfe⟩
      exact (ih (he _ _ hgi) hbc).mono fun a b hab => ⟨hab.1, he.trans hab.2⟩

/-! ### Ordered nodes -/

theorem sim_groupField {gi : Nat} {gn gn' : GNode} (hns : NodeSim env env' (P gi) gn gn') {steps steps' : List Step}
    (hs : List.Forall₂ (StepSim env env' U (P gi) gi gn gn') steps steps') {cur cur' : Option FKey}
    (hc : ORel (Keys env env' (P gi) gn gn') cur cur')
    (hlast : ∀ k, cur = some k → ∃ s k0 items k0' items', steps = s ++ [.fields k0 items] ∧
      (∃ s', steps' = s' ++ [.fields k0' items']) ∧ k0 = k ∧ cur' = some k0')
    {x x' : FKey × GItem × QItem} (hx : EntrySim env env' (P gi) gn gn' x x') :
    List.Forall₂ (StepSim env env' U (P gi) gi gn gn') (groupField steps cur x.1 x.2.1 x.2.2)
        (groupField steps' cur' x'.1 x'.2.1 x'.2.2) ∧
    ∃ s items s' items', groupField steps cur x.1 x.2.1 x.2.2 = s ++ [.fields x.1 items] ∧
      groupField steps' cur' x'.1 x'.2.1 x'.2.2 = s' ++ [.fields x'.1 items'] := by
  have hnew : List.Forall₂ (StepSim env env' U (P gi) gi gn gn') (steps ++ [.fields x.1 [(x.2.1, x.2.2)]])
      (steps' ++ [.fields x'.1 [(x'.2.1, x'.2.2)]]) := forall2_append hs (.cons hx.group .nil)
  unfold groupField
  cases hc with
  | none =>
    rw [if_neg (by simp), if_neg (by simp)]
    exact ⟨hnew, _, _, _, _, rfl, rfl⟩
  | @some k k' hk =>
    obtain ⟨s, k0, items, k0', items', rfl, ⟨s', rfl⟩, rfl, e⟩ := hlast k rfl
    cases e
    have hiff := hns.keys _ _ _ _ hk hx.keys
    by_cases he : k0 = x.1
    · rw [if_pos (by rw [he]), if_pos (by rw [hiff.1 he])]
      simp only [List.getLast?_concat, List.dropLast_concat]
      have hs' : List.Forall₂ (StepSim env env' U (P gi) gi gn gn') s s' ∧
          GroupSim env env' (P gi) gn gn' k0 k' items items' := by
        have hlen : s.length = s'.length := by
          have := hs.length_eq
          simp at this
          exact this
        rw [List.forall₂_iff_get] at hs
        constructor
        · rw [List.forall₂_iff_get]
          refine ⟨hlen, fun i h1 h2 => ?_⟩
          have := hs.2 i (by simp; omega) (by simp; omega)
          simp only [List.get_eq_getElem] at this ⊢
          rw [List.getElem_append_left h1, List.getElem_append_left h2] at this
          exact this
        · have := hs.2 s.length (by simp) (by simp [hlen])
          simp only [List.get_eq_getElem] at this
          rw [List.getElem_append_right (by simp), List.getElem_append_right (by omega)] at this
          simp only [Nat.sub_self, hlen, List.getElem_cons_zero] at this
          exact this
      have hg := hx.group
      rw [← he, ← hiff.1 he] at hg
      refine ⟨forall2_append hs'.1 (.cons (hs'.2.append hg) .nil), s, _, s', _, by rw [he], by rw [hiff.1 he]⟩
    · rw [if_neg (by simp [he]), if_neg (by simp; exact fun h => he (hiff.2 h))]
      exact ⟨hnew, _, _, _, _, rfl, rfl⟩

include hgood in
theorem sim_groupItems {gi : Nat} {g : Graph} {gn gn' : GNode} (hg : env.sys.graphs[gi]? = some g) (hn : IsNode g gn)
    (hns : NodeSim env env' (P gi) gn gn') {l : List QItem} (hl : ∀ i ∈ l, ItemOk U g gn i)
    (hol : ∀ i ∈ l, i.isLink = true → ∃ gl, gn.get i.name = some (.link gl)) {steps steps' : List Step}
    (hs : List.Forall₂ (StepSim env env' U (P gi) gi gn gn') steps steps') {cur cur' : Option FKey}
    (hc : ORel (Keys env env' (P gi) gn gn') cur cur')
    (hlast : ∀ k, cur = some k → ∃ s k0 items k0' items', steps = s ++ [.fields k0 items] ∧
      (∃ s', steps' = s' ++ [.fields k0' items']) ∧ k0 = k ∧ cur' = some k0') :
    ERel (List.Forall₂ (StepSim env env' U (P gi) gi gn gn')) (groupItems gn steps cur l) (groupItems gn' steps' cur' l) := by
  induction l generalizing steps steps' cur cur' with
  | nil => exact .ok hs
  | cons i r ih =>
    have ht1 := fun i hi => hl i (List.mem_cons_of_mem _ hi)
    have ht2 := fun i hi => hol i (List.mem_cons_of_mem _ hi)
    have hi := hl i List.mem_cons_self
    cases i with
    | field n o a =>
      rw [ItemOk] at hi
      obtain ⟨_, gf, hgf, _⟩ := hi
      obtain ⟨x, x', e1, e2, hx⟩ := sim_splitField hns hgf (q := .field n o a) rfl
      simp only [groupItems, e1, e2, ok_bind']
      obtain ⟨h1, s, items, s', items', h2, h3⟩ := sim_groupField hns hs hc hlast hx
      exact ih ht1 ht2 h1 (.some hx.keys) (fun k hk => ⟨s, _, items, _, items', h2, ⟨s', h3⟩, by cases hk; rfl, rfl⟩)
    | link n q o a =>
      rw [ItemOk] at hi
      obtain ⟨hu, ⟨gl, t, h1, h2, h3⟩ | ⟨gf, hgf, _⟩⟩ := hi
      · obtain ⟨gl', h4, h5⟩ := hns.link h1
        simp only [groupItems, h1, h4]
        have e1 : gl'.reqTruthy = gl.reqTruthy := by rw [h5.same]; rfl
        have e2 : gl'.requires = gl.requires := by rw [h5.same]
        simp only [e1, e2]
        have hpre : ERel (List.Forall₂ (StepSim env env' U (P gi) gi gn gn'))
            (if gl.reqTruthy = true then (do
              let (k, gi, f) ← splitField gn (gl.requires.getD "") (.field (gl.requires.getD "") none none)
              pure (groupField steps cur k gi f) : Except Err (List Step))
            else pure steps)
            (if gl.reqTruthy = true then (do
              let (k, gi, f) ← splitField gn' (gl.requires.getD "") (.field (gl.requires.getD "") none none)
              pure (groupField steps' cur' k gi f) : Except Err (List Step))
            else pure steps') := by
          cases hr : gl.requires with
          | none => simp only [GLink.reqTruthy, hr]; exact .ok hs
          | some rq =>
            obtain ⟨hne, hok⟩ := (hgood.links gi g hg gn hn n gl h1).2 rq hr
            rw [ItemOk] at hok
            obtain ⟨_, gf, hgf, _⟩ := hok
            obtain ⟨x, x', e1, e2, hx⟩ := sim_splitField hns hgf (q := .field rq none none) rfl
            have : gl.reqTruthy = true := by simp [GLink.reqTruthy, hr, hne]
            simp only [this, if_true, Option.getD_some, e1, e2, ok_bind']
            exact .ok (sim_groupField hns hs hc hlast hx).1
        refine hpre.bind ?_
        intro p p' hp
        refine ih ht1 ht2 (forall2_append hp (.cons ?_ .nil)) .none (fun k hk => by cases hk)
        exact ⟨h5, rfl, g, t, n, q, o, a, hg, h2, rfl, h3⟩
      · obtain ⟨gl, hgl⟩ := hol _ List.mem_cons_self rfl
        simp only [QItem.name] at hgl
        rw [hgf] at hgl
        cases hgl

/-! ### Nodes and links -/

include hgood in
theorem sim_processNode {sub sub' : SubCall} (hsub : SubSim env env' U P sub sub') {gi : Nat} {g : Graph}
    {gn gn' : GNode} (hg : env.sys.graphs[gi]? = some g) (hn : IsNode g gn) (hns : NodeSim env env' (P gi) gn gn')
    (w : Nat) {q : QNode} (hq : NodeOk U g gn q) (ids : Option (List Val)) {st st' : St} (hgi : graphOf st w = some gi)
    (h : StSim env env' U P st st') :
    ERel (Out env env' U P st) (processNode env sub w gn q ids st) (processNode env' sub' w gn' q ids st') := by
  rw [nodeOk_iff] at hq
  unfold processNode
  by_cases ho : q.ordered = true
  · rw [if_pos ho, if_pos ho]
    refine (sim_groupItems hgood hg hn hns hq.1 (hq.2 ho) .nil .none (fun k hk => by cases hk)).bind ?_
    intro s s' hs
    exact sim_runSteps hsub hg hn hns w ids hs hgi h
  · rw [if_neg ho, if_neg ho]
    refine (sim_splitItems hgood hg hn hns hq.1).bind ?_
    rintro ⟨f, l⟩ ⟨f', l'⟩ ⟨hf, hl⟩
    simp only at hf hl ⊢
    have hdr : DRel (Keys env env' (P gi) gn gn') (dmk (f.map fun f => (f.2.1.name, f.1)))
        (dmk (f'.map fun f => (f.2.1.name, f.1))) := by
      unfold dmk
      refine DRel.dupdate ?_ .nil
      unfold DRel
      rw [List.forall₂_map_left_iff, List.forall₂_map_right_iff]
      refine hf.imp fun x x' hx => ⟨?_, hx.keys⟩
      obtain ⟨_, _, _, f, f', e1, e2, h3, _⟩ := hx
      rw [e1, e2]
      exact h3.name
    refine (sim_scheduleGroups hsub hg hn hns.name (sim_groupByFunc hns hf) w ids hgi h).bind ?_
    rintro ⟨b, fb⟩ ⟨c, fc⟩ ⟨⟨hbc, he⟩, hfe⟩
    exact (sim_scheduleLinks hns w ids hdr hfe hl (he _ _ hgi) hbc).mono fun a b hab => ⟨hab.1, he.trans hab.2⟩

theorem graphOf_setIndex {st : St} {w : Nat} {idx : Index} {v : Nat} : graphOf (setIndex w idx st) v = graphOf st v := by
  unfold graphOf setIndex
  simp only [List.getElem?_modify]
  cases st.wfs[v]? with
  | none => simp
  | some x => by_cases e : w = v <;> simp [e]

theorem StSim.setIndex {st st' : St} (h : StSim env env' U P st st') (w : Nat) (idx : Index) :
    Out env env' U P st (setIndex w idx st) (setIndex w idx st') := by
  refine ⟨⟨h.atOnce, h.results, ?_, ?_, ?_⟩, fun v gi hv => by rw [graphOf_setIndex]; exact hv⟩
  · simp only [Hiku.setIndex, h.wfs]
  · exact h.log.imp fun a b hab => hab.mono fun v gi hv => by rw [graphOf_setIndex]; exact hv
  · exact h.q.mono fun a b hab => hab.mono fun v gi hv => by rw [graphOf_setIndex]; exact hv

theorem linkRef_congr {gl gl' : GLink} (h : gl' = { gl with func := gl'.func }) (v : Val) : linkRef gl' v = linkRef gl v := by
  rw [h]; rfl

theorem storeLinkRows_congr {gl gl' : GLink} (h : gl' = { gl with func := gl'.func }) (n key : String) (l : List (Val × Val)) :
    ∀ idx, storeLinkRows idx n gl' key l = storeLinkRows idx n gl key l := by
  induction l with
  | nil => intro idx; rfl
  | cons x r ih =>
    intro idx
    obtain ⟨i, v⟩ := x
    simp only [storeLinkRows, linkRef_congr h, ih]

theorem storeLinks_congr {H : PyHash} {idx : Index} {gn gn' : GNode} (hname : gn'.name = gn.name) {gl gl' : GLink}
    (h : gl' = { gl with func := gl'.func }) (ql : QItem) (ids : Option (List Val)) (r : Val) :
    storeLinks H idx gn' gl' ql ids r = storeLinks H idx gn gl ql ids r := by
  have e1 : gl'.requires = gl.requires := by rw [h]
  have e2 : gl'.typeEnum = gl.typeEnum := by rw [h]
  simp only [storeLinks, checkStoreLinks, writeLinks, hname, e1, e2, storeLinkRows_congr h, linkRef_congr h]

include hgood in
theorem sim_processLink (hsys : SysSim env env' P) {sub sub' : SubCall} (hsub : SubSim env env' U P sub sub') {gn gn' : GNode}
    (hname : gn'.name = gn.name) {gl gl' : GLink} (hl : gl' = { gl with func := gl'.func }) (w : Nat) {gi : Nat} {ql : QItem}
    (hla : LinkAt env U gi gl ql) (ids : Option (List Val)) (r : Val) {st st' : St} (hgi : graphOf st w = some gi)
    (h : StSim env env' U P st st') :
    ERel (Out env env' U P st) (processLink env sub w gn gl ql ids r st) (processLink env' sub' w gn' gl' ql ids r st') := by
  unfold processLink
  rw [h.wfs]
  cases hw : st.wfs[w]? with
  | none => exact .error _
  | some wf =>
    have hwg : wf.graph = gi := by
      unfold graphOf at hgi
      rw [hw] at hgi
      simpa using hgi
    have e1 : gl'.requires = gl.requires := by rw [hl]
    have e2 : gl'.typeEnum = gl.typeEnum := by rw [hl]
    have e3 : gl'.node = gl.node := by rw [hl]
    simp only [hsys.H, storeLinks_congr hname hl, e1, e2, e3]
    refine (ERel.rfl' _).bind ?_
    rintro _ idx rfl
    refine (ERel.rfl' _).bind ?_
    rintro _ toIds rfl
    obtain ⟨hs, he⟩ := h.setIndex w idx
    by_cases hem : toIds.isEmpty = true
    · rw [if_pos hem, if_pos hem]
      exact .ok ⟨hs, he⟩
    · rw [if_neg hem, if_neg hem]
      obtain ⟨g, t, n, q, o, a, hg, ht, rfl, hq⟩ := hla
      obtain ⟨g', hg', hgs⟩ := hsys.graph gi g hg
      obtain ⟨t', ht', hts⟩ := hgs.node _ _ ht
      simp only [hwg, hg, hg', ht, ht']
      exact (sim_processNode hgood hsub hg (.inr ⟨_, ht⟩) hts w hq _ (he _ _ hgi) hs).mono
        fun a b hab => ⟨hab.1, he.trans hab.2⟩

/-! ### Sub-graphs -/

theorem mapM_congr2 {α β γ : Type} {f : α → Except Err γ} {f' : β → Except Err γ} {l : List α} {l' : List β}
    {R : α → β → Prop} (h : List.Forall₂ R l l') (hR : ∀ a b, R a b → f' b = f a) : l'.mapM f' = l.mapM f := by
  induction h with
  | nil => rfl
  | cons h1 _ ih => rw [List.mapM_cons, List.mapM_cons, hR _ _ h1, ih]

theorem graphOf_push {st : St} {wf : Wf} : graphOf { st with wfs := st.wfs ++ [wf] } st.wfs.length = some wf.graph := by
  simp [graphOf]

theorem StSim.push {st st' : St} (h : StSim env env' U P st st') (wf : Wf) :
    Out env env' U P st { st with wfs := st.wfs ++ [wf] } { st' with wfs := st'.wfs ++ [wf] } := by
  have he : Ext st { st with wfs := st.wfs ++ [wf] } := by
    intro w gi hw
    unfold graphOf at hw ⊢
    cases h1 : st.wfs[w]? with
    | none => rw [h1] at hw; cases hw
    | some x =>
      rw [h1] at hw
      rw [List.getElem?_append_left (List.getElem?_eq_some_iff.1 h1).1, h1]
      exact hw
  exact ⟨⟨h.atOnce, h.results, by simp only [h.wfs], h.log.imp fun a b hab => hab.mono he, h.q.mono fun a b hab => hab.mono he⟩, he⟩

include hgood in
theorem sim_subGraphCall (hsys : SysSim env env' P) {sub sub' : SubCall} (hsub : SubSim env env' U P sub sub') :
    SubSim env env' U P (subGraphCall env sub) (subGraphCall env' sub') := by
  intro gi g gn gn' sg sg' items items' ids dep st st' hg hn hs hgr h
  unfold subGraphCall
  rw [hs]
  cases hsub1 : env.sys.subs[sg]? with
  | none => exact .error _
  | some s =>
    simp only
    have hch : items'.mapM (fun f => checkedOf f.1) = items.mapM (fun f => checkedOf f.1) := by
      refine mapM_congr2 hgr.2.2 ?_
      rintro ⟨x1, x2⟩ ⟨y1, y2⟩ ⟨_, _, f, f', e1, e2, _, hf⟩
      simp only at e1 e2 ⊢
      subst e1 e2
      obtain ⟨nm, ty, fn, os⟩ := f
      obtain ⟨nm', ty', fn', os'⟩ := f'
      have := hf.func
      simp only at this
      cases this with
      | plain => rfl
      | checked => rfl
    have hop : items'.mapM (fun f => optionValues f.1 f.2) = items.mapM (fun f => optionValues f.1 f.2) := by
      refine mapM_congr2 hgr.2.2 ?_
      rintro ⟨x1, x2⟩ ⟨y1, y2⟩ ⟨e0, _, f, f', e1, e2, _, hf⟩
      simp only at e0 e1 e2 ⊢
      subst e0 e1 e2
      simp only [optionValues, GItem.options, hf.options]
    have hent : ∀ x ∈ items, ∃ gf reqs p, x.1 = .field gf ∧ gn.get x.2.name = some (.field gf) ∧
        gf.func = .checked sg reqs p := by
      intro x hx
      obtain ⟨x', _, h1, f, f', e1, _, h2, _⟩ := forall2_left' hgr.2.2 hx
      obtain ⟨reqs, p, h3⟩ := Func.key_sub h2
      exact ⟨f, reqs, p, e1, by rw [← e1]; exact h1, h3⟩
    obtain ⟨x0, hx0⟩ := List.exists_mem_of_ne_nil _ hgr.2.1
    obtain ⟨gf0, reqs0, p0, _, hget0, hf0⟩ := hent x0 hx0
    obtain ⟨_, s', g1, t, hs1, _, hg1, ht, _, _⟩ := hgood.subs gi g hg gn hn _ gf0 hget0 sg reqs0 p0 hf0
    rw [hsub1] at hs1
    cases hs1
    obtain ⟨g1', hg1', hgs⟩ := hsys.graph _ _ hg1
    simp only [hg1, hg1', hch, hop, hsys.H]
    obtain ⟨ch, hc⟩ : ∃ ch, List.Forall₂ (fun (x : GItem × QItem) (c : QNode × Nat) => checkedOf x.1 = .ok c ∧
        ReqsOk U g1 t c.1) items ch := by
      apply forall2_exists
      intro x hx
      obtain ⟨gf, reqs, p, h1, h2, h3⟩ := hent x hx
      refine ⟨(reqs, p), ?_, ?_⟩
      · obtain ⟨nm, ty, fn, os⟩ := gf
        simp only at h3
        subst h3
        rw [h1]; rfl
      · obtain ⟨_, s', g'', t', e1, _, e2, e3, _, e4⟩ := hgood.subs gi g hg gn hn _ gf h2 sg reqs p h3
        rw [hsub1] at e1; cases e1
        rw [hg1] at e2; cases e2
        rw [ht] at e3; cases e3
        exact e4
    rw [mapM_ok_iff.2 (hc.imp fun _ _ h => h.1)]
    simp only [ok_bind']
    have hreqs : ∀ q ∈ ch.map (·.1), ReqsOk U g1 t q := by
      intro q hq
      obtain ⟨c, hcm, rfl⟩ := List.mem_map.1 hq
      obtain ⟨x, _, h⟩ := Hiku.forall2_mem_right hc hcm
      exact h.2
    have hchne : ch.map (·.1) ≠ [] := by
      intro e
      have : ch = [] := by simpa using e
      rw [this] at hc
      cases hc
      exact hgr.2.1 rfl
    obtain ⟨m1, m2, m3, m4, m5⟩ := reqs_merge (H := env.H) hchne hreqs
    generalize merge env.H (subMerge env.H (ch.map (·.1)) THIS) = Q at *
    generalize merge env.H (ch.map (·.1)) = reqs at *
    refine (ERel.rfl' _).bind ?_
    rintro _ opts rfl
    simp only [m1, h.wfs]
    have hpush := h.push { graph := s.graph, query := reqs, ts := dep }
    rw [h.wfs] at hpush
    obtain ⟨hp, hpe⟩ := hpush
    have hgi0 := graphOf_push (st := st) (wf := { graph := s.graph, query := reqs, ts := dep })
    simp only at hgi0
    have hla : LinkAt env U s.graph (thisLink s.node) (.link THIS Q none none) :=
      ⟨g1, t, _, Q, _, _, hg1, ht, rfl, m3⟩
    refine (sim_processLink hgood hsys hsub (gn := g1.root) (gn' := g1'.root) rfl (gl := thisLink s.node) rfl
      st.wfs.length hla none (.list ids) hgi0 hp).bind ?_
    rintro a b ⟨hab, he⟩
    refine (sim_processNode hgood hsub hg1 (.inl rfl) hgs.root st.wfs.length m4 none (he _ _ hgi0) hab).bind ?_
    rintro a2 b2 ⟨hab2, he2⟩
    exact .ok ⟨⟨hab2, hpe.trans (he.trans he2)⟩, rfl⟩
where
  forall2_left' {α β : Type} {R : α → β → Prop} {l : List α} {l' : List β} (h : List.Forall₂ R l l')
    {a : α} (ha : a ∈ l) : ∃ b, R a b := by
    induction h with
    | nil => simp at ha
    | cons h1 _ ih =>
      rcases List.mem_cons.1 ha with rfl | ha
      · exact ⟨_, h1⟩
      · exact ih ha

include hgood in
theorem sim_subCall (hsys : SysSim env env' P) : ∀ n, SubSim env env' U P (subCall env n) (subCall env' n)
  | 0 => by
    intro gi g gn gn' sg sg' items items' ids dep st st' _ _ _ _ _
    exact .error _
  | n + 1 => sim_subGraphCall hgood hsys (sim_subCall hsys n)

/-! ### The loop -/

theorem storeFields_congr {H : PyHash} {idx : Index} {gn gn' : GNode} (hname : gn'.name = gn.name) (qfs : List QItem)
    (ids : Option (List Val)) (r : Val) : storeFields H idx gn' qfs ids r = storeFields H idx gn qfs ids r := by
  simp only [storeFields, checkStoreFields, hname]

theorem resultProc_congr (hsys : SysSim env env' P) (wf : Wf) (procs : List (Nat × List Val)) :
    resultProc env' wf procs = resultProc env wf procs := by
  simp only [resultProc, hsys.H, hsys.proc]

include hgood in
theorem sim_runCB (hsys : SysSim env env' P) {cb cb' : CB} {st st' : St} (h : StSim env env' U P st st')
    (hc : CBSim env env' U P (graphOf st) cb cb') :
    ERel (Out env env' U P st) (runCB env cb st) (runCB env' cb' st') := by
  have hlev : env'.levels = env.levels := hsys.levels
  cases cb with
  | store w node qfs ids src =>
    cases cb' <;> simp only [CBSim] at hc
    obtain ⟨rfl, hname, rfl, rfl, rfl⟩ := hc
    simp only [runCB, h.wfs, h.results, resultProc_congr hsys, hsys.H, storeFields_congr hname]
    refine (ERel.rfl' _).bind ?_
    rintro _ r rfl
    rename_i w _ _ _ _
    cases st.wfs[w]? with
    | none => exact .error _
    | some wf =>
      refine (ERel.rfl' _).bind ?_
      rintro _ idx rfl
      exact .ok (h.setIndex _ _)
  | schedLink w node gl ql ids =>
    cases cb' <;> simp only [CBSim] at hc
    obtain ⟨rfl, hname, rfl, rfl, gi, hgi, hl, hla⟩ := hc
    simp only [runCB]
    refine (sim_scheduleLink hname hl _ hla _ hgi h).bind ?_
    rintro ⟨a, fa⟩ ⟨b, fb⟩ ⟨hab, _⟩
    exact .ok hab
  | procLink w node gl ql ids fut =>
    cases cb' <;> simp only [CBSim] at hc
    obtain ⟨rfl, hname, rfl, rfl, rfl, gi, hgi, hl, hla⟩ := hc
    simp only [runCB, h.results, hlev]
    refine (ERel.rfl' _).bind ?_
    rintro _ r rfl
    exact sim_processLink hgood hsys (sim_subCall hgood hsys _) hname hl.same _ hla _ _ hgi h
  | procSteps w node ids steps =>
    cases cb' <;> simp only [CBSim] at hc
    obtain ⟨rfl, rfl, gi, g, hgi, hg, hn, hns, hs⟩ := hc
    simp only [runCB, hlev]
    exact sim_runSteps (sim_subCall hgood hsys _) hg hn hns _ _ hs hgi h

include hgood in
theorem sim_runCallbacks (hsys : SysSim env env' P) {G : Nat → Option Nat} {l l' : List CB}
    (hl : List.Forall₂ (CBSim env env' U P G) l l') : ∀ {st st' : St}, StSim env env' U P st st' →
    (∀ w gi, G w = some gi → graphOf st w = some gi) →
    ERel (Out env env' U P st) (runCallbacks (runCB env) l st) (runCallbacks (runCB env') l' st') := by
  induction hl with
  | nil => exact fun h _ => .ok ⟨h, Ext.refl _⟩
  | cons h1 _ ih =>
    intro st st' h hG
    simp only [runCallbacks]
    refine (sim_runCB hgood hsys h (h1.mono hG)).bind ?_
    rintro a b ⟨hab, he⟩
    exact (ih hab fun w gi hw => he _ _ (hG w gi hw)).mono fun a b hab => ⟨hab.1, he.trans hab.2⟩

include hgood in
theorem sim_fire (hsys : SysSim env env' P) (o : Obj) {st st' : St} (h : StSim env env' U P st st') :
    ERel (Out env env' U P st) (fireCallbacks qlens (runCB env) o st) (fireCallbacks qlens (runCB env') o st') := by
  unfold fireCallbacks
  obtain ⟨h1, h2⟩ := h.q.pop o
  exact sim_runCallbacks hgood hsys h1 (h.setQ h2) (fun _ _ h => h)

include hgood in
theorem sim_fireFutures (hsys : SysSim env env' P) (l : List Nat) : ∀ {st st' : St}, StSim env env' U P st st' →
    ERel (Out env env' U P st) (fireFutures qlens (runCB env) l st) (fireFutures qlens (runCB env') l st') := by
  induction l with
  | nil => exact fun h => .ok ⟨h, Ext.refl _⟩
  | cons f r ih =>
    intro st st' h
    simp only [fireFutures]
    refine (sim_fire hgood hsys (.fut f) h).bind ?_
    rintro a b ⟨hab, he⟩
    exact (ih hab).mono fun a b hab => ⟨hab.1, he.trans hab.2⟩

include hgood in
theorem sim_fireTaskSets (hsys : SysSim env env' P) (l : List Nat) : ∀ {st st' : St}, StSim env env' U P st st' →
    ERel (Out env env' U P st) (fireTaskSets qlens (runCB env) l st) (fireTaskSets qlens (runCB env') l st') := by
  induction l with
  | nil => exact fun h => .ok ⟨h, Ext.refl _⟩
  | cons t r ih =>
    intro st st' h
    simp only [fireTaskSets]
    refine (sim_fire hgood hsys (.ts t) h).bind ?_
    rintro a b ⟨hab, he⟩
    exact (ih (hab.setQ (hab.q.removeTs t))).mono fun a b hab => ⟨hab.1, he.trans hab.2⟩

include hgood in
theorem sim_drain (hsys : SysSim env env' P) : ∀ (fuel : Nat) {st st' : St}, StSim env env' U P st st' →
    ERel (Out env env' U P st) (drain qlens (runCB env) fuel st) (drain qlens (runCB env') fuel st')
  | 0, _, _, _ => .error _
  | fuel + 1, st, st', h => by
    simp only [drain]
    have : (qlens.get st').completed = (qlens.get st).completed := h.q.completed
    rw [this]
    cases (qlens.get st).completed with
    | nil => exact .ok ⟨h, Ext.refl _⟩
    | cons t r =>
      simp only
      refine (sim_fireTaskSets hgood hsys (t :: r) h).bind ?_
      rintro a b ⟨hab, he⟩
      exact (sim_drain hsys fuel hab).mono fun a b hab => ⟨hab.1, he.trans hab.2⟩

include hgood in
theorem sim_execLoop (hsys : SysSim env env' P) (choose : Nat → List Nat → List Nat) (inner : Nat) :
    ∀ (fuel round : Nat) {st st' : St}, StSim env env' U P st st' →
    ERel (Out env env' U P st) (execLoop env choose inner fuel round st) (execLoop env' choose inner fuel round st')
  | 0, _, _, _, _ => .error _
  | fuel + 1, round, st, st', h => by
    simp only [execLoop, h.q.outstanding]
    by_cases he : st.q.outstanding.isEmpty = true
    · rw [if_pos he, if_pos he]
      exact .ok ⟨h, Ext.refl _⟩
    · rw [if_neg he, if_neg he]
      have h1 : StSim env env' U P { st with log := st.log ++ [.done (choose round st.q.outstanding)] }
          { st' with log := st'.log ++ [.done (choose round st.q.outstanding)] } :=
        ⟨h.atOnce, h.results, h.wfs, forall2_append h.log (.cons rfl .nil), h.q⟩
      have h2 : ERel (Out env env' U P st)
          (progress qlens (runCB env) inner (choose round st.q.outstanding)
            { st with log := st.log ++ [.done (choose round st.q.outstanding)] })
          (progress qlens (runCB env') inner (choose round st.q.outstanding)
            { st' with log := st'.log ++ [.done (choose round st.q.outstanding)] }) := by
        unfold progress
        refine (sim_fireFutures hgood hsys _ (h1.setQ (h1.q.dropDone (choose round st.q.outstanding)))).bind ?_
        rintro a b ⟨hab, he⟩
        exact (sim_drain hgood hsys inner hab).mono fun a b hab => ⟨hab.1, he.trans hab.2⟩
      refine h2.bind ?_
      rintro a b ⟨hab, he⟩
      exact (sim_execLoop hsys choose inner fuel (round + 1) hab).mono fun a b hab => ⟨hab.1, he.trans hab.2⟩

/-! ### Options and the whole execution -/

theorem ItemSim.options {P : PFunc → PFunc → List Arg → Prop} {i i' : GItem} (h : ItemSim env env' P i i') : i'.options = i.options := by
  cases h with
  | field h => exact h.options
  | link h => simp only [GItem.options]; rw [h.same]

mutual
theorem init_item {g g' : Graph} (hgs : GraphSim env env' (P gi) g g') {gn gn' : GNode} (hns : NodeSim env env' (P gi) gn gn') :
    (i : QItem) → ∀ (i1 : QItem), initItem g gn i = .ok i1 → initItem g' gn' i = .ok i1
  | .field n o a => by
    intro i1 h
    simp only [initItem] at h ⊢
    cases hget : gn.get n with
    | none => rw [hget] at h; cases h
    | some gi =>
      obtain ⟨gi', h1, h2⟩ := hns.items _ _ hget
      rw [hget] at h
      rw [h1]
      simp only [h2.options] at h ⊢
      exact h
  | .link n q o a => by
    intro i1 h
    simp only [initItem] at h ⊢
    cases hget : gn.get n with
    | none => rw [hget] at h; cases h
    | some gi =>
      obtain ⟨gi', h1, h2⟩ := hns.items _ _ hget
      rw [hget] at h
      rw [h1]
      cases h2 with
      | @field f f' hf =>
        simp only [hf.options] at h ⊢
        exact h
      | @link l l' hl =>
        have e1 : l'.options = l.options := by rw [hl.same]
        have e2 : l'.node = l.node := by rw [hl.same]
        simp only [e1, e2] at h ⊢
        cases hnode : g.node l.node with
        | none => rw [hnode] at h; cases h
        | some t =>
          obtain ⟨t', h3, h4⟩ := hgs.node _ _ hnode
          rw [hnode] at h
          rw [h3]
          simp only [bind_ok_iff] at h
          obtain ⟨q', hq, h⟩ := h
          simp only [init_node hgs h4 q _ hq, ok_bind']
          exact h
theorem init_node {g g' : Graph} (hgs : GraphSim env env' (P gi) g g') {gn gn' : GNode} (hns : NodeSim env env' (P gi) gn gn') :
    (q : QNode) → ∀ (q1 : QNode), initNode g gn q = .ok q1 → initNode g' gn' q = .ok q1
  | .mk fs ord => by
    intro q1 h
    simp only [initNode, bind_ok_iff] at h ⊢
    obtain ⟨fs', h1, h2⟩ := h
    exact ⟨fs', init_items hgs hns fs _ h1, h2⟩
theorem init_items {g g' : Graph} (hgs : GraphSim env env' (P gi) g g') {gn gn' : GNode} (hns : NodeSim env env' (P gi) gn gn') :
    (l : List QItem) → ∀ (l1 : List QItem), initItems g gn l = .ok l1 → initItems g' gn' l = .ok l1
  | [] => by intro l1 h; exact h
  | i :: r => by
    intro l1 h
    simp only [initItems, bind_ok_iff] at h ⊢
    obtain ⟨i', h1, r', h2, h3⟩ := h
    exact ⟨i', init_item hgs hns i _ h1, r', init_items hgs hns r _ h2, h3⟩
end

/-- the final state of an execution -/
def runQuery (env : Env) (choose : Nat → List Nat → List Nat) (inner fuel gi : Nat) (q : QNode) : Except Err St := do
  let st ← startQuery env gi q
  execLoop env choose inner fuel 0 st

theorem execute_eq {env : Env} {choose : Nat → List Nat → List Nat} {inner fuel gi : Nat} {q : QNode} :
    execute env choose inner fuel gi q = (do
      let st ← runQuery env choose inner fuel gi q
      match st.wfs[0]? with
      | none => .error .assertionError
      | some wf => .ok (wf.index, wf.query)) := by
  unfold execute runQuery
  cases startQuery env gi q with
  | error e => rfl
  | ok st => rfl

include hgood in
/-- Related programs have related executions for every valid query and every schedule: the same outcome (the
same index or the same exception), the same results of calls, the same calls in the same order with the same
arguments. -/
theorem sim_run (hsys : SysSim env env' P) (choose : Nat → List Nat → List Nat) (inner fuel : Nat) {gi : Nat} {g : Graph}
    {q q' : QNode} (hg : env.sys.graphs[gi]? = some g) (hi : initOptions g q = .ok q') (hq : NodeOk U g g.root q') :
    ERel (StSim env env' U P) (runQuery env choose inner fuel gi q) (runQuery env' choose inner fuel gi q) := by
  obtain ⟨g', hg', hgs⟩ := hsys.graph gi g hg
  have hi' : initOptions g' q = .ok q' := init_node hgs hgs.root q _ hi
  have hlev : env'.levels = env.levels := hsys.levels
  unfold runQuery
  have hstart : ERel (StSim env env' U P) (startQuery env gi q) (startQuery env' gi q) := by
    simp only [startQuery, hg, hg', hi, hi', ok_bind', hlev]
    have h0 : ∀ (Q : Queue CB) (l : List Wf), Q.callbacks = [] → StSim env env' U P { q := Q, wfs := l } { q := Q, wfs := l } :=
      fun Q l hQ => ⟨hsys.atOnce, rfl, rfl, .nil, rfl, rfl, rfl, by rw [hQ]; exact .nil⟩
    exact (sim_processNode hgood (sim_subCall hgood hsys _) hg (.inl rfl) hgs.root 0 hq none rfl (h0 _ _ rfl)).mono
      fun a b hab => hab.1
  refine hstart.bind ?_
  intro a b hab
  exact (sim_execLoop hgood hsys choose inner fuel 0 hab).mono fun a b hab => hab.1

include hgood in
theorem sim_execute (hsys : SysSim env env' P) (choose : Nat → List Nat → List Nat) (inner fuel : Nat) {gi : Nat} {g : Graph}
    {q q' : QNode} (hg : env.sys.graphs[gi]? = some g) (hi : initOptions g q = .ok q') (hq : NodeOk U g g.root q') :
    execute env' choose inner fuel gi q = execute env choose inner fuel gi q := by
  rw [execute_eq, execute_eq]
  have := sim_run hgood hsys choose inner fuel hg hi hq
  cases h1 : runQuery env choose inner fuel gi q with
  | error e =>
    rw [h1] at this
    cases h2 : runQuery env' choose inner fuel gi q with
    | error e' => rw [h2] at this; cases this; rfl
    | ok b => rw [h2] at this; cases this
  | ok a =>
    rw [h1] at this
    cases h2 : runQuery env' choose inner fuel gi q with
    | error e' => rw [h2] at this; cases this
    | ok b =>
      rw [h2] at this
      cases this with
      | ok hab => simp only [ok_bind', hab.wfs]

end Hiku.Sim
