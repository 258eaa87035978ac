import Verif.Spec.Telemetry
import Verif.Props.Transform
import Verif.Proofs.Sim

/-! # C47: metrics -/

namespace Hiku.Telemetry
open Hiku.Transform Hiku.Sim

variable {g : Graph} {base bs : Nat}

/-! ### The state of the transformer -/

theorem FirstLoads.loads {nm : Option String} {f : PFunc} (h : FirstLoads g nm f) : LoadsFields g nm f := by
  obtain ⟨pre, n, post, hi, hn, ⟨gf, hm, hf⟩, _⟩ := h
  exact ⟨n, by simp [hi], hn, gf, hm, hf⟩

theorem FirstNode.det {P : Func → Prop} {nm nm' : Option String} (h : FirstNode g nm P) (h' : FirstNode g nm' P) :
    nm = nm' := by
  obtain ⟨pre, n, post, hi, hn, ⟨gf, hm, hf⟩, hp⟩ := h
  obtain ⟨pre', n', post', hi', hn', ⟨gf', hm', hf'⟩, hp'⟩ := h'
  rw [hi] at hi'
  rcases List.append_eq_append_iff.1 hi' with ⟨a, h1, h2⟩ | ⟨a, h1, h2⟩
  · cases a with
    | nil => simp only [List.nil_append, List.cons.injEq] at h2; rw [← hn, ← hn', h2.1]
    | cons x a =>
      simp only [List.cons_append, List.cons.injEq] at h2
      exact absurd hf (hp' n (by rw [h1, h2.1]; simp) gf hm)
  · cases a with
    | nil => simp only [List.nil_append, List.cons.injEq] at h2; rw [← hn, ← hn', h2.1]
    | cons x a =>
      simp only [List.cons_append, List.cons.injEq] at h2
      exact absurd hf' (hp n' (by rw [h1, h2.1]; simp) gf' hm')

/-- the wrapper of a function or of a sub-graph -/
def EntryOk (g : Graph) (base bs : Nat) (s : MSt) : FKey → FKey → Prop
  | .plain f, k' => ∃ (i : Nat) (w : Wrapper) (nm0 : Option String), k' = .plain (newFunc base i f) ∧ s.funcs[i]? = some w ∧ w.inner = f ∧
      w.kind = .field ∧ w.label = labelOf nm0 ∧ FirstLoads g nm0 f
  | .sub sg, k' => ∃ (i : Nat) (lb : String) (nm0 : Option String), k' = .sub (bs + i) ∧ s.subs[i]? = some (lb, sg) ∧
      lb = labelOf nm0 ∧ FirstLoadsSub g nm0 sg

def MInv (g : Graph) (base bs : Nat) (s : MSt) : Prop :=
  ∀ k k', dget s.wrappers k = some k' → EntryOk g base bs s k k'

/-- all functions of these nodes have wrappers -/
def Seen (pre : List GNode) (s : MSt) : Prop :=
  ∀ m ∈ pre, ∀ gf, .field gf ∈ m.fields → dget s.wrappers gf.func.key ≠ none

structure MExt (s s' : MSt) : Prop where
  funcs : ∀ (i : Nat) w, s.funcs[i]? = some w → s'.funcs[i]? = some w
  subs : ∀ (i : Nat) w, s.subs[i]? = some w → s'.subs[i]? = some w
  wrappers : ∀ k w, dget s.wrappers k = some w → dget s'.wrappers k = some w

theorem MExt.refl (s : MSt) : MExt s s := ⟨fun _ _ h => h, fun _ _ h => h, fun _ _ h => h⟩
theorem MExt.trans {a b c : MSt} (h : MExt a b) (h' : MExt b c) : MExt a c :=
  ⟨fun i w k => h'.funcs i w (h.funcs i w k), fun i w k => h'.subs i w (h.subs i w k),
   fun i w k => h'.wrappers i w (h.wrappers i w k)⟩

theorem Seen.ext {s s' : MSt} (he : MExt s s') {pre : List GNode} (h : Seen pre s) : Seen pre s' := by
  intro m hm gf hgf hn
  cases hw : dget s.wrappers gf.func.key with
  | none => exact h m hm gf hgf hw
  | some w => rw [he.wrappers _ _ hw] at hn; cases hn

theorem EntryOk.ext {s s' : MSt} (he : MExt s s') {k k' : FKey} (h : EntryOk g base bs s k k') :
    EntryOk g base bs s' k k' := by
  cases k with
  | plain f =>
    obtain ⟨i, w, nm0, h1, h2, h3⟩ := h
    exact ⟨i, w, nm0, h1, he.funcs _ _ h2, h3⟩
  | sub sg =>
    obtain ⟨i, lb, nm0, h1, h2, h3⟩ := h
    exact ⟨i, lb, nm0, h1, he.subs _ _ h2, h3⟩

theorem EntryOk.inj {s : MSt} {k1 k2 k' : FKey} (h1 : EntryOk g base bs s k1 k') (h2 : EntryOk g base bs s k2 k') :
    k1 = k2 := by
  cases k1 with
  | plain f =>
    obtain ⟨i, w, nm0, rfl, e1, e2, _⟩ := h1
    cases k2 with
    | plain f2 =>
      obtain ⟨j, w2, nm2, e3, e4, e5, _⟩ := h2
      simp only [newFunc, FKey.plain.injEq, PFunc.mk.injEq] at e3
      have : i = j := by omega
      subst this
      rw [e1] at e4
      cases e4
      rw [← e2, ← e5]
    | sub sg => obtain ⟨j, lb, nm2, e3, _⟩ := h2; cases e3
  | sub sg =>
    obtain ⟨i, lb, nm1, rfl, e1, _⟩ := h1
    cases k2 with
    | plain f2 => obtain ⟨j, w2, nm2, e3, _⟩ := h2; cases e3
    | sub sg2 =>
      obtain ⟨j, lb2, nm2, e3, e4, _⟩ := h2
      simp only [FKey.sub.injEq] at e3
      have : i = j := by omega
      subst this
      rw [e1] at e4
      cases e4
      rfl

/-- what the transformer makes of a field or a link -/
def WItem (base : Nat) (s : MSt) (nm : Option String) : GItem → GItem → Prop
  | .field f, .field f' => ∃ k', dget s.wrappers f.func.key = some k' ∧ f' = putFunc f k'
  | .link l, .link l' => ∃ i : Nat, l' = { l with func := newFunc base i l.func } ∧
      s.funcs[i]? = some { label := labelOf nm, inner := l.func, kind := .link l.name }
  | _, _ => False

theorem WItem.ext {s s' : MSt} (he : MExt s s') {nm : Option String} {i i' : GItem} (h : WItem base s nm i i') :
    WItem base s' nm i i' := by
  cases i <;> cases i' <;> simp only [WItem] at h ⊢
  · obtain ⟨k', h1, h2⟩ := h
    exact ⟨k', he.wrappers _ _ h1, h2⟩
  · obtain ⟨k', h1, h2⟩ := h
    exact ⟨k', h1, he.funcs _ _ h2⟩

theorem getElem?_snoc {α : Type} (l : List α) (a : α) : (l ++ [a])[l.length]? = some a := by simp

theorem getElem?_append_some {α : Type} {l m : List α} {i : Nat} {a : α} (h : l[i]? = some a) : (l ++ m)[i]? = some a := by
  rw [List.getElem?_append_left (List.getElem?_eq_some_iff.1 h).1, h]

theorem metricsField_ok {nm : Option String} {f : GField} {pre post : List GNode} {n : GNode}
    (hit : g.items = pre ++ n :: post) (hnm : n.name = nm) (hm : .field f ∈ n.fields)
    {s : MSt} (hs : MInv g base bs s) (hseen : Seen pre s) :
    MInv g base bs (metricsField "Root" base bs nm f s).2 ∧ MExt s (metricsField "Root" base bs nm f s).2 ∧
    WItem base (metricsField "Root" base bs nm f s).2 nm (.field f) (.field (metricsField "Root" base bs nm f s).1) := by
  unfold metricsField
  cases hw : dget s.wrappers f.func.key with
  | some k => exact ⟨hs, MExt.refl _, k, hw, rfl⟩
  | none =>
    simp only
    have key : ∀ (s1 : MSt) (k' : FKey), s1.wrappers = dset s.wrappers f.func.key k' →
        (∀ (i : Nat) w, s.funcs[i]? = some w → s1.funcs[i]? = some w) → (∀ (i : Nat) w, s.subs[i]? = some w → s1.subs[i]? = some w) →
        EntryOk g base bs s1 f.func.key k' →
        MInv g base bs s1 ∧ MExt s s1 ∧ WItem base s1 nm (.field f) (.field (putFunc f k')) := by
      intro s1 k' hw1 hf1 hs1 hk
      have he : MExt s s1 := by
        refine ⟨hf1, hs1, fun k w h => ?_⟩
        rw [hw1, dget_dset]
        split
        · rename_i e; subst e; rw [hw] at h; cases h
        · exact h
      refine ⟨?_, he, k', by rw [hw1, dget_dset, if_pos rfl], rfl⟩
      intro k w h
      rw [hw1, dget_dset] at h
      split at h
      · rename_i e; subst e; cases h; exact hk
      · exact (hs k w h).ext he
    have hfirst : ∀ m ∈ pre, ∀ gf, .field gf ∈ m.fields → gf.func.key ≠ f.func.key := by
      intro m hm gf hgf he
      exact hseen m hm gf hgf (by rw [he]; exact hw)
    cases hfn : f.func with
    | plain inner =>
      simp only
      have := key { s with funcs := s.funcs ++ [{ label := nm.getD "Root", inner := inner, kind := .field }]
                           wrappers := dset s.wrappers f.func.key (.plain (newFunc base s.funcs.length inner)) }
        _ rfl (fun i w h => getElem?_append_some h) (fun _ _ h => h) (by
          rw [hfn]
          exact ⟨s.funcs.length, _, nm, rfl, getElem?_snoc _ _, rfl, rfl, rfl, pre, n, post, hit, hnm,
            ⟨f, hm, hfn⟩, fun m hm gf hgf he => hfirst m hm gf hgf (by rw [he, hfn])⟩)
      rw [hfn] at this
      exact this
    | checked sg reqs p =>
      simp only
      have := key { s with subs := s.subs ++ [(nm.getD "Root", sg)]
                           wrappers := dset s.wrappers f.func.key (.sub (bs + s.subs.length)) }
        _ rfl (fun _ _ h => h) (fun i w h => getElem?_append_some h) (by
          rw [hfn]
          exact ⟨s.subs.length, _, nm, rfl, getElem?_snoc _ _, rfl, pre, n, post, hit, hnm,
            ⟨f, hm, reqs, p, hfn⟩, fun m hm gf hgf he => hfirst m hm gf hgf (by
              obtain ⟨reqs', p', he⟩ := he; rw [he, hfn]; rfl)⟩)
      rw [hfn] at this
      exact this

theorem metricsLink_ok {nm : Option String} {l : GLink} {s : MSt} (hs : MInv g base bs s) :
    MInv g base bs (metricsLink "Root" base nm l s).2 ∧ MExt s (metricsLink "Root" base nm l s).2 ∧
    WItem base (metricsLink "Root" base nm l s).2 nm (.link l) (.link (metricsLink "Root" base nm l s).1) := by
  have he : MExt s (metricsLink "Root" base nm l s).2 :=
    ⟨fun i w h => getElem?_append_some h, fun _ _ h => h, fun _ _ h => h⟩
  exact ⟨fun k k' h => (hs k k' h).ext he, he, s.funcs.length, rfl, getElem?_snoc _ _⟩

/-! ### The traversal -/

theorem visitItems_ok {nm : Option String} {pre post : List GNode} {n : GNode}
    (hit : g.items = pre ++ n :: post) (hnm : n.name = nm) (l : List GItem) (hl : ∀ i ∈ l, i ∈ n.fields) :
    ∀ s, MInv g base bs s → Seen pre s → ∃ l' s', visitItems (metricsHooks base bs) nm l s = .ok (l', s') ∧
      MInv g base bs s' ∧ MExt s s' ∧ List.Forall₂ (WItem base s' nm) l l' := by
  induction l with
  | nil => exact fun s hs _ => ⟨[], s, rfl, hs, MExt.refl _, .nil⟩
  | cons i r ih =>
    intro s hs hseen
    have hi := hl i List.mem_cons_self
    have ih := ih fun i hi => hl i (List.mem_cons_of_mem _ hi)
    cases i with
    | field f =>
      obtain ⟨h1, h2, h3⟩ := metricsField_ok hit hnm hi hs hseen
      obtain ⟨l', s', h4, h5, h6, h7⟩ := ih _ h1 (hseen.ext h2)
      refine ⟨_, s', ?_, h5, h2.trans h6, .cons (h3.ext h6) h7⟩
      simp only [visitItems, baseField_eq, metricsHooks] at h4 ⊢
      rw [h4]
      rfl
    | link l =>
      obtain ⟨h1, h2, h3⟩ := metricsLink_ok (nm := nm) (l := l) hs
      obtain ⟨l', s', h4, h5, h6, h7⟩ := ih _ h1 (hseen.ext h2)
      refine ⟨_, s', ?_, h5, h2.trans h6, .cons (h3.ext h6) h7⟩
      simp only [visitItems, baseLink_eq, metricsHooks, ok_bind'] at h4 ⊢
      rw [h4]
      rfl

/-- what the transformer makes of a node -/
def WNode (base : Nat) (s : MSt) (n n' : GNode) : Prop :=
  n'.name = n.name ∧ List.Forall₂ (WItem base s n.name) n.fields n'.fields

theorem visitNodes_ok (l : List GNode) : ∀ pre, g.items = pre ++ l →
    ∀ s, MInv g base bs s → Seen pre s → ∃ l' s', visitNodes (metricsHooks base bs) l s = .ok (l', s') ∧
      MInv g base bs s' ∧ MExt s s' ∧ List.Forall₂ (WNode base s') l l' := by
  induction l with
  | nil => exact fun _ _ s hs _ => ⟨[], s, rfl, hs, MExt.refl _, .nil⟩
  | cons n r ih =>
    intro pre hl s hs hseen
    obtain ⟨fs, s1, h1, h2, h3, h4⟩ := visitItems_ok (nm := n.name) hl rfl n.fields (fun i hi => hi) s hs hseen
    have hseen1 : Seen (pre ++ [n]) s1 := by
      intro m hm gf hgf
      rcases List.mem_append.1 hm with hm | hm
      · exact hseen.ext h3 m hm gf hgf
      · rw [List.mem_singleton] at hm
        subst hm
        obtain ⟨i', _, hw⟩ := left_mem h4 hgf
        cases i' with
        | link l => simp only [WItem] at hw
        | field f' =>
          simp only [WItem] at hw
          obtain ⟨k', hk, _⟩ := hw
          rw [hk]; simp
    obtain ⟨l', s', h5, h6, h7, h8⟩ := ih (pre ++ [n]) (by simp [hl]) s1 h2 hseen1
    have hm : (metricsHooks base bs).more n.name = [] := rfl
    simp only [visitNodes, visitNode, h1, h5, ok_bind', hm, List.append_nil]
    exact ⟨_, _, rfl, h6, h3.trans h7, .cons ⟨rfl, h4.imp fun _ _ h => h.ext h7⟩ h8⟩
where
  left_mem {α β : Type} {R : α → β → Prop} {l : List α} {l' : List β} (h : List.Forall₂ R l l')
    {a : α} (ha : a ∈ l) : ∃ b ∈ l', R a b := by
    induction h with
    | nil => simp at ha
    | cons h1 _ ih =>
      rcases List.mem_cons.1 ha with rfl | ha
      · exact ⟨_, List.mem_cons_self, h1⟩
      · obtain ⟨b, hb, h⟩ := ih ha
        exact ⟨b, List.mem_cons_of_mem _ hb, h⟩

theorem metrics_only : OnlyFunctions (metricsHooks base bs) where
  field nm f s := by
    have hp : ∀ k, SameButFunc (.field f) (.field (putFunc f k)) := by
      intro k
      cases k with
      | plain w => exact .field rfl rfl rfl rfl
      | sub sg =>
        unfold putFunc
        cases hf : f.func with
        | plain p => exact .field rfl rfl rfl rfl
        | checked => exact .field rfl rfl rfl rfl
    simp only [metricsHooks, metricsField]
    cases dget s.wrappers f.func.key with
    | some k => exact hp k
    | none =>
      cases hf : f.func with
      | plain p => simp only; exact hp _
      | checked => simp only; exact hp _
  link nm l s := .link rfl rfl rfl rfl rfl rfl
  more _ := rfl
  items := rfl

/-- C47: a graph with metrics is always constructed, and differs from the original graph in its functions
only. -/
theorem c47_graph (hg : Built g) : ∃ g' s, metricsVisit base bs g = .ok (g', s) ∧ SameGraph g g' ∧ Built g' :=
  c46_only_functions metrics_only hg {}

theorem metricsVisit_spec {g' : Graph} {s : MSt} (h : metricsVisit base bs g = .ok (g', s)) :
    MInv g base bs s ∧ g'.dataTypes = g.dataTypes ∧ List.Forall₂ (WNode base s) g.items g'.items := by
  obtain ⟨l', s', h1, h2, _, h3⟩ := visitNodes_ok (g := g) (base := base) (bs := bs) g.items [] rfl {}
    (fun k k' h => by cases h) (fun m hm => by cases hm)
  simp only [metricsVisit, visitGraph, h1, ok_bind', bind_ok_iff] at h
  obtain ⟨g1, h4, h5⟩ := h
  cases h5
  obtain ⟨rfl, _⟩ := buildGraph_eq h4
  refine ⟨h2, rfl, ?_⟩
  simpa [metricsHooks] using h3

/-! ### The programs are related -/

theorem get_mem {n : GNode} {x : String} {i : GItem} (h : n.get x = some i) : i ∈ n.fields := by
  unfold GNode.get GNode.fieldsMap at h
  rw [dget_dmk] at h
  have := dget_mem h
  simp only [List.mem_reverse, List.mem_map, Prod.mk.injEq] at this
  obtain ⟨a, h1, _, rfl⟩ := this
  exact h1

theorem node_mem {g : Graph} {x : String} {n : GNode} (h : g.node x = some n) : n ∈ g.items ∧ n.name = some x := by
  unfold Graph.node Graph.nodesMap at h
  rw [dget_dmk] at h
  have := dget_mem h
  simp only [List.mem_reverse, List.mem_filterMap, Option.map_eq_some_iff, Prod.mk.injEq] at this
  obtain ⟨a, h1, b, h2, rfl, rfl⟩ := this
  exact ⟨h1, h2⟩

theorem root_mem {g : Graph} {i : GItem} (h : i ∈ g.root.fields) : ∃ n ∈ g.items, n.name = none ∧ i ∈ n.fields := by
  unfold Graph.root at h
  simp only [List.mem_flatMap, List.mem_filter, Option.isNone_iff_eq_none] at h
  obtain ⟨n, ⟨h1, h2⟩, h3⟩ := h
  exact ⟨n, h1, h2, h3⟩

/-- items of a node of the graph stand in one of its items with the same name -/
theorem isNode_mem {g : Graph} {gn : GNode} (hn : IsNode g gn) {x : String} {i : GItem} (h : gn.get x = some i) :
    ∃ n ∈ g.items, n.name = gn.name ∧ i ∈ n.fields := by
  rcases hn with rfl | ⟨m, hm⟩
  · exact root_mem (get_mem h)
  · obtain ⟨h1, h2⟩ := node_mem hm
    exact ⟨gn, h1, rfl, get_mem h⟩

theorem get_rel {R : GItem → GItem → Prop} (hR : ∀ i i', R i i' → i'.name = i.name) {n n' : GNode}
    (h : List.Forall₂ R n.fields n'.fields) (x : String) : ORel R (n.get x) (n'.get x) := by
  unfold GNode.get GNode.fieldsMap dmk
  refine DRel.dget (DRel.dupdate ?_ .nil) x
  unfold DRel
  rw [List.forall₂_map_left_iff, List.forall₂_map_right_iff]
  exact h.imp fun i i' hi => ⟨hR _ _ hi, hi⟩

theorem node_rel {R : GNode → GNode → Prop} (hR : ∀ n n', R n n' → n'.name = n.name) {g g' : Graph}
    (h : List.Forall₂ R g.items g'.items) (x : String) : ORel R (g.node x) (g'.node x) := by
  unfold Graph.node Graph.nodesMap dmk
  refine DRel.dget (DRel.dupdate ?_ .nil) x
  unfold DRel
  generalize g.items = l at h
  generalize g'.items = l' at h
  induction h with
  | nil => exact .nil
  | @cons n n' r r' h1 _ ih =>
    simp only [List.filterMap_cons, hR _ _ h1]
    cases n.name with
    | none => exact ih
    | some m => exact .cons ⟨rfl, h1⟩ ih

theorem root_rel {R : Option String → GItem → GItem → Prop} {g g' : Graph}
    (h : List.Forall₂ (fun n n' : GNode => n'.name = n.name ∧ List.Forall₂ (R n.name) n.fields n'.fields) g.items g'.items) :
    List.Forall₂ (R none) g.root.fields g'.root.fields := by
  unfold Graph.root
  simp only
  generalize g.items = l at h
  generalize g'.items = l' at h
  induction h with
  | nil => exact .nil
  | @cons n n' r r' h1 _ ih =>
    obtain ⟨h1, h2⟩ := h1
    simp only [List.filter_cons, h1]
    cases hn : n.name with
    | none => rw [hn] at h2; simpa using Sim.forall2_append h2 ih
    | some m => simpa using ih

/-- how the functions called in both programs are related -/
def CallRel (g : Graph) (base : Nat) (s : MSt) (gi j : Nat) (nm : Option String) (f f' : PFunc) (args : List Arg) : Prop :=
  (j ≠ gi ∧ f' = f ∧ f.id < base) ∨
  (j = gi ∧ base ≤ f'.id ∧ ∃ w : Wrapper, s.funcs[f'.id - base]? = some w ∧ w.inner = f ∧
    ((w.kind = .field ∧ LoadsFields g nm f ∧ (∃ nm0, w.label = labelOf nm0 ∧ FirstLoads g nm0 f) ∧
        ∃ qfs rest, args = withCtx f (.fields qfs :: rest)) ∨
     (∃ name, w.kind = .link name ∧ LoadsLink g nm name f ∧ w.label = labelOf nm)))

/-- the program in which the graph number `gi` was replaced by the graph with metrics -/
def metricsEnv (env : Env) (base gi : Nat) (g' : Graph) (s : MSt) : Env :=
  { sys := metricsSys env.sys gi g' s, world := metricsWorld env.world base s.funcs, H := env.H, atOnce := env.atOnce }

theorem WItem.name {s : MSt} {nm : Option String} {i i' : GItem} (h : WItem base s nm i i') : i'.name = i.name := by
  cases i <;> cases i' <;> simp only [WItem] at h
  · obtain ⟨k', _, rfl⟩ := h
    simp only [GItem.name]
    unfold putFunc
    split
    · rfl
    · split <;> rfl
  · obtain ⟨k', rfl, _⟩ := h
    rfl

theorem world_old {W : World} {funcs : List Wrapper} {n f : Nat} {args : List Arg} (h : f < base) :
    (metricsWorld W base funcs).call n f args = W.call n f args := by
  simp only [metricsWorld, if_pos h]

theorem world_new {W : World} {funcs : List Wrapper} {n i : Nat} {w : Wrapper} {args : List Arg} (h : funcs[i]? = some w) :
    (metricsWorld W base funcs).call n (base + i) args = (wrapperCall (W.call n) w args).1 := by
  simp only [metricsWorld]
  rw [if_neg (by omega), Nat.add_sub_cancel_left, h]

theorem wrapper_fields {call : Nat → List Arg → Except Err Val} {w : Wrapper} (hk : w.kind = .field) (qfs : List QItem)
    (rest : List Arg) : observedNames w (withCtx w.inner (.fields qfs :: rest)) = .ok (qfs.map QItem.name) := by
  unfold observedNames withCtx
  rw [hk]
  cases w.inner.passCtx <;> rfl

theorem wrapperCall_eq {call : Nat → List Arg → Except Err Val} {w : Wrapper} {args : List Arg} {names : List String}
    (h : observedNames w args = .ok names) : (wrapperCall call w args).1 = call w.inner.id args := by
  unfold wrapperCall
  rw [h]
  simp only
  cases call w.inner.id args <;> rfl

variable {env : Env} {U : String → Opts → Prop} {gi : Nat} {g' : Graph} {s : MSt}

theorem subs_old (sg : Nat) (h : sg < env.sys.subs.length) :
    (metricsEnv env base gi g' s).sys.subs[sg]? = env.sys.subs[sg]? := by
  simp only [metricsEnv, metricsSys]
  rw [List.getElem?_append_left h]

theorem item_wrapped (hgood : GoodSys U env.sys) (hb : Below env.sys base) (hg : env.sys.graphs[gi]? = some g)
    (hs : MInv g base env.sys.subs.length s) {gn : GNode} (hn : IsNode g gn) {x : String} {i i' : GItem}
    (hget : gn.get x = some i) (h : WItem base s gn.name i i') :
    ItemSim env (metricsEnv env base gi g' s) (CallRel g base s gi gi gn.name) i i' := by
  obtain ⟨n, hmem, hnm, hin⟩ := isNode_mem hn hget
  cases i <;> cases i' <;> simp only [WItem] at h
  · rename_i f f'
    obtain ⟨k', hk, rfl⟩ := h
    refine .field ?_
    have he := hs _ _ hk
    cases hf : f.func with
    | plain pf =>
      rw [hf] at he
      obtain ⟨j, w, nm0, rfl, h1, h2, h3, h4, h5⟩ := he
      refine ⟨rfl, rfl, ?_⟩
      simp only [putFunc]
      rw [hf]
      subst h2
      refine .plain ?_ rfl ?_
      · intro qfs rest
        refine .inr ⟨rfl, by simp [newFunc], w, by simp [newFunc, h1], rfl, .inl ⟨h3, ?_, ⟨nm0, h4, h5⟩, qfs, rest, rfl⟩⟩
        exact ⟨n, hmem, hnm, f, hin, hf⟩
      · intro m qfs rest
        exact (world_new h1).trans (wrapperCall_eq (wrapper_fields (call := env.world.call m) h3 qfs rest))
    | checked sg reqs p =>
      rw [hf] at he
      obtain ⟨j, lb, nm0, rfl, h1, _⟩ := he
      obtain ⟨_, sub, _, _, hsub, _⟩ := hgood.subs gi g hg gn hn x f hget sg reqs p hf
      simp only [putFunc, hf]
      refine ⟨rfl, rfl, ?_⟩
      rw [hf]
      refine .checked ?_
      simp only [metricsEnv, metricsSys]
      rw [List.getElem?_append_right (by omega), Nat.add_sub_cancel_left, List.getElem?_map, h1, hsub]
      simp [hsub]
  · rename_i l l'
    obtain ⟨j, rfl, h1⟩ := h
    refine .link ⟨rfl, ?_, rfl, ?_⟩
    · intro args
      refine .inr ⟨rfl, by simp [newFunc], _, by simp only [newFunc, Nat.add_sub_cancel_left]; exact h1, rfl, .inr ⟨l.name, rfl, ?_, rfl⟩⟩
      exact ⟨n, hmem, hnm, l, hin, rfl, rfl⟩
    · intro m args
      exact (world_new h1).trans (wrapperCall_eq (names := [l.name]) rfl)

theorem putFunc_key {f : GField} {k' : FKey} (h : EntryOk g base bs s f.func.key k') : (putFunc f k').func.key = k' := by
  cases hf : f.func with
  | plain pf =>
    rw [hf] at h
    obtain ⟨j, w, nm0, rfl, _⟩ := h
    rfl
  | checked sg reqs p =>
    rw [hf] at h
    obtain ⟨j, lb, nm0, rfl, _⟩ := h
    simp only [putFunc, hf]
    rfl

theorem node_wrapped (hgood : GoodSys U env.sys) (hb : Below env.sys base) (hg : env.sys.graphs[gi]? = some g)
    (hs : MInv g base env.sys.subs.length s) {gn gn' : GNode} (hn : IsNode g gn) (hw : WNode base s gn gn') :
    NodeSim env (metricsEnv env base gi g' s) (CallRel g base s gi gi) gn gn' := by
  have hrel := get_rel (fun i i' h => WItem.name h) hw.2
  refine ⟨hw.1, ?_, ?_⟩
  · intro x i hget
    have := hrel x
    rw [hget] at this
    cases h' : gn'.get x with
    | none => rw [h'] at this; cases this
    | some i' =>
      rw [h'] at this
      cases this with
      | some h => exact ⟨i', rfl, item_wrapped hgood hb hg hs hn hget h⟩
  · have key : ∀ k k', Keys env (metricsEnv env base gi g' s) (CallRel g base s gi gi) gn gn' k k' →
        dget s.wrappers k = some k' := by
      rintro k k' ⟨x, f, f', h1, h2, _, rfl, rfl⟩
      have := hrel x
      rw [h1, h2] at this
      cases this with
      | some h =>
        simp only [WItem] at h
        obtain ⟨k', hk, rfl⟩ := h
        rw [putFunc_key (hs _ _ hk)]
        exact hk
    intro k1 k1' k2 k2' h1 h2
    have e1 := key _ _ h1
    have e2 := key _ _ h2
    constructor
    · rintro rfl
      rw [e1] at e2
      cases e2
      rfl
    · rintro rfl
      exact (hs _ _ e1).inj (hs _ _ e2)

theorem node_refl (hgood : GoodSys U env.sys) (hb : Below env.sys base) {j : Nat} {g0 : Graph}
    (hj : env.sys.graphs[j]? = some g0) (hne : j ≠ gi) {gn : GNode} (hn : IsNode g0 gn) :
    NodeSim env (metricsEnv env base gi g' s) (CallRel g base s gi j) gn gn := by
  have hm : g0 ∈ env.sys.graphs := List.mem_of_getElem? hj
  refine ⟨rfl, ?_, ?_⟩
  · intro x i hget
    obtain ⟨n, hmem, hnm, hin⟩ := isNode_mem hn hget
    refine ⟨i, hget, ?_⟩
    cases i with
    | field f =>
      refine .field ⟨rfl, rfl, ?_⟩
      cases hf : f.func with
      | plain pf =>
        have := hb.fields g0 hm n hmem f hin pf hf
        exact .plain (fun _ _ => .inl ⟨hne, rfl, this⟩) rfl (fun _ _ _ => world_old this)
      | checked sg reqs p =>
        obtain ⟨_, sub, _, _, hsub, _⟩ := hgood.subs j g0 hj gn hn x f hget sg reqs p hf
        exact .checked (subs_old _ (List.getElem?_eq_some_iff.1 hsub).1)
    | link l =>
      have := hb.links g0 hm n hmem l hin
      exact .link ⟨rfl, fun _ => .inl ⟨hne, rfl, this⟩, rfl, fun _ _ => world_old this⟩
  · have key : ∀ k k', Keys env (metricsEnv env base gi g' s) (CallRel g base s gi j) gn gn k k' → k' = k := by
      rintro k k' ⟨x, f, f', h1, h2, _, rfl, rfl⟩
      rw [h1] at h2
      cases h2
      rfl
    intro k1 k1' k2 k2' h1 h2
    rw [key _ _ h1, key _ _ h2]

theorem sys_wrapped (hgood : GoodSys U env.sys) (hb : Below env.sys base) (hg : env.sys.graphs[gi]? = some g)
    (hv : metricsVisit base env.sys.subs.length g = .ok (g', s)) :
    SysSim env (metricsEnv env base gi g' s) (CallRel g base s gi) := by
  obtain ⟨hs, _, hw⟩ := metricsVisit_spec hv
  refine ⟨rfl, rfl, rfl, by simp [metricsEnv, metricsSys], ?_⟩
  intro j g0 hj
  by_cases he : gi = j
  · subst he
    rw [hg] at hj
    cases hj
    refine ⟨g', ?_, ?_, ?_⟩
    · simp only [metricsEnv, metricsSys]
      rw [List.getElem?_set_self (List.getElem?_eq_some_iff.1 hg).1]
    · exact node_wrapped hgood hb hg hs (.inl rfl) ⟨rfl, root_rel (R := WItem base s) hw⟩
    · intro m t ht
      have := node_rel (fun n n' h => h.1) hw m
      rw [ht] at this
      cases h' : g'.node m with
      | none => rw [h'] at this; cases this
      | some t' =>
        rw [h'] at this
        cases this with
        | some h => exact ⟨t', rfl, node_wrapped hgood hb hg hs (.inr ⟨m, ht⟩) h⟩
  · refine ⟨g0, ?_, node_refl hgood hb hj (fun e => he e.symm) (.inl rfl), fun m t ht => ⟨t, ht, node_refl hgood hb hj (fun e => he e.symm) (.inr ⟨m, ht⟩)⟩⟩
    simp only [metricsEnv, metricsSys]
    rw [List.getElem?_set_ne he]
    exact hj

/-! ### C47 -/

/-- the same event, up to the function -/
def SameEvent : Ev → Ev → Prop
  | .call s, .call s' => s' = { s with func := s'.func }
  | .done l, .done l' => l' = l
  | _, _ => False

/-- C47: a graph with metrics gives the same result (or the same exception) as the original graph, for every
valid query, every program and every schedule. -/
theorem c47_execute (hgood : GoodSys U env.sys) (hb : Below env.sys base) (hg : env.sys.graphs[gi]? = some g)
    (hv : metricsVisit base env.sys.subs.length g = .ok (g', s)) (choose : Nat → List Nat → List Nat)
    (inner fuel : Nat) {q q' : QNode} (hi : initOptions g q = .ok q') (hq : NodeOk U g g.root q') :
    execute (metricsEnv env base gi g' s) choose inner fuel gi q = execute env choose inner fuel gi q :=
  sim_execute hgood (sys_wrapped hgood hb hg hv) choose inner fuel hg hi hq

/-- C47: the same calls are made in the same order with the same arguments, at the same time with respect to
the completion of other calls, and have the same outcomes.  Every call made by the wrapped graph goes through a
wrapper of the original function. -/
theorem c47_calls (hgood : GoodSys U env.sys) (hb : Below env.sys base) (hg : env.sys.graphs[gi]? = some g)
    (hv : metricsVisit base env.sys.subs.length g = .ok (g', s)) (choose : Nat → List Nat → List Nat)
    (inner fuel : Nat) {q q' : QNode} (hi : initOptions g q = .ok q') (hq : NodeOk U g g.root q') {st' : St}
    (hr : runQuery (metricsEnv env base gi g' s) choose inner fuel gi q = .ok st') :
    ∃ st, runQuery env choose inner fuel gi q = .ok st ∧ st'.results = st.results ∧
      List.Forall₂ SameEvent st.log st'.log ∧
      ∀ c, .call c ∈ st'.log → ∀ wf, st'.wfs[c.wf]? = some wf →
        if wf.graph = gi then base ≤ c.func.id ∧ ∃ w, s.funcs[c.func.id - base]? = some w ∧
            .call { c with func := w.inner } ∈ st.log
        else .call c ∈ st.log := by
  have h := sim_run hgood (sys_wrapped hgood hb hg hv) choose inner fuel hg hi hq
  rw [hr] at h
  cases hr0 : runQuery env choose inner fuel gi q with
  | error e => rw [hr0] at h; cases h
  | ok st =>
    rw [hr0] at h
    cases h with
    | ok h =>
    refine ⟨st, rfl, h.results, h.log.imp fun e e' he => ?_, ?_⟩
    · cases e <;> cases e' <;> simp only [EvSim, SameEvent] at he ⊢
      · exact he.1
      · exact he
    · intro c hc wf hwf
      rw [h.wfs] at hwf
      obtain ⟨e, hm, he⟩ := forall2_mem_right h.log hc
      cases e with
      | done l => simp only [EvSim] at he
      | call c0 =>
        simp only [EvSim] at he
        obtain ⟨h1, j, h2, h3⟩ := he
        have hwfe : c.wf = c0.wf := by rw [h1]
        have hj : wf.graph = j := by
          unfold graphOf at h2
          rw [← hwfe, hwf] at h2
          simpa using h2
        rw [hj]
        rcases h3 with ⟨k1, k2, k3⟩ | ⟨k1, k2, w, k3, k4, k5⟩
        · rw [if_neg k1]
          rw [k2] at h1
          rw [h1]
          exact hm
        · rw [if_pos k1]
          refine ⟨k2, w, k3, ?_⟩
          rw [h1, k4]
          exact hm

/-- C47: every call made by the graph with metrics reports what it has to report, when no function loads
fields of two nodes; calls made by other graphs (of sub-graph expressions) report nothing. -/
theorem c47_observations_partial (hgood : GoodSys U env.sys) (hb : Below env.sys base) (hg : env.sys.graphs[gi]? = some g)
    (hv : metricsVisit base env.sys.subs.length g = .ok (g', s)) (hone : OneNodePerFunction g)
    (choose : Nat → List Nat → List Nat) (inner fuel : Nat) {q q' : QNode} (hi : initOptions g q = .ok q')
    (hq : NodeOk U g g.root q') {st st' : St} (hr0 : runQuery env choose inner fuel gi q = .ok st)
    (hr : runQuery (metricsEnv env base gi g' s) choose inner fuel gi q = .ok st') :
    List.Forall₂ (fun e e' => ∀ c c', e = .call c → e' = .call c' → ∀ wf, st.wfs[c.wf]? = some wf →
      if wf.graph = gi then Expected g c (env.world.call c.fut c.func.id c.args)
          (observations env.world base s.funcs c'.fut c'.func.id c'.args)
      else observations env.world base s.funcs c'.fut c'.func.id c'.args = []) st.log st'.log := by
  have h := sim_run hgood (sys_wrapped hgood hb hg hv) choose inner fuel hg hi hq
  rw [hr, hr0] at h
  cases h with
  | ok h =>
  refine h.log.imp ?_
  rintro e e' he c c' rfl rfl wf hwf
  simp only [EvSim] at he
  obtain ⟨h1, j, h2, h3⟩ := he
  have hj : wf.graph = j := by
    unfold graphOf at h2
    rw [hwf] at h2
    simpa using h2
  rw [hj]
  have e1 : c'.fut = c.fut := by rw [h1]
  have e2 : c'.args = c.args := by rw [h1]
  rw [e1, e2]
  rcases h3 with ⟨k1, k2, k3⟩ | ⟨k1, k2, w, k3, k4, k5⟩
  · rw [if_neg k1]
    unfold observations
    rw [if_pos (by rw [k2]; exact k3)]
  · rw [if_pos k1]
    unfold observations
    rw [if_neg (by omega), k3]
    simp only [wrapperCall]
    rcases k5 with ⟨h4, h5, ⟨nm0, h6, h7⟩, qfs, rest, h8⟩ | ⟨name, h4, h5, h6⟩
    · have hn : observedNames w c.args = .ok (qfs.map QItem.name) := by
        rw [h8, ← k4]
        exact wrapper_fields (call := env.world.call c.fut) h4 qfs rest
      rw [hn, k4]
      simp only
      cases hcall : env.world.call c.fut c.func.id c.args with
      | error e => exact .failed e
      | ok v =>
        have := hone _ _ _ h5 h7.loads
        have := Expected.fields (g := g) (s := c) v h5 h8
        rw [h6, ← hone _ _ _ h5 h7.loads]
        rw [List.map_map]
        exact this
    · have hn : observedNames w c.args = .ok [name] := by
        unfold observedNames
        rw [h4]
      rw [hn, k4]
      simp only
      cases hcall : env.world.call c.fut c.func.id c.args with
      | error e => exact .failed e
      | ok v =>
        rw [h6]
        exact .link v h5

/-- C47: what is reported, for all graphs: the names of the fields and links are always right, and the label is
the name of the first node (in the order of the declarations) whose fields are loaded by the same function. -/
theorem c47_reported (hgood : GoodSys U env.sys) (hb : Below env.sys base) (hg : env.sys.graphs[gi]? = some g)
    (hv : metricsVisit base env.sys.subs.length g = .ok (g', s))
    (choose : Nat → List Nat → List Nat) (inner fuel : Nat) {q q' : QNode} (hi : initOptions g q = .ok q')
    (hq : NodeOk U g g.root q') {st st' : St} (hr0 : runQuery env choose inner fuel gi q = .ok st)
    (hr : runQuery (metricsEnv env base gi g' s) choose inner fuel gi q = .ok st') :
    List.Forall₂ (fun e e' => ∀ c c', e = .call c → e' = .call c' → ∀ wf, st.wfs[c.wf]? = some wf → wf.graph = gi →
      Reported g c (env.world.call c.fut c.func.id c.args)
        (observations env.world base s.funcs c'.fut c'.func.id c'.args))
      st.log st'.log := by
  have h := sim_run hgood (sys_wrapped hgood hb hg hv) choose inner fuel hg hi hq
  rw [hr, hr0] at h
  cases h with
  | ok h =>
  refine h.log.imp ?_
  rintro e e' he c c' rfl rfl wf hwf hgr
  simp only [EvSim] at he
  obtain ⟨h1, j, h2, h3⟩ := he
  have hj : gi = j := by
    unfold graphOf at h2
    rw [hwf] at h2
    rw [← hgr]
    simpa using h2
  have e1 : c'.fut = c.fut := by rw [h1]
  have e2 : c'.args = c.args := by rw [h1]
  rw [e1, e2]
  rcases h3 with ⟨k1, k2, k3⟩ | ⟨k1, k2, w, k3, k4, k5⟩
  · exact absurd hj.symm k1
  · unfold observations
    rw [if_neg (by omega), k3]
    simp only [wrapperCall]
    rcases k5 with ⟨h4, h5, ⟨nm0, h6, h7⟩, qfs, rest, h8⟩ | ⟨name, h4, h5, h6⟩
    · have hn : observedNames w c.args = .ok (qfs.map QItem.name) := by
        rw [h8, ← k4]
        exact wrapper_fields (call := env.world.call c.fut) h4 qfs rest
      rw [hn, k4]
      simp only
      cases hcall : env.world.call c.fut c.func.id c.args with
      | error e => exact .failed e
      | ok v =>
        have := Reported.fields (g := g) (s := c) v h5 h7 h8
        rw [List.map_map, h6]
        exact this
    · have hn : observedNames w c.args = .ok [name] := by
        unfold observedNames
        rw [h4]
      rw [hn, k4]
      simp only
      cases hcall : env.world.call c.fut c.func.id c.args with
      | error e => exact .failed e
      | ok v => exact by rw [h6]; exact .link v h5

/-- C47: fields of sub-graph expressions keep their expression; the wrapper of the sub-graph has the label of
the first node which uses the sub-graph. -/
theorem c47_subqueries {base bs : Nat} (hv : metricsVisit base bs g = .ok (g', s)) {gn : GNode} (hn : gn ∈ g.items)
    {f : GField} (hf : .field f ∈ gn.fields) {sg : Nat} {reqs : QNode} {p : Nat} (he : f.func = .checked sg reqs p) :
    ∃ gn' ∈ g'.items, gn'.name = gn.name ∧ ∃ f', .field f' ∈ gn'.fields ∧ f'.name = f.name ∧
      ∃ i nm0, f'.func = .checked (bs + i) reqs p ∧ s.subs[i]? = some (labelOf nm0, sg) ∧ FirstLoadsSub g nm0 sg := by
  obtain ⟨hs, _, hw⟩ := metricsVisit_spec hv
  obtain ⟨gn', h1, h2, h3⟩ := mem_left hw hn
  obtain ⟨i', h4, h5⟩ := mem_left h3 hf
  refine ⟨gn', h1, h2, ?_⟩
  cases i' with
  | link l => simp only [WItem] at h5
  | field f' =>
    have hnm := h5.name
    simp only [WItem] at h5
    obtain ⟨k', h6, rfl⟩ := h5
    refine ⟨_, h4, hnm, ?_⟩
    have := hs _ _ h6
    rw [he] at this
    obtain ⟨i, lb, nm0, rfl, h7, rfl, h8⟩ := this
    refine ⟨i, nm0, ?_, h7, h8⟩
    simp only [putFunc, he]
where
  mem_left {α β : Type} {R : α → β → Prop} {l : List α} {l' : List β} (h : List.Forall₂ R l l')
    {a : α} (ha : a ∈ l) : ∃ b ∈ l', R a b := by
    induction h with
    | nil => simp at ha
    | cons h1 _ ih =>
      rcases List.mem_cons.1 ha with rfl | ha
      · exact ⟨_, List.mem_cons_self, h1⟩
      · obtain ⟨b, hb, h⟩ := ih ha
        exact ⟨b, List.mem_cons_of_mem _ hb, h⟩

/-- C47: the wrapper of a sub-graph returns what the sub-graph returns, and reports every requested field of
a successful call. -/
theorem c47_subquery_outcome (label : String) (names : List String) (r : Except Err Val) :
    (subqueryWrapper label names r).1 = r ∧
    ((subqueryWrapper label names r).2 = match r with
      | .ok _ => names.map fun n => (label, n)
      | .error _ => []) := by
  cases r <;> exact ⟨rfl, rfl⟩

/-! ### The label of a shared function -/

def sharedFunc : PFunc := { id := 0 }
def sharedGraph : Graph :=
  { items := [{ name := some "A", fields := [.field { name := "x", ty := none, func := .plain sharedFunc }] },
              { name := some "B", fields := [.field { name := "x", ty := none, func := .plain sharedFunc }] }] }

/-- the function of both nodes is reported for the first one -/
example : FirstLoads sharedGraph (some "A") sharedFunc :=
  ⟨[], _, _, rfl, rfl, ⟨_, List.mem_cons_self, rfl⟩, fun m hm => by cases hm⟩

/-- C47 does not hold in general: when one function loads fields of the nodes A and B, the fields of B are
reported with the label A. -/
theorem c47_counterexample : ∃ g' s f', metricsVisit 1 0 sharedGraph = .ok (g', s) ∧
    (∃ n ∈ g'.items, n.name = some "B" ∧ ∃ gf, .field gf ∈ n.fields ∧ gf.func = .plain f') ∧
    ∀ (W : World) (n : Nat) (v : Val), W.call n 0 [.fields [.field "x" none none], .ids [.int 1]] = .ok v →
      observations W 1 s.funcs n f'.id [.fields [.field "x" none none], .ids [.int 1]] = [("A", "x")] := by
  refine ⟨_, _, { id := 1 }, rfl, ⟨_, List.mem_cons_of_mem _ List.mem_cons_self, rfl, _, List.mem_cons_self, rfl⟩, ?_⟩
  intro W n v h
  have : observations W 1 [{ label := "A", inner := sharedFunc, kind := .field }] n 1
      [.fields [.field "x" none none], .ids [.int 1]] =
    match W.call n 0 [.fields [.field "x" none none], .ids [.int 1]] with
    | .ok _ => [("A", "x")]
    | .error _ => [] := by
    unfold observations wrapperCall
    simp only [Nat.lt_irrefl, if_false, Nat.sub_self, List.getElem?_cons_zero, observedNames, sharedFunc]
    simp only [List.getElem?_cons_zero, Bool.false_eq_true, if_false]
    cases W.call n 0 [.fields [.field "x" none none], .ids [.int 1]] <;> rfl
  rw [h] at this
  exact this

end Hiku.Telemetry
