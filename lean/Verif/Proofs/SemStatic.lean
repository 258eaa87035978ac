import Verif.Spec.Semantics
import Verif.Proofs.Store
import Verif.Proofs.FrameEngine

/-! Static facts used by the correctness proof of the engine: lookups, splitting of nodes. -/

namespace Hiku

/-! ### Lookups -/

theorem GNode.get_name {gn : GNode} {n : String} {gi : GItem} (h : gn.get n = some gi) : gi.name = n := by
  unfold GNode.get GNode.fieldsMap at h
  rw [dget_dmk] at h
  have := dget_mem h
  simp only [List.mem_reverse, List.mem_map] at this
  obtain ⟨f, _, hf⟩ := this
  simp only [Prod.mk.injEq] at hf
  rw [← hf.2]; exact hf.1

theorem Graph.node_name {g : Graph} {nm : String} {gn : GNode} (h : g.node nm = some gn) :
    gn.name = some nm := by
  unfold Graph.node Graph.nodesMap at h
  rw [dget_dmk] at h
  have := dget_mem h
  simp only [List.mem_reverse, List.mem_filterMap, Option.map_eq_some_iff] at this
  obtain ⟨f, _, s, hs, hf⟩ := this
  simp only [Prod.mk.injEq] at hf
  rw [← hf.2, ← hf.1]; exact hs

theorem Graph.root_name (g : Graph) : g.root.name = none := rfl

theorem IsNode.cases {g : Graph} {gn : GNode} (h : IsNode g gn) :
    (gn = g.root ∧ gn.name = none) ∨ ∃ nm, gn.name = some nm ∧ g.node nm = some gn := by
  rcases h with rfl | ⟨s, hs⟩
  · exact .inl ⟨rfl, rfl⟩
  · exact .inr ⟨s, Graph.node_name hs, hs⟩

theorem IsNode.inj {g : Graph} (hr : g.node rootName = none) {gn gn' : GNode} (h : IsNode g gn)
    (h' : IsNode g gn') (e : gn.indexName = gn'.indexName) : gn = gn' := by
  rcases h.cases with ⟨rfl, hn⟩ | ⟨nm, hn, hg⟩ <;> rcases h'.cases with ⟨rfl, hn'⟩ | ⟨nm', hn', hg'⟩
  · rfl
  · simp only [GNode.indexName, hn, hn', Option.getD_none, Option.getD_some] at e
    subst e; rw [hr] at hg'; cases hg'
  · simp only [GNode.indexName, hn, hn', Option.getD_none, Option.getD_some] at e
    subst e; rw [hr] at hg; cases hg
  · simp only [GNode.indexName, hn, hn', Option.getD_some] at e
    subst e; rw [hg] at hg'; exact Option.some.inj hg'

/-! ### Cells -/

section
variable (D : Data) (sub : SubSem)

/-- the true content of a cell of the index -/
def cellSem (gn : GNode) (ident : Val) (n : String) (o : Opts) : Val :=
  match gn.get n with
  | some (.field gf) => semField D sub gn gf o ident
  | some (.link gl) => linkCell gl (semLink D sub gn ident gl o)
  | none => .none

theorem cellSem_equiv {gn : GNode} {ident : Val} {n : String} {o o' : Opts} (h : OptsEquiv D o o') :
    cellSem D sub gn ident n o = cellSem D sub gn ident n o' := by
  obtain ⟨h1, h2, h3⟩ := h
  unfold cellSem
  cases gn.get n with
  | none => rfl
  | some gi =>
    cases gi with
    | field gf =>
      simp only [semField]
      cases gf.func with
      | plain f => simp only [h1]
      | checked sg reqs p => simp only [h3]
    | link gl =>
      simp only [semLink, declOpts]
      by_cases he : gl.options.isEmpty = true
      · simp only [he, if_true]
      · rw [if_neg he, if_neg he, h2]

end

/-! ### Valid items -/

variable {U : String → Opts → Prop} {g : Graph} {gn : GNode}

/-- a query item which is loaded by a field function -/
def FItem (U : String → Opts → Prop) (gn : GNode) (q : QItem) : Prop :=
  U q.name q.options ∧ ∃ gf, gn.get q.name = some (.field gf) ∧ OptsGiven gf q.options

/-- a query item which is loaded by a link function -/
def LItem (U : String → Opts → Prop) (g : Graph) (gn : GNode) (gl : GLink) (ql : QItem) : Prop :=
  ∃ n q o a t, ql = .link n q o a ∧ U n o ∧ gn.get n = some (.link gl) ∧ g.node gl.node = some t ∧
    NodeOk U g t q

theorem ItemOk.cases {i : QItem} (h : ItemOk U g gn i) :
    FItem U gn i ∨ ∃ gl, LItem U g gn gl i := by
  cases i with
  | field n o a =>
    simp only [ItemOk] at h
    exact .inl h
  | link n q o a =>
    simp only [ItemOk] at h
    obtain ⟨hu, ⟨gl, t, h1, h2, h3⟩ | h⟩ := h
    · exact .inr ⟨gl, n, q, o, a, t, rfl, hu, h1, h2, h3⟩
    · exact .inl ⟨hu, h⟩

theorem itemsOk_iff {l : List QItem} : ItemsOk U g gn l ↔ ∀ i ∈ l, ItemOk U g gn i := by
  induction l with
  | nil => simp [ItemsOk]
  | cons x r ih => simp [ItemsOk, ih]

theorem nodeOk_iff {q : QNode} : NodeOk U g gn q ↔ (∀ i ∈ q.fields, ItemOk U g gn i) ∧
    (q.ordered = true → ∀ i ∈ q.fields, i.isLink = true → ∃ gl, gn.get i.name = some (.link gl)) := by
  cases q with
  | mk fs ord => simp only [NodeOk, itemsOk_iff, QNode.fields, QNode.ordered]

theorem FItem.link_none {q : QItem} (h : FItem U gn q) (gl : GLink) : gn.get q.name ≠ some (.link gl) := by
  obtain ⟨_, gf, h1, _⟩ := h
  simp [h1]

/-! ### Splitting unordered nodes -/

/-- an entry of the field list of `SplitQuery` -/
def FEntry (U : String → Opts → Prop) (gn : GNode) (k : FKey) (x : GItem × QItem) : Prop :=
  FItem U gn x.2 ∧ gn.get x.2.name = some x.1 ∧ x.1.fkey = k

structure SplitSpec (U : String → Opts → Prop) (g : Graph) (gn : GNode) (l : List QItem)
    (fields : List (FKey × GItem × QItem)) (links : List (GLink × QItem)) : Prop where
  fs : ∀ f ∈ fields, FEntry U gn f.1 f.2
  ls : ∀ x ∈ links, LItem U g gn x.1 x.2 ∧
    ∀ r, x.1.requires = some r → ∃ f ∈ fields, f.2.2 = .field r none none
  cover : ∀ i ∈ l, (∃ f ∈ fields, f.2.2 = i) ∨ ∃ x ∈ links, x.2 = i

/-- what the requirement of a link must satisfy -/
def ReqOk (U : String → Opts → Prop) (g : Graph) (gn : GNode) : Prop :=
  ∀ n gl, gn.get n = some (.link gl) → ∀ r, gl.requires = some r → r ≠ "" ∧
    ItemOk U g gn (.field r none none)

theorem reqTruthy_iff (hreq : ReqOk U g gn) {n : String} {gl : GLink} (h : gn.get n = some (.link gl)) :
    (gl.requires = none ∧ gl.reqTruthy = false) ∨
    ∃ r, gl.requires = some r ∧ gl.reqTruthy = true ∧ FItem U gn (.field r none none) := by
  cases hr : gl.requires with
  | none => exact .inl ⟨rfl, by simp [GLink.reqTruthy, hr]⟩
  | some r =>
    obtain ⟨h1, h2⟩ := hreq n gl h r hr
    refine .inr ⟨r, rfl, by simp [GLink.reqTruthy, hr, h1], ?_⟩
    simp only [ItemOk] at h2
    exact h2

theorem splitField_of_FItem {name : String} {q : QItem} (hq : q.name = name) (h : FItem U gn q) :
    ∃ gf, splitField gn name q = .ok (gf.func.key, .field gf, q) ∧
      FEntry U gn gf.func.key (.field gf, q) := by
  have h' := h
  obtain ⟨_, gf, h1, _⟩ := h
  refine ⟨gf, ?_, h', h1, rfl⟩
  simp only [splitField, ← hq, h1]

theorem splitItems_spec (hreq : ReqOk U g gn) {l : List QItem} (h : ∀ i ∈ l, ItemOk U g gn i) :
    ∃ fields links, splitItems gn l = .ok (fields, links) ∧ SplitSpec U g gn l fields links := by
  induction l with
  | nil => exact ⟨[], [], rfl, ⟨by simp, by simp, by simp⟩⟩
  | cons i r ih =>
    obtain ⟨fs, ls, e, sp⟩ := ih fun x hx => h x (by simp [hx])
    rcases (h i (by simp)).cases with hi | ⟨gl, hi⟩
    · have hex : ∃ gf, splitItems gn (i :: r) = .ok ((gf.func.key, .field gf, i) :: fs, ls) ∧
          FEntry U gn gf.func.key (.field gf, i) := by
        cases i with
        | field n o a =>
          obtain ⟨gf, h1, h2⟩ := splitField_of_FItem rfl hi
          have h1 : splitField gn n (.field n o a) = _ := h1
          exact ⟨gf, by simp [splitItems, h1, e], h2⟩
        | link n q o a =>
          have hi' := hi
          obtain ⟨_, gf, h1, _⟩ := hi
          refine ⟨gf, ?_, hi', h1, rfl⟩
          simp only [QItem.name] at h1
          simp [splitItems, h1, e]
      obtain ⟨gf, h1, h2⟩ := hex
      refine ⟨_, _, h1, ?_, ?_, ?_⟩
      · intro f hf
        rcases List.mem_cons.1 hf with rfl | hf
        · exact h2
        · exact sp.fs f hf
      · intro x hx
        obtain ⟨a1, a2⟩ := sp.ls x hx
        refine ⟨a1, fun r hr => ?_⟩
        obtain ⟨f, b1, b2⟩ := a2 r hr
        exact ⟨f, by simp [b1], b2⟩
      · intro j hj
        rcases List.mem_cons.1 hj with rfl | hj
        · exact .inl ⟨_, List.mem_cons_self, rfl⟩
        · rcases sp.cover j hj with ⟨f, b1, b2⟩ | b
          · exact .inl ⟨f, by simp [b1], b2⟩
          · exact .inr b
    · have hi' := hi
      obtain ⟨n, q, o, a, t, rfl, hu, hget, ht, hq⟩ := hi
      rcases reqTruthy_iff hreq hget with ⟨hr, hrt⟩ | ⟨r0, hr, hrt, hfi⟩
      · refine ⟨fs, (gl, .link n q o a) :: ls, by simp [splitItems, hget, hrt, e], sp.fs, ?_, ?_⟩
        · intro x hx
          rcases List.mem_cons.1 hx with rfl | hx
          · exact ⟨hi', fun r hr' => by simp [hr] at hr'⟩
          · exact sp.ls x hx
        · intro j hj
          rcases List.mem_cons.1 hj with rfl | hj
          · exact .inr ⟨_, List.mem_cons_self, rfl⟩
          · rcases sp.cover j hj with b | ⟨f, b1, b2⟩
            · exact .inl b
            · exact .inr ⟨f, by simp [b1], b2⟩
      · obtain ⟨gf, h1, h2⟩ := splitField_of_FItem (name := r0) rfl hfi
        refine ⟨(gf.func.key, .field gf, .field r0 none none) :: fs, (gl, .link n q o a) :: ls,
          by simp [splitItems, hget, hrt, e, hr, h1], ?_, ?_, ?_⟩
        · intro f hf
          rcases List.mem_cons.1 hf with rfl | hf
          · exact h2
          · exact sp.fs f hf
        · intro x hx
          rcases List.mem_cons.1 hx with rfl | hx
          · refine ⟨hi', fun r hr' => ?_⟩
            simp only [hr, Option.some.injEq] at hr'
            subst hr'
            exact ⟨_, List.mem_cons_self, rfl⟩
          · obtain ⟨a1, a2⟩ := sp.ls x hx
            refine ⟨a1, fun r hr => ?_⟩
            obtain ⟨f, b1, b2⟩ := a2 r hr
            exact ⟨f, by simp [b1], b2⟩
        · intro j hj
          rcases List.mem_cons.1 hj with rfl | hj
          · exact .inr ⟨_, List.mem_cons_self, rfl⟩
          · rcases sp.cover j hj with ⟨f, b1, b2⟩ | ⟨f, b1, b2⟩
            · exact .inl ⟨f, by simp [b1], b2⟩
            · exact .inr ⟨f, by simp [b1], b2⟩

/-! ### Groups -/

theorem mem_addToGroup {k : FKey} {x : GItem × QItem} {gs : List (FKey × List (GItem × QItem))} :
    (∀ k' items, (k', items) ∈ addToGroup k x gs →
      (∀ y ∈ items, (k' = k ∧ y = x) ∨ ∃ items0, (k', items0) ∈ gs ∧ y ∈ items0)) ∧
    (∃ items, (k, items) ∈ addToGroup k x gs ∧ x ∈ items) ∧
    (∀ k' items0, (k', items0) ∈ gs → ∃ items, (k', items) ∈ addToGroup k x gs ∧ ∀ y ∈ items0, y ∈ items) := by
  induction gs with
  | nil => simp [addToGroup]
  | cons p r ih =>
    obtain ⟨k0, xs⟩ := p
    simp only [addToGroup]
    by_cases hk : k0 = k
    · rw [if_pos hk]
      subst hk
      refine ⟨?_, ⟨xs ++ [x], by simp, by simp⟩, ?_⟩
      · intro k' items hm y hy
        rcases List.mem_cons.1 hm with hm | hm
        · cases hm
          rcases List.mem_append.1 hy with hy | hy
          · exact .inr ⟨xs, by simp, hy⟩
          · exact .inl ⟨rfl, by simpa using hy⟩
        · exact .inr ⟨items, by simp [hm], hy⟩
      · intro k' items0 hm
        rcases List.mem_cons.1 hm with hm | hm
        · cases hm
          exact ⟨xs ++ [x], by simp, fun y hy => by simp [hy]⟩
        · exact ⟨items0, by simp [hm], fun _ h => h⟩
    · rw [if_neg hk]
      obtain ⟨i1, ⟨items, i2, i3⟩, i4⟩ := ih
      refine ⟨?_, ⟨items, by simp [i2], i3⟩, ?_⟩
      · intro k' items hm y hy
        rcases List.mem_cons.1 hm with hm | hm
        · cases hm
          exact .inr ⟨xs, by simp, hy⟩
        · rcases i1 k' items hm y hy with h | ⟨items0, h1, h2⟩
          · exact .inl h
          · exact .inr ⟨items0, by simp [h1], h2⟩
      · intro k' items0 hm
        rcases List.mem_cons.1 hm with hm | hm
        · cases hm
          exact ⟨xs, by simp, fun _ h => h⟩
        · obtain ⟨items, h1, h2⟩ := i4 k' items0 hm
          exact ⟨items, by simp [h1], h2⟩

theorem addToGroup_keys {k : FKey} {x : GItem × QItem} {gs : List (FKey × List (GItem × QItem))}
    (hn : (gs.map (·.1)).Nodup) (hne : ∀ p ∈ gs, p.2 ≠ []) :
    ((addToGroup k x gs).map (·.1)).Nodup ∧ (∀ p ∈ addToGroup k x gs, p.2 ≠ []) ∧
    (∀ k', k' ∈ (addToGroup k x gs).map (·.1) ↔ k' = k ∨ k' ∈ gs.map (·.1)) := by
  induction gs with
  | nil => simp [addToGroup]
  | cons p r ih =>
    obtain ⟨k0, xs⟩ := p
    simp only [List.map_cons, List.nodup_cons] at hn
    obtain ⟨i1, i2, i3⟩ := ih hn.2 fun p hp => hne p (by simp [hp])
    simp only [addToGroup]
    by_cases hk : k0 = k
    · rw [if_pos hk]
      subst hk
      refine ⟨by simpa using hn, ?_, by simp⟩
      intro p hp
      rcases List.mem_cons.1 hp with rfl | hp
      · simp
      · exact hne p (by simp [hp])
    · rw [if_neg hk]
      refine ⟨?_, ?_, ?_⟩
      · simp only [List.map_cons, List.nodup_cons]
        refine ⟨?_, i1⟩
        rw [i3]
        rintro (h | h)
        · exact hk h
        · exact hn.1 h
      · intro p hp
        rcases List.mem_cons.1 hp with rfl | hp
        · exact hne _ (by simp)
        · exact i2 p hp
      · intro k'
        simp only [List.map_cons, List.mem_cons, i3]
        constructor
        · rintro (h | h | h)
          · exact .inr (.inl h)
          · exact .inl h
          · exact .inr (.inr h)
        · rintro (h | h | h)
          · exact .inr (.inl h)
          · exact .inl h
          · exact .inr (.inr h)

structure GroupSpec (fields : List (FKey × GItem × QItem)) (gs : List (FKey × List (GItem × QItem))) :
    Prop where
  nodup : (gs.map (·.1)).Nodup
  ne : ∀ p ∈ gs, p.2 ≠ []
  mem : ∀ k items, (k, items) ∈ gs → ∀ y ∈ items, (k, y) ∈ fields
  cover : ∀ f ∈ fields, ∃ items, (f.1, items) ∈ gs ∧ f.2 ∈ items

theorem groupByFunc_spec (fields : List (FKey × GItem × QItem)) :
    GroupSpec fields (groupByFunc fields) := by
  induction fields using snocInduction with
  | h0 => exact ⟨by simp [groupByFunc], by simp [groupByFunc], by simp [groupByFunc], by simp⟩
  | h1 l f ih =>
    have e : groupByFunc (l ++ [f]) = addToGroup f.1 (f.2.1, f.2.2) (groupByFunc l) := by
      simp [groupByFunc]
    rw [e]
    obtain ⟨m1, m2, m3⟩ := mem_addToGroup (k := f.1) (x := (f.2.1, f.2.2)) (gs := groupByFunc l)
    obtain ⟨k1, k2, _⟩ := addToGroup_keys (k := f.1) (x := (f.2.1, f.2.2)) ih.nodup ih.ne
    refine ⟨k1, k2, ?_, ?_⟩
    · intro k items hm y hy
      rcases m1 k items hm y hy with ⟨rfl, rfl⟩ | ⟨items0, h1, h2⟩
      · simp
      · simp [ih.mem k items0 h1 y h2]
    · intro x hx
      rcases List.mem_append.1 hx with hx | hx
      · obtain ⟨items0, h1, h2⟩ := ih.cover x hx
        obtain ⟨items, h3, h4⟩ := m3 _ _ h1
        exact ⟨items, h3, h4 _ h2⟩
      · simp only [List.mem_singleton] at hx
        subst hx
        exact m2

/-! ### Steps of ordered nodes -/

def Step.items : Step → List QItem
  | .fields _ items => items.map (·.2)
  | .link _ ql => [ql]

def StepGood (U : String → Opts → Prop) (g : Graph) (gn : GNode) : Step → Prop
  | .fields k items => items ≠ [] ∧ ∀ x ∈ items, FEntry U gn k x
  | .link gl ql => LItem U g gn gl ql

/-- the required field of a link is loaded by the step before -/
def Preceded (pre : List Step) (gl : GLink) : Prop :=
  ∀ r, gl.requires = some r → ∃ pre' k items, pre = pre' ++ [.fields k items] ∧
    ∃ x ∈ items, x.2 = QItem.field r none none

def AllReady (steps : List Step) : Prop :=
  ∀ pre gl ql post, steps = pre ++ .link gl ql :: post → Preceded pre gl

theorem append_cons_eq_append_singleton {α : Type} {pre post l : List α} {x y : α}
    (h : pre ++ x :: post = l ++ [y]) :
    (post = [] ∧ x = y ∧ pre = l) ∨ ∃ post', post = post' ++ [y] ∧ pre ++ x :: post' = l := by
  rcases List.eq_nil_or_concat post with rfl | ⟨p', b, rfl⟩
  · have := List.append_inj' h rfl
    simp at this
    exact .inl ⟨rfl, this.2, this.1⟩
  · right
    have h' : (pre ++ x :: p') ++ [b] = l ++ [y] := by simpa using h
    have := List.append_inj' h' rfl
    simp at this
    exact ⟨p', by rw [this.2, List.concat_eq_append], by simpa using this.1⟩

theorem AllReady.snoc_fields {l : List Step} (h : AllReady l) (k : FKey) (items : List (GItem × QItem)) :
    AllReady (l ++ [.fields k items]) := by
  intro pre gl ql post e
  rcases append_cons_eq_append_singleton e.symm with ⟨_, h1, _⟩ | ⟨post', _, h2⟩
  · cases h1
  · exact h pre gl ql post' h2.symm

theorem AllReady.snoc_link {l : List Step} (h : AllReady l) {gl : GLink} {ql : QItem} (hp : Preceded l gl) :
    AllReady (l ++ [.link gl ql]) := by
  intro pre gl' ql' post e
  rcases append_cons_eq_append_singleton e.symm with ⟨_, h1, h2⟩ | ⟨post', _, h2⟩
  · cases h1; subst h2; exact hp
  · exact h pre gl' ql' post' h2.symm

theorem AllReady.init {l : List Step} {s : Step} (h : AllReady (l ++ [s])) : AllReady l := by
  intro pre gl ql post e
  exact h pre gl ql (post ++ [s]) (by rw [e]; simp)

structure StepsSpec (U : String → Opts → Prop) (g : Graph) (gn : GNode) (l : List QItem)
    (steps : List Step) : Prop where
  good : ∀ s ∈ steps, StepGood U g gn s
  ready : AllReady steps
  cover : ∀ i ∈ l, ∃ s ∈ steps, i ∈ s.items

/-- the current function is that of the last step -/
def CurOK (steps : List Step) (cur : Option FKey) : Prop :=
  ∀ k, cur = some k → ∃ l items, steps = l ++ [.fields k items]

theorem groupField_spec {l : List QItem} {steps : List Step} {cur : Option FKey} {k : FKey} {gi : GItem}
    {q : QItem} (h : StepsSpec U g gn l steps) (hc : CurOK steps cur) (hx : FEntry U gn k (gi, q)) :
    StepsSpec U g gn (q :: l) (groupField steps cur k gi q) ∧
    ∃ pre items, groupField steps cur k gi q = pre ++ [.fields k items] ∧ (gi, q) ∈ items := by
  have hnew : StepsSpec U g gn (q :: l) (steps ++ [.fields k [(gi, q)]]) := by
    refine ⟨?_, h.ready.snoc_fields _ _, ?_⟩
    · intro s hs
      rcases List.mem_append.1 hs with hs | hs
      · exact h.good s hs
      · simp only [List.mem_singleton] at hs; subst hs
        exact ⟨by simp, by simpa using hx⟩
    · intro i hi
      rcases List.mem_cons.1 hi with rfl | hi
      · exact ⟨_, List.mem_append_right _ List.mem_cons_self, by simp [Step.items]⟩
      · obtain ⟨s, h1, h2⟩ := h.cover i hi
        exact ⟨s, by simp [h1], h2⟩
  unfold groupField
  by_cases hk : cur = some k
  · rw [if_pos hk]
    obtain ⟨l0, items, rfl⟩ := hc k hk
    simp only [List.getLast?_append, List.getLast?_singleton, Option.some_or, List.dropLast_concat]
    refine ⟨⟨?_, h.ready.init.snoc_fields _ _, ?_⟩, l0, _, rfl, by simp⟩
    · intro s hs
      rcases List.mem_append.1 hs with hs | hs
      · exact h.good s (by simp [hs])
      · simp only [List.mem_singleton] at hs; subst hs
        have := h.good (.fields k items) (by simp)
        refine ⟨by simp, ?_⟩
        intro x hx'
        rcases List.mem_append.1 hx' with hx' | hx'
        · exact this.2 x hx'
        · simp only [List.mem_singleton] at hx'; subst hx'; exact hx
    · intro i hi
      rcases List.mem_cons.1 hi with rfl | hi
      · exact ⟨_, List.mem_append_right _ List.mem_cons_self, by simp [Step.items]⟩
      · obtain ⟨s, h1, h2⟩ := h.cover i hi
        rcases List.mem_append.1 h1 with h1 | h1
        · exact ⟨s, by simp [h1], h2⟩
        · simp only [List.mem_singleton] at h1; subst h1
          exact ⟨_, List.mem_append_right _ List.mem_cons_self, by
            simp only [Step.items] at h2 ⊢
            simp only [List.map_append, List.mem_append]; exact .inl h2⟩
  · rw [if_neg hk]
    exact ⟨hnew, steps, _, rfl, by simp⟩

theorem groupItems_spec (hreq : ReqOk U g gn) {l l0 : List QItem} {steps : List Step} {cur : Option FKey}
    (h : ∀ i ∈ l, ItemOk U g gn i) (hl : ∀ i ∈ l, i.isLink = true → ∃ gl, gn.get i.name = some (.link gl))
    (hs : StepsSpec U g gn l0 steps) (hc : CurOK steps cur) :
    ∃ steps', groupItems gn steps cur l = .ok steps' ∧ StepsSpec U g gn (l0 ++ l) steps' := by
  induction l generalizing l0 steps cur with
  | nil => exact ⟨steps, rfl, by simpa using hs⟩
  | cons i r ih =>
    have ih' := fun {l0 steps cur} => @ih l0 steps cur (fun x hx => h x (by simp [hx])) (fun x hx => hl x (by simp [hx]))
    cases i with
    | field n o a =>
      have hfi : FItem U gn (.field n o a) := by
        have := h (.field n o a) (by simp); simp only [ItemOk] at this; exact this
      obtain ⟨gf, h1, h2⟩ := splitField_of_FItem (name := n) rfl hfi
      obtain ⟨g1, pre, items, g2, _⟩ := groupField_spec hs hc h2
      obtain ⟨s', e, sp⟩ := ih' g1 (cur := some gf.func.key) (by
        rintro k ⟨⟩; exact ⟨pre, items, g2⟩)
      refine ⟨s', by simp only [groupItems, h1, ok_bind']; exact e, sp.good, sp.ready, ?_⟩
      intro i hi
      apply sp.cover
      simp only [List.mem_append, List.mem_cons] at hi ⊢
      rcases hi with hi | hi | hi
      · exact .inl (.inr hi)
      · exact .inl (.inl hi)
      · exact .inr hi
    | link n q o a =>
      obtain ⟨gl, hget⟩ := hl (.link n q o a) (by simp) rfl
      simp only [QItem.name] at hget
      have hli : LItem U g gn gl (.link n q o a) := by
        have := h (.link n q o a) (by simp)
        simp only [ItemOk] at this
        obtain ⟨hu, ⟨gl', t, h1, h2, h3⟩ | ⟨gf, h1, _⟩⟩ := this
        · rw [hget] at h1; cases h1
          exact ⟨n, q, o, a, t, rfl, hu, hget, h2, h3⟩
        · rw [hget] at h1; cases h1
      have main : ∀ steps1 : List Step, StepsSpec U g gn l0 steps1 → Preceded steps1 gl →
          ∃ steps', groupItems gn (steps1 ++ [.link gl (.link n q o a)]) none r = .ok steps' ∧
            StepsSpec U g gn (l0 ++ QItem.link n q o a :: r) steps' := by
        intro steps1 hs1 hp
        have : StepsSpec U g gn (QItem.link n q o a :: l0) (steps1 ++ [.link gl (.link n q o a)]) := by
          refine ⟨?_, hs1.ready.snoc_link hp, ?_⟩
          · intro s hs
            rcases List.mem_append.1 hs with hs | hs
            · exact hs1.good s hs
            · simp only [List.mem_singleton] at hs; subst hs; exact hli
          · intro i hi
            rcases List.mem_cons.1 hi with rfl | hi
            · exact ⟨_, List.mem_append_right _ List.mem_cons_self, by simp [Step.items]⟩
            · obtain ⟨s, h1, h2⟩ := hs1.cover i hi
              exact ⟨s, by simp [h1], h2⟩
        obtain ⟨s', e, sp⟩ := ih' this (cur := none) (by rintro k ⟨⟩)
        refine ⟨s', e, sp.good, sp.ready, ?_⟩
        intro i hi
        apply sp.cover
        simp only [List.mem_append, List.mem_cons] at hi ⊢
        rcases hi with hi | hi | hi
        · exact .inl (.inr hi)
        · exact .inl (.inl hi)
        · exact .inr hi
      rcases reqTruthy_iff hreq hget with ⟨hr, hrt⟩ | ⟨r0, hr, hrt, hfi⟩
      · obtain ⟨s', e, sp⟩ := main steps hs (fun r hr' => by simp [hr] at hr')
        exact ⟨s', by simp only [groupItems, hget, hrt]; exact e, sp⟩
      · obtain ⟨gf, h1, h2⟩ := splitField_of_FItem (name := r0) rfl hfi
        obtain ⟨g1, pre, items, g2, g3⟩ := groupField_spec hs hc h2
        have hs1 : StepsSpec U g gn l0 (groupField steps cur gf.func.key (.field gf) (.field r0 none none)) :=
          ⟨g1.good, g1.ready, fun i hi => g1.cover i (by simp [hi])⟩
        obtain ⟨s', e, sp⟩ := main _ hs1 (by
          intro r hr'
          simp only [hr, Option.some.injEq] at hr'; subst hr'
          exact ⟨pre, _, items, g2, _, g3, rfl⟩)
        refine ⟨s', ?_, sp⟩
        simp only [groupItems, hget, hrt, hr, Option.getD_some, h1, if_true, ok_bind']
        exact e

end Hiku
