import Verif.Spec.Grow
import Verif.Props.IntrospectResult
import Verif.Props.Plan
import Verif.Props.Denormalize
import Verif.Props.Validate2
import Mathlib.Data.List.SplitBy

/-! # C69: a graph can grow, existing queries do not notice -/

namespace Hiku.Grow
open Hiku

variable {g g' : Graph} {U : String → Opts → Prop}

/-! ### Lookups of nodes and fields -/

/-- the last item with a name -/
def lastOf (l : List GItem) (n : String) : Option GItem := l.reverse.find? fun i => i.name = n

theorem dget_names {α : Type} (f : α → String) (l : List α) (n : String) :
    dget (dmk (l.map fun x => (f x, x))) n = l.reverse.find? fun x => f x = n := by
  rw [dget_dmk, ← List.map_reverse]
  generalize l.reverse = r
  induction r with
  | nil => rfl
  | cons x r ih =>
    rw [List.map_cons, dget_cons, List.find?_cons]
    by_cases hx : f x = n
    · simp [hx]
    · simp [hx, ih]

theorem get_eq (t : GNode) (n : String) : t.get n = lastOf t.fields n := dget_names GItem.name _ _

theorem lastOf_grow {l l' : List GItem} (h : FieldsGrow l l') {n : String} {i : GItem} (hn : lastOf l n = some i) :
    lastOf l' n = some i := by
  have hmem : ∃ j ∈ l, j.name = n := by
    have h1 := List.find?_some hn
    have h2 := List.mem_of_find?_eq_some hn
    exact ⟨i, by simpa using h2, by simpa using h1⟩
  unfold FieldsGrow at h
  rw [← hn]
  conv => rhs; rw [← h]
  unfold lastOf
  rw [← List.filter_reverse, List.find?_filter]
  congr 1
  funext j
  by_cases hj : j.name = n
  · obtain ⟨x, hx, hxn⟩ := hmem
    have h1 : (l.any fun j => decide (j.name = n)) = true := List.any_eq_true.2 ⟨x, hx, by simpa using hxn⟩
    simp [hj, h1]
  · simp [hj]

theorem node_eq (g : Graph) (m : String) : g.node m = (namedNodes g.items).reverse.find? fun n => n.name = some m := by
  unfold Graph.node Graph.nodesMap namedNodes
  rw [dget_dmk]
  rw [← List.filterMap_reverse, ← List.filter_reverse]
  generalize g.items.reverse = r
  induction r with
  | nil => rfl
  | cons x r ih =>
    cases hx : x.name with
    | none => simp [hx, ih]
    | some y =>
      simp only [List.filterMap_cons, hx, Option.map_some, List.filter_cons, Option.isSome_some, if_true, dget_cons,
        List.find?_cons]
      by_cases hy : y = m
      · simp [hy]
      · simp [hy, ih]

theorem forall2_find {R : GNode → GNode → Prop} {l l' : List GNode} {p : GNode → Bool}
    (h : List.Forall₂ R l l') (hp : ∀ n n', R n n' → p n = p n') {t : GNode} (ht : l.find? p = some t) :
    ∃ t', l'.find? p = some t' ∧ R t t' := by
  induction h with
  | nil => simp at ht
  | @cons a b l l' hr _ ih =>
    rw [List.find?_cons] at ht ⊢
    rw [← hp a b hr]
    cases hpa : p a with
    | true => rw [hpa] at ht; cases ht; exact ⟨b, rfl, hr⟩
    | false => rw [hpa] at ht; exact ih ht

theorem node_extends {t t' : GNode} (hn : t.name = t'.name) (h : FieldsGrow t.fields t'.fields) : NodeExtends t t' :=
  ⟨hn.symm, fun n i hi => by rw [get_eq] at hi ⊢; exact lastOf_grow h hi⟩

/-- C69: what may be done with the nodes and the data types of a program is an extension of the graph. -/
theorem c69_extends (hn : NodesGrow g.items g'.items) (ht : TypesGrow g.dataTypes g'.dataTypes) : GraphExtends g g' := by
  refine ⟨node_extends rfl hn.root, fun m t hm => ?_, ht⟩
  rw [node_eq] at hm ⊢
  obtain ⟨t', h1, h2, h3⟩ := forall2_find (List.rel_reverse hn.nodes) (fun n n' hr => by rw [hr.1]) hm
  refine ⟨t', ?_, node_extends h2 h3⟩
  rw [← h1, ← List.filter_reverse, List.find?_filter]
  congr 1
  funext n
  have hname : t.name = some m := by simpa using List.find?_some hm
  have hmem : t ∈ namedNodes g.items := by simpa using List.mem_of_find?_eq_some hm
  by_cases hj : n.name = some m
  · have h4 : ((namedNodes g.items).any fun n => decide (n.name = some m)) = true :=
      List.any_eq_true.2 ⟨t, hmem, by simpa using hname⟩
    simp [hj, h4]
  · simp [hj]

/-- adding at the end: the common case -/
theorem c69_append {more : List GNode} (h : ∀ n ∈ more, n.name.isSome ∧ ∀ m ∈ g.items, m.name ≠ n.name) :
    GraphExtends g { g with items := g.items ++ more } := by
  have hroot : rootFields (g.items ++ more) = rootFields g.items := by
    unfold rootFields
    have hnil : more.filter (fun n => n.name.isNone) = [] := by
      rw [List.filter_eq_nil_iff]
      intro n hn
      have := (h n hn).1
      cases hnn : n.name <;> simp_all
    rw [List.filter_append, hnil, List.append_nil]
  refine c69_extends ⟨?_, ?_⟩ (fun _ _ h => h)
  · rw [hroot]
    unfold FieldsGrow
    rw [List.filter_eq_self]
    intro i hi
    rw [List.any_eq_true]
    exact ⟨i, hi, by simp⟩
  · have : ((namedNodes (g.items ++ more)).filter fun n' => (namedNodes g.items).any fun n => n.name = n'.name) =
        namedNodes g.items := by
      unfold namedNodes
      have h1 : (((g.items.filter fun n => n.name.isSome) ++ (more.filter fun n => n.name.isSome)).filter fun n' =>
          (g.items.filter fun n => n.name.isSome).any fun n => n.name = n'.name) = g.items.filter fun n => n.name.isSome := by
        have h2 : ((more.filter fun n => n.name.isSome).filter fun n' =>
            (g.items.filter fun n => n.name.isSome).any fun n => n.name = n'.name) = [] := by
          rw [List.filter_eq_nil_iff]
          intro n hn
          simp only [List.any_eq_true, not_exists, not_and, decide_eq_true_eq]
          intro m hm
          exact (h n (List.mem_filter.1 hn).1).2 m (List.mem_filter.1 hm).1
        rw [List.filter_append, h2, List.append_nil, List.filter_eq_self]
        intro n hn
        rw [List.any_eq_true]
        exact ⟨n, hn, by simp⟩
      rw [List.filter_append]
      exact h1
    rw [this, List.forall₂_same]
    intro n hn
    refine ⟨rfl, ?_⟩
    unfold FieldsGrow
    rw [List.filter_eq_self]
    intro i hi
    rw [List.any_eq_true]
    exact ⟨i, hi, by simp⟩

/-! ### Types and options -/

theorem hasType_grow {types types' : List (String × Ty)} (ht : TypesGrow types types') {t : Ty} {v : Val} (h : HasType types t v) :
    HasType types' t v := by
  induction h with
  | any => exact .any _
  | boolean => exact .boolean _
  | string => exact .string _
  | keyword => exact .keyword _
  | symbol => exact .symbol _
  | integer => exact .integer _
  | bool_integer => exact .bool_integer _
  | float => exact .float _
  | optional_none => exact .optional_none _
  | optional _ ih => exact .optional ih
  | sequence h1 _ ih => exact .sequence h1 ih
  | mapping _ _ ih1 ih2 => exact .mapping ih1 ih2
  | record h1 h2 _ ih => exact .record h1 h2 ih
  | named h1 _ ih => exact .named (ht _ _ h1) ih

theorem recordOf_grow {types types' : List (String × Ty)} (ht : TypesGrow types types') {b : Bool} {t : Ty} {fs : List (String × Ty)}
    (h : RecordOf types b t fs) : RecordOf types' b t fs := by
  induction h with
  | record => exact .record
  | optional _ ih => exact .optional ih
  | sequence _ ih => exact .sequence ih
  | named h1 _ ih => exact .named (ht _ _ h1) ih

/-- all the named types exist -/
def Closed (types : List (String × Ty)) (t : Ty) : Prop := ∀ m ∈ t.refs, (dget types m).isSome

theorem refs_of_field {fs : List (String × Ty)} {n : String} {t : Ty} (h : dget fs n = some t) : ∀ m ∈ t.refs, m ∈ refsFields fs := by
  induction fs with
  | nil => cases h
  | cons x r ih =>
    obtain ⟨k, u⟩ := x
    rw [dget_cons] at h
    intro m hm
    simp only [refsFields, List.mem_append]
    by_cases hk : k = n
    · simp [hk] at h; subst h; exact .inl hm
    · simp [hk] at h; exact .inr (ih h m hm)

section
variable {types types' : List (String × Ty)} (ht : TypesGrow types types')
  (hc : ∀ n t, dget types n = some t → Closed types t)
include hc

theorem closed_record {b : Bool} {t : Ty} {fs : List (String × Ty)} (h : RecordOf types b t fs) (hcl : Closed types t) :
    ∀ n u, dget fs n = some u → Closed types u := by
  induction h with
  | record => intro n u hu m hm; exact hcl m (by simpa [Ty.refs] using refs_of_field hu m hm)
  | optional _ ih => exact ih (by simpa [Closed, Ty.refs] using hcl)
  | sequence _ ih => exact ih (by simpa [Closed, Ty.refs] using hcl)
  | named h1 _ ih => exact ih (hc _ _ h1)

include ht

/-- the records inside of a type whose names exist are the same -/
theorem recordOf_back {b : Bool} {t : Ty} {fs : List (String × Ty)} (h : RecordOf types' b t fs) (hcl : Closed types t) :
    RecordOf types b t fs := by
  induction h with
  | record => exact .record
  | optional _ ih => exact .optional (ih (by simpa [Closed, Ty.refs] using hcl))
  | sequence _ ih => exact .sequence (ih (by simpa [Closed, Ty.refs] using hcl))
  | @named _ n t fs h1 _ ih =>
    have := hcl n (by simp [Ty.refs])
    obtain ⟨u, hu⟩ := Option.isSome_iff_exists.1 this
    have := ht _ _ hu
    rw [h1] at this; cases this
    exact .named hu (ih (hc _ _ hu))

mutual
theorem recValid_grow {ts : List (String × Ty)} (hts : ∀ n u, dget ts n = some u → Closed types u) :
    (q : QNode) → RecValid types ts q → RecValid types' ts q
  | .mk fs _, h => by
      rw [RecValid] at h ⊢
      exact recValidItems_grow hts fs h
theorem recValidItems_grow {ts : List (String × Ty)} (hts : ∀ n u, dget ts n = some u → Closed types u) :
    (fs : List QItem) → RecValidItems types ts fs → RecValidItems types' ts fs
  | [], _ => trivial
  | .field n o a :: r, h => by
      rw [RecValidItems] at h ⊢
      obtain ⟨⟨h1, t, h2, h3⟩, h4⟩ := h
      exact ⟨⟨h1, t, h2, fun fs hf => h3 fs (recordOf_back ht hc hf (hts _ _ h2))⟩, recValidItems_grow hts r h4⟩
  | .link n q o a :: r, h => by
      rw [RecValidItems] at h ⊢
      obtain ⟨⟨t, fs, h1, h2, h3⟩, h4⟩ := h
      exact ⟨⟨t, fs, h1, recordOf_grow ht h2, recValid_grow (closed_record hc h2 (hts _ _ h1)) q h3⟩, recValidItems_grow hts r h4⟩
end

end

theorem optionsOk_grow {types types' : List (String × Ty)} (ht : TypesGrow types types') {ops : List GOption} {o : Opts}
    (h : OptionsOk types ops o) : OptionsOk types' ops o :=
  ⟨h.given, fun op ho t hty => hasType_grow ht (h.typed op ho t hty), h.known⟩

/-! ### Valid queries -/

section
variable (he : GraphExtends g g') (hc : ∀ n t, dget g.dataTypes n = some t → Closed g.dataTypes t)
  (hf : ∀ gn, IsNode g gn → ∀ n gf, gn.get n = some (.field gf) → ∀ t, gf.ty = some t → Closed g.dataTypes t)
include he hc hf

mutual
theorem valid_grow {gn gn' : GNode} (hn : IsNode g gn) (hx : NodeExtends gn gn') : (q : QNode) → QueryValid g gn q → QueryValid g' gn' q
  | .mk fs _, h => by
      rw [QueryValid] at h ⊢
      exact ⟨validItems_grow hn hx fs h.1, h.2⟩
theorem validItems_grow {gn gn' : GNode} (hn : IsNode g gn) (hx : NodeExtends gn gn') : (fs : List QItem) →
    QueryValidItems g gn fs → QueryValidItems g' gn' fs
  | [], _ => trivial
  | .field n o a :: r, h => by
      rw [QueryValidItems] at h ⊢
      obtain ⟨⟨gf, h1, h2⟩, h3⟩ := h
      exact ⟨⟨gf, hx.get _ _ h1, optionsOk_grow he.types h2⟩, validItems_grow hn hx r h3⟩
  | .link n q o a :: r, h => by
      rw [QueryValidItems] at h ⊢
      obtain ⟨h, h3⟩ := h
      refine ⟨?_, validItems_grow hn hx r h3⟩
      rcases h with ⟨gl, t, h1, h2, h4, h5⟩ | ⟨gf, ts, h1, h2, ⟨t, h4, h6⟩, h5⟩
      · obtain ⟨t', h6, h7⟩ := he.nodes _ _ h4
        exact .inl ⟨gl, t', hx.get _ _ h1, optionsOk_grow he.types h2, h6, valid_grow (.inr ⟨_, h4⟩) h7 q h5⟩
      · exact .inr ⟨gf, ts, hx.get _ _ h1, optionsOk_grow he.types h2, ⟨t, h4, recordOf_grow he.types h6⟩,
          recValid_grow he.types hc (closed_record hc h6 (hf gn hn n gf h1 t h4)) q h5⟩
end
end

/-- C69: valid queries stay valid. -/
theorem c69_valid (he : GraphExtends g g') {rank : String → Nat} {lim : Nat} (hT : GraphTypesOk g rank lim) {q : QNode}
    (h : QueryValid g g.root q) : QueryValid g' g'.root q :=
  valid_grow he (fun n t hd m hm => (hT.types.exists_ n t hd m hm).1)
    (fun gn hn n gf hg t ht m hm => (hT.fields gn hn n gf hg t ht m hm).1) (.inl rfl) he.root q h

/-- C69: what the validator of the graph accepts is accepted by the validator of the larger graph. -/
theorem c69_accepted (he : GraphExtends g g') {rank rank' : String → Nat} {lim lim' : Nat} (hT : GraphTypesOk g rank lim)
    (hT' : GraphTypesOk g' rank' lim') {q : QNode} (h : validate g lim q = .ok []) : validate g' lim' q = .ok [] :=
  (c24_accepts hT' q).2 (c69_valid he hT ((c24_accepts hT q).1 h))

/-! ### Options -/

mutual
theorem initItem_grow (he : GraphExtends g g') {gn gn' : GNode} (hx : NodeExtends gn gn') : (i : QItem) → (i' : QItem) →
    initItem g gn i = .ok i' → initItem g' gn' i = .ok i'
  | .field n o a, i', h => by
      simp only [initItem] at h ⊢
      cases hg : gn.get n with
      | none => simp [hg] at h
      | some it => simpa [hg, hx.get _ _ hg] using h
  | .link n q o a, i', h => by
      simp only [initItem] at h ⊢
      cases hg : gn.get n with
      | none => simp [hg] at h
      | some it =>
        cases it with
        | field gf => simpa [hg, hx.get _ _ hg] using h
        | link gl =>
          simp only [hg, hx.get _ _ hg] at h ⊢
          cases ht : g.node gl.node with
          | none => simp [ht] at h
          | some t =>
            obtain ⟨t', h1, h2⟩ := he.nodes _ _ ht
            simp only [ht, h1] at h ⊢
            cases hq : initNode g t q with
            | error e => rw [hq] at h; cases h
            | ok q' =>
              rw [initNode_grow he h2 q q' hq]
              rw [hq] at h
              exact h
theorem initNode_grow (he : GraphExtends g g') {gn gn' : GNode} (hx : NodeExtends gn gn') : (q : QNode) → (q' : QNode) →
    initNode g gn q = .ok q' → initNode g' gn' q = .ok q'
  | .mk fs ord, q', h => by
      simp only [initNode] at h ⊢
      cases hi : initItems g gn fs with
      | error e => rw [hi] at h; cases h
      | ok l =>
        rw [initItems_grow he hx fs l hi]
        rw [hi] at h
        exact h
theorem initItems_grow (he : GraphExtends g g') {gn gn' : GNode} (hx : NodeExtends gn gn') : (fs : List QItem) → (l : List QItem) →
    initItems g gn fs = .ok l → initItems g' gn' fs = .ok l
  | [], l, h => h
  | i :: r, l, h => by
      simp only [initItems] at h ⊢
      cases hi : initItem g gn i with
      | error e => rw [hi] at h; cases h
      | ok i' =>
        rw [initItem_grow he hx i i' hi]
        rw [hi] at h
        simp only [ok_bind'] at h ⊢
        cases hr : initItems g gn r with
        | error e => rw [hr] at h; cases h
        | ok r' =>
          rw [initItems_grow he hx r r' hr]
          rw [hr] at h
          exact h
end

/-- C69: the options which are filled in are the same. -/
theorem c69_options (he : GraphExtends g g') {q q' : QNode} (h : initOptions g q = .ok q') : initOptions g' q = .ok q' :=
  initNode_grow he he.root q q' h

/-! ### The reference semantics -/

variable {D : Data}

/-- fields computed by sub-graphs have the same meaning in both systems -/
def SubAgree (g : Graph) (sub sub' : SubSem) : Prop := ∀ gn, IsNode g gn → ∀ n gf sg reqs p,
  gn.get n = some (.field gf) → gf.func = .checked sg reqs p → ∀ opts i, sub' sg reqs p opts i = sub sg reqs p opts i

/-- requirements of links are known -/
def ReqsKnown (g : Graph) : Prop := ∀ gn, IsNode g gn → ∀ n gl r, gn.get n = some (.link gl) → gl.requires = some r →
  ∃ it, gn.get r = some it

section
variable {sub sub' : SubSem} (he : GraphExtends g g') (hs : SubAgree g sub sub') (hr : ReqsKnown g)
  {gn gn' : GNode} (hn : IsNode g gn) (hx : NodeExtends gn gn')
include hs hn hx

theorem semName_grow {n : String} {it : GItem} (hg : gn.get n = some it) (i : Val) (o : Opts) :
    semName D sub' gn' i n o = semName D sub gn i n o := by
  cases it with
  | link gl => simp only [semName, hg, hx.get _ _ hg]
  | field gf =>
    simp only [semName, hg, hx.get _ _ hg, semField]
    cases hf : gf.func with
    | plain f => simp only [hx.name]
    | checked sg reqs p => exact hs gn hn n gf sg reqs p hg hf _ _

include hr

theorem semLink_grow {n : String} {gl : GLink} (hg : gn.get n = some (.link gl)) (i : Val) (o : Opts) :
    semLink D sub' gn' i gl o = semLink D sub gn i gl o := by
  unfold semLink
  congr 1
  cases hq : gl.requires with
  | none => rfl
  | some r =>
    obtain ⟨it, h1⟩ := hr gn hn n gl r hg hq
    simp only [Option.map_some, semName_grow hs hn hx h1]

end

mutual
theorem semItem_grow {sub sub' : SubSem} (he : GraphExtends g g') (hs : SubAgree g sub sub') (hr : ReqsKnown g)
    {gn gn' : GNode} (hn : IsNode g gn) (hx : NodeExtends gn gn') (i : Val) : (q : QItem) → ItemOk U g gn q →
    semItem D sub' g' gn' i q = semItem D sub g gn i q
  | .field n o a, h => by
      simp only [ItemOk] at h
      obtain ⟨_, gf, h1, _⟩ := h
      simp only [semItem]
      exact semName_grow hs hn hx h1 i o
  | .link n q o a, h => by
      simp only [ItemOk] at h
      obtain ⟨_, ⟨gl, t, h1, h2, h3⟩ | ⟨gf, h1, _⟩⟩ := h
      · obtain ⟨t', h4, h5⟩ := he.nodes _ _ h2
        have ih := fun v => semNode_grow he hs hr (.inr ⟨_, h2⟩) h5 v q h3
        simp only [semItem, h1, hx.get _ _ h1, h2, h4, semLink_grow hs hr hn hx h1, ih]
      · simp only [semItem, h1, hx.get _ _ h1]
        exact semName_grow hs hn hx h1 i o
theorem semNode_grow {sub sub' : SubSem} (he : GraphExtends g g') (hs : SubAgree g sub sub') (hr : ReqsKnown g)
    {gn gn' : GNode} (hn : IsNode g gn) (hx : NodeExtends gn gn') (i : Val) : (q : QNode) → NodeOk U g gn q →
    semNode D sub' g' gn' i q = semNode D sub g gn i q
  | .mk fs ord, h => by
      simp only [NodeOk] at h
      simp only [semNode]
      rw [semItems_grow he hs hr hn hx i fs h.1]
theorem semItems_grow {sub sub' : SubSem} (he : GraphExtends g g') (hs : SubAgree g sub sub') (hr : ReqsKnown g)
    {gn gn' : GNode} (hn : IsNode g gn) (hx : NodeExtends gn gn') (i : Val) : (l : List QItem) → ItemsOk U g gn l →
    semItems D sub' g' gn' i l = semItems D sub g gn i l
  | [], _ => rfl
  | x :: r, h => by
      simp only [ItemsOk] at h
      simp only [semItems]
      rw [semItem_grow he hs hr hn hx i x h.1, semItems_grow he hs hr hn hx i r h.2]
end

section
variable {sys sys' : Sys} (hgood : GoodSys U sys) (he : SysExtends sys sys')
include hgood

theorem reqsKnown {gi : Nat} (hg : sys.graphs[gi]? = some g) : ReqsKnown g := by
  intro gn hn n gl r h1 h2
  obtain ⟨_, h3⟩ := (hgood.links gi g hg gn hn n gl h1).2 r h2
  simp only [ItemOk] at h3
  obtain ⟨_, gf, h4, _⟩ := h3
  exact ⟨_, h4⟩

include he

theorem semSub_grow (gi : Nat) : ∀ g, sys.graphs[gi]? = some g → SubAgree g (semSub sys D gi) (semSub sys' D gi) := by
  induction gi using Nat.strongRecOn with
  | ind gi ih =>
    intro g hg gn hn n gf sg reqs p h1 h2 opts i
    obtain ⟨_, s, g0, t, h3, h4, h5, h6, _, h7, ⟨it, h8, h9⟩, h10⟩ := hgood.subs gi g hg gn hn n gf h1 sg reqs p h2
    obtain ⟨g0', h11, h12⟩ := he.graphs _ _ h5
    obtain ⟨t', h13, h14⟩ := h12.nodes _ _ h6
    have hsa := ih _ h4 g0 h5
    have hrk := reqsKnown hgood h5
    rw [semSub, semSub]
    simp only [h3, he.subs _ _ h3, dif_pos h4, h5, h11, h6, h13]
    have hroot : semNode D (semSub sys' D s.graph) g0' g0'.root rootIdent (.mk (reqs.fields.filter fun r => r.name ≠ THIS) false) =
        semNode D (semSub sys D s.graph) g0 g0.root rootIdent (.mk (reqs.fields.filter fun r => r.name ≠ THIS) false) := by
      refine semNode_grow (U := U) h12 hsa hrk (.inl rfl) h12.root _ _ ?_
      rw [nodeOk_iff]
      refine ⟨fun r hr => ?_, by simp [QNode.ordered]⟩
      simp only [QNode.fields, List.mem_filter, decide_eq_true_eq] at hr
      have := h10 r hr.1
      rwa [if_neg hr.2] at this
    rw [hroot]
    cases hth : dget reqs.fieldsMap THIS with
    | none => rfl
    | some x =>
      cases x with
      | field => rfl
      | link m q o a =>
        have hmem : QItem.link m q o a ∈ reqs.fields ∧ m = THIS := by
          unfold QNode.fieldsMap at hth
          rw [dget_dmk] at hth
          have := dget_mem hth
          simp only [List.mem_reverse, List.mem_map] at this
          obtain ⟨y, hy1, hy2⟩ := this
          simp only [Prod.mk.injEq] at hy2
          obtain ⟨h17, rfl⟩ := hy2
          exact ⟨hy1, h17⟩
        have h15 := h10 _ hmem.1
        rw [if_pos (by exact hmem.2)] at h15
        obtain ⟨q', h16, h17⟩ := h15
        cases h16
        simp only [semNode_grow h12 hsa hrk (.inr ⟨_, h6⟩) h14 _ _ h17]

/-- C69: the value of a query which the graph can answer is the same in the larger system. -/
theorem c69_value {gi : Nat} (hg : sys.graphs[gi]? = some g) {q : QNode} (hq : NodeOk U g g.root q) :
    semQuery sys' D gi q = semQuery sys D gi q := by
  obtain ⟨g', h1, h2⟩ := he.graphs _ _ hg
  simp only [semQuery, hg, h1]
  exact semNode_grow h2 (semSub_grow hgood he gi g hg) (reqsKnown hgood hg) (.inl rfl) h2.root _ _ hq

end

/-! ### The calls -/

theorem splitByLoop_congr {α : Type} {R R' : α → α → Bool} : (l : List α) → (a : α) → (cur : List α) → (gs : List (List α)) →
    (∀ x ∈ a :: l, ∀ y ∈ a :: l, R x y = R' x y) → List.splitBy.loop R l a cur gs = List.splitBy.loop R' l a cur gs
  | [], _, _, _, _ => rfl
  | b :: l, a, cur, gs, h => by
      simp only [List.splitBy.loop]
      rw [h a (by simp) b (by simp)]
      have ih := fun cur gs => splitByLoop_congr l b cur gs fun x hx y hy =>
        h x (List.mem_cons_of_mem _ hx) y (List.mem_cons_of_mem _ hy)
      simp only [ih]

theorem splitBy_congr {α : Type} {R R' : α → α → Bool} {l : List α} (h : ∀ x ∈ l, ∀ y ∈ l, R x y = R' x y) :
    l.splitBy R = l.splitBy R' := by
  cases l with
  | nil => rfl
  | cons a l => exact splitByLoop_congr l a [] [] h

/-- requirements of fields of the node which are computed by the sub-graph -/
def ReqOfNode (gn : GNode) (sg : Nat) (r : QNode) : Prop := ∃ n gf p, gn.get n = some (.field gf) ∧ gf.func = .checked sg r p

/-- fields computed by sub-graphs make the same calls in both systems -/
def SubPAgree (g : Graph) (subp subp' : SubPlan) : Prop := ∀ gn, IsNode g gn → ∀ sg reqs, reqs ≠ [] →
  (∀ r ∈ reqs, ReqOfNode gn sg r) → ∀ ids, subp' sg reqs ids = subp sg reqs ids

section
variable {sub sub' : SubSem} {subp subp' : SubPlan} {gn gn' : GNode} (hx : NodeExtends gn gn')
include hx

theorem fieldFunc_grow {q : QItem} (h : ∃ it, gn.get q.name = some it) : fieldFunc gn' q = fieldFunc gn q := by
  obtain ⟨it, h⟩ := h
  simp only [fieldFunc, h, hx.get _ _ h]

theorem requirements_grow {q : QItem} (h : ∃ it, gn.get q.name = some it) : requirements gn' q = requirements gn q := by
  obtain ⟨it, h⟩ := h
  simp only [requirements, h, hx.get _ _ h]

theorem loadItem_grow {q : QItem} (h : ∃ it, gn.get q.name = some it) : loadItem gn' q = loadItem gn q := by
  obtain ⟨it, h⟩ := h
  cases q with
  | field => rfl
  | link n q o a =>
    simp only [QItem.name] at h
    simp only [loadItem, h, hx.get _ _ h]

end

theorem itemOk_known {gn : GNode} {i : QItem} (h : ItemOk U g gn i) : ∃ it, gn.get i.name = some it := by
  rcases h.cases with ⟨_, gf, h1, _⟩ | ⟨gl, n, q, o, a, t, rfl, _, h1, _⟩
  · exact ⟨_, h1⟩
  · exact ⟨_, h1⟩

theorem loadItem_known (hr : ReqsKnown g) {gn : GNode} (hn : IsNode g gn) {i : QItem} (h : ∃ it, gn.get i.name = some it) :
    ∀ q ∈ loadItem gn i, ∃ it, gn.get q.name = some it := by
  intro q hq
  cases i with
  | field n o a =>
    simp only [loadItem, List.mem_singleton] at hq
    subst hq
    exact h
  | link n q' o a =>
    obtain ⟨it, h⟩ := h
    simp only [QItem.name] at h
    cases it with
    | field gf =>
      simp only [loadItem, h, List.mem_singleton] at hq
      subst hq
      exact ⟨_, h⟩
    | link gl =>
      simp only [loadItem, h, List.mem_append, List.mem_singleton, Option.mem_toList, Option.map_eq_some_iff] at hq
      rcases hq with ⟨r, h1, rfl⟩ | rfl
      · obtain ⟨it, h2⟩ := hr gn hn n gl r h h1
        exact ⟨it, h2⟩
      · exact ⟨_, h⟩

theorem flatMap_congr' {α β : Type} {l : List α} {f f' : α → List β} (h : ∀ x ∈ l, f x = f' x) : l.flatMap f = l.flatMap f' := by
  induction l with
  | nil => rfl
  | cons a l ih => rw [List.flatMap_cons, List.flatMap_cons, h a (by simp), ih fun x hx => h x (List.mem_cons_of_mem _ hx)]

section
variable {sub sub' : SubSem} {subp subp' : SubPlan} (he : GraphExtends g g') (hs : SubAgree g sub sub')
  (hsp : SubPAgree g subp subp') (hr : ReqsKnown g) {gn gn' : GNode} (hn : IsNode g gn) (hx : NodeExtends gn gn')
include hr hn hx

theorem together_grow (ord : Bool) {items : List QItem} (h : ∀ i ∈ items, ∃ it, gn.get i.name = some it) :
    together gn' ord items = together gn ord items := by
  have h1 : items.flatMap (loadItem gn') = items.flatMap (loadItem gn) :=
    flatMap_congr' fun i hi => loadItem_grow hx (h i hi)
  have h2 : ∀ q ∈ items.flatMap (loadItem gn), fieldFunc gn' q = fieldFunc gn q := by
    intro q hq
    obtain ⟨i, hi, hq⟩ := List.mem_flatMap.1 hq
    exact fieldFunc_grow hx (loadItem_known hr hn (h i hi) q hq)
  unfold together
  simp only [h1]
  generalize items.flatMap (loadItem gn) = l at h2
  split
  · exact splitBy_congr fun x hx y hy => by rw [h2 x hx, h2 y hy]
  · have : l.map (fieldFunc gn') = l.map (fieldFunc gn) := List.map_congr_left h2
    rw [this]
    refine List.map_congr_left fun k _ => ?_
    exact List.filter_congr fun q hq => by rw [h2 q hq]

omit hx in
/-- the items of a group: all are known, and all have the same function -/
theorem together_groups (ord : Bool) {items : List QItem} (h : ∀ i ∈ items, ∃ it, gn.get i.name = some it) :
    ∀ l ∈ together gn ord items, (∀ q ∈ l, ∃ it, gn.get q.name = some it) ∧
      ∀ q ∈ l, (fieldFunc gn q).isSome → ∀ q' ∈ l, fieldFunc gn q' = fieldFunc gn q := by
  have hk : ∀ q ∈ items.flatMap (loadItem gn), ∃ it, gn.get q.name = some it := by
    intro q hq
    obtain ⟨i, hi, hq⟩ := List.mem_flatMap.1 hq
    exact loadItem_known hr hn (h i hi) q hq
  intro l hl
  unfold together at hl
  simp only at hl
  split at hl
  · refine ⟨fun q hq => hk q ?_, ?_⟩
    · rw [← List.flatten_splitBy (fun a b => (fieldFunc gn a).isSome && fieldFunc gn a == fieldFunc gn b) (items.flatMap (loadItem gn))]
      exact List.mem_flatten.2 ⟨l, hl, hq⟩
    · have hc := List.isChain_of_mem_splitBy hl
      have hall : ∀ q ∈ l, ∀ q' ∈ l, fieldFunc gn q' = fieldFunc gn q := by
        clear hl
        induction l with
        | nil => simp
        | cons a l ih =>
          have hl : ∀ q ∈ l, fieldFunc gn q = fieldFunc gn a := by
            cases l with
            | nil => simp
            | cons b l =>
              rw [List.isChain_cons_cons] at hc
              intro q hq
              have h1 : fieldFunc gn a = fieldFunc gn b := by
                have := hc.1
                simp only [Bool.and_eq_true, beq_iff_eq] at this
                exact this.2
              rw [h1]
              exact ih hc.2 b (by simp) q hq
          have key : ∀ q ∈ a :: l, fieldFunc gn q = fieldFunc gn a := by
            intro q hq
            rcases List.mem_cons.1 hq with e | e
            · rw [e]
            · exact hl q e
          intro q hq q' hq'
          rw [key q hq, key q' hq']
      exact fun q hq _ q' hq' => hall q hq q' hq'
  · obtain ⟨k, _, rfl⟩ := List.mem_map.1 hl
    refine ⟨fun q hq => hk q (List.mem_filter.1 hq).1, fun q hq _ q' hq' => ?_⟩
    have h1 := (List.mem_filter.1 hq).2
    have h2 := (List.mem_filter.1 hq').2
    simp only [decide_eq_true_eq] at h1 h2
    rw [h1, h2]

omit hr in
include hsp in
theorem planFields_grow (ids : Option (List Val)) {l : List QItem} (hk : ∀ q ∈ l, ∃ it, gn.get q.name = some it)
    (hh : ∀ q ∈ l, (fieldFunc gn q).isSome → ∀ q' ∈ l, fieldFunc gn q' = fieldFunc gn q) :
    planFields subp' gn' ids l = planFields subp gn ids l := by
  cases l with
  | nil => rfl
  | cons q r =>
    have h1 := fieldFunc_grow hx (hk q (by simp))
    simp only [planFields, h1]
    cases hf : fieldFunc gn q with
    | none => rfl
    | some k =>
      cases k with
      | plain f => rfl
      | sub sg =>
        simp only
        have hreq : (q :: r).filterMap (requirements gn') = (q :: r).filterMap (requirements gn) :=
          List.filterMap_congr fun x hx' => requirements_grow hx (hk x hx')
        rw [hreq]
        have hchk : ∀ x ∈ q :: r, ∃ rq, requirements gn x = some rq ∧ ReqOfNode gn sg rq := by
          intro x hxm
          have h2 := hh q (by simp) (by rw [hf]; rfl) x hxm
          rw [hf] at h2
          unfold fieldFunc at h2
          unfold requirements
          cases hg : gn.get x.name with
          | none => simp [hg] at h2
          | some it =>
            cases it with
            | link gl => simp [hg] at h2
            | field gf =>
              simp only [hg] at h2 ⊢
              cases hfn : gf.func with
              | plain f => simp [hfn, Func.key] at h2
              | checked sg' rq p =>
                simp only [hfn, Func.key, Option.some.injEq, FKey.sub.injEq] at h2
                subst h2
                exact ⟨rq, rfl, x.name, gf, p, hg, hfn⟩
        refine hsp gn hn sg _ ?_ ?_ _
        · obtain ⟨rq, h3, _⟩ := hchk q (by simp)
          intro h4
          rw [List.filterMap_eq_nil_iff] at h4
          have := h4 q (by simp)
          rw [h3] at this
          cases this
        · intro rq hrq
          obtain ⟨x, hxm, h3⟩ := List.mem_filterMap.1 hrq
          obtain ⟨rq', h4, h5⟩ := hchk x hxm
          rw [h3] at h4; cases h4
          exact h5

include hs in
theorem planLink_grow {n : String} {gl : GLink} (hg : gn.get n = some (.link gl)) (ids : Option (List Val)) (o : Opts) :
    planLink D sub' gn' ids gl o = planLink D sub gn ids gl o := by
  have : reqArg D sub' gn' ids gl.requires = reqArg D sub gn ids gl.requires := by
    cases hq : gl.requires with
    | none => rfl
    | some r =>
      obtain ⟨it, h1⟩ := hr gn hn n gl r hg hq
      simp only [reqArg, semName_grow hs hn hx h1]
  unfold planLink
  rw [this]

include hs in
theorem linkedObjects_grow {n : String} {gl : GLink} (hg : gn.get n = some (.link gl)) (ids : Option (List Val)) (o : Opts) :
    linkedObjects D sub' gn' ids gl o = linkedObjects D sub gn ids gl o := by
  unfold linkedObjects
  simp only [semLink_grow hs hr hn hx hg]

end

mutual
theorem planItem_grow {sub sub' : SubSem} {subp subp' : SubPlan} (he : GraphExtends g g') (hs : SubAgree g sub sub')
    (hsp : SubPAgree g subp subp') (hr : ReqsKnown g) {gn gn' : GNode} (hn : IsNode g gn) (hx : NodeExtends gn gn')
    (ids : Option (List Val)) : (q : QItem) → ItemOk U g gn q →
    planItem D sub' subp' g' gn' ids q = planItem D sub subp g gn ids q
  | .field n o a, _ => by simp only [planItem]
  | .link n q o a, h => by
      simp only [ItemOk] at h
      obtain ⟨_, ⟨gl, t, h1, h2, h3⟩ | ⟨gf, h1, _⟩⟩ := h
      · obtain ⟨t', h4, h5⟩ := he.nodes _ _ h2
        have ih := fun ids => planNode_grow he hs hsp hr (.inr ⟨_, h2⟩) h5 ids q h3
        simp only [planItem, h1, hx.get _ _ h1, h2, h4, planLink_grow hs hr hn hx h1, linkedObjects_grow hs hr hn hx h1, ih]
      · simp only [planItem, h1, hx.get _ _ h1]
theorem planNode_grow {sub sub' : SubSem} {subp subp' : SubPlan} (he : GraphExtends g g') (hs : SubAgree g sub sub')
    (hsp : SubPAgree g subp subp') (hr : ReqsKnown g) {gn gn' : GNode} (hn : IsNode g gn) (hx : NodeExtends gn gn')
    (ids : Option (List Val)) : (q : QNode) → NodeOk U g gn q →
    planNode D sub' subp' g' gn' ids q = planNode D sub subp g gn ids q
  | .mk fs ord, h => by
      simp only [NodeOk] at h
      have hk : ∀ i ∈ fs, ∃ it, gn.get i.name = some it := fun i hi => itemOk_known (itemsOk_iff.1 h.1 i hi)
      simp only [planNode]
      rw [together_grow hr hn hx ord hk, planItems_grow he hs hsp hr hn hx ids fs h.1]
      congr 1
      refine flatMap_congr' fun l hl => ?_
      obtain ⟨h1, h2⟩ := together_groups hr hn ord hk l hl
      exact planFields_grow hsp hn hx ids h1 h2
theorem planItems_grow {sub sub' : SubSem} {subp subp' : SubPlan} (he : GraphExtends g g') (hs : SubAgree g sub sub')
    (hsp : SubPAgree g subp subp') (hr : ReqsKnown g) {gn gn' : GNode} (hn : IsNode g gn) (hx : NodeExtends gn gn')
    (ids : Option (List Val)) : (l : List QItem) → ItemsOk U g gn l →
    planItems D sub' subp' g' gn' ids l = planItems D sub subp g gn ids l
  | [], _ => by simp only [planItems]
  | x :: r, h => by
      simp only [ItemsOk] at h
      simp only [planItems]
      rw [planItem_grow he hs hsp hr hn hx ids x h.1, planItems_grow he hs hsp hr hn hx ids r h.2]
end

section
variable {sys sys' : Sys} (hgood : GoodSys U sys) (he : SysExtends sys sys')
include hgood he

theorem planSub_grow (H : PyHash) (gi : Nat) : ∀ g, sys.graphs[gi]? = some g →
    SubPAgree g (planSub sys H D gi) (planSub sys' H D gi) := by
  induction gi using Nat.strongRecOn with
  | ind gi ih =>
    intro g hg gn hn sg reqs hne hreqs ids
    obtain ⟨r0, hr0⟩ := List.exists_mem_of_ne_nil _ hne
    obtain ⟨n0, gf0, p0, h1, h2⟩ := hreqs r0 hr0
    obtain ⟨_, s, g0, t, h3, h4, h5, h6, _, _, _⟩ := hgood.subs gi g hg gn hn n0 gf0 h1 sg r0 p0 h2
    have hok : ∀ r ∈ reqs, ReqsOk U g0 t r := by
      intro r hr
      obtain ⟨n1, gf1, p1, e1, e2⟩ := hreqs r hr
      obtain ⟨_, s', g1, t1, e3, _, e5, e6, _, e7⟩ := hgood.subs gi g hg gn hn n1 gf1 e1 sg r p1 e2
      rw [h3] at e3; cases e3
      rw [h5] at e5; cases e5
      rw [h6] at e6; cases e6
      exact e7
    obtain ⟨m1, _, m3, m4, _⟩ := reqs_merge (H := H) hne hok
    obtain ⟨g0', h11, h12⟩ := he.graphs _ _ h5
    obtain ⟨t', h13, h14⟩ := h12.nodes _ _ h6
    have hsa := semSub_grow (D := D) hgood he _ g0 h5
    have hsp := ih _ h4 g0 h5
    have hrk := reqsKnown hgood h5
    rw [planSub, planSub]
    simp only [h3, he.subs _ _ h3, dif_pos h4, h5, h11, h6, h13, m1]
    rw [planNode_grow h12 hsa hsp hrk (.inr ⟨_, h6⟩) h14 _ _ m3, planNode_grow h12 hsa hsp hrk (.inl rfl) h12.root _ _ m4]

/-- C69: the plan of the calls of a query which the graph can answer is the same in the larger system. -/
theorem c69_plan (H : PyHash) {gi : Nat} (hg : sys.graphs[gi]? = some g) {q : QNode} (hq : NodeOk U g g.root q) :
    planQuery sys' H D gi q = planQuery sys H D gi q := by
  obtain ⟨g', h1, h2⟩ := he.graphs _ _ hg
  simp only [planQuery, hg, h1]
  exact planNode_grow h2 (semSub_grow hgood he gi g hg) (planSub_grow hgood he H gi g hg) (reqsKnown hgood hg) (.inl rfl)
    h2.root _ _ hq

end

/-! ### Executions -/

theorem nodeOk_grow (he : GraphExtends g g') {gn gn' : GNode} (hx : NodeExtends gn gn') {q : QNode} (h : NodeOk U g gn q) :
    NodeOk U g' gn' q :=
  Intro.nodeOk_mono (fun m t ht => by obtain ⟨t', h1, h2⟩ := he.nodes m t ht; exact ⟨t', h1, h2.get⟩) hx.get q h

variable {env : Env} {sys' : Sys}

/-- data functions which follow the protocol in the larger system do so in the smaller one -/
theorem conforms_shrink (hgood : GoodSys U env.sys) (he : SysExtends env.sys sys') (hc : Conforms (env.grown sys') D U) :
    Conforms env D U where
  fieldsRoot n gi g f qfs hg hne hq := by
    obtain ⟨g', h1, h2⟩ := he.graphs _ _ hg
    refine hc.fieldsRoot n gi g' f qfs h1 hne fun q hm => ?_
    obtain ⟨hu, gf, h3, h4⟩ := hq q hm
    exact ⟨hu, gf, h2.root.get _ _ h3, h4⟩
  fieldsNode n gi g nm gn f qfs ids hg hn hne hq hids hobj := by
    obtain ⟨g', h1, h2⟩ := he.graphs _ _ hg
    obtain ⟨t', h3, h4⟩ := h2.nodes _ _ hn
    refine hc.fieldsNode n gi g' nm t' f qfs ids h1 h3 hne (fun q hm => ?_) hids hobj
    obtain ⟨hu, gf, h5, h6⟩ := hq q hm
    exact ⟨hu, gf, h4.get _ _ h5, h6⟩
  linkPlain n gi g gn nm gl o hg hn hgl hu hreq := by
    obtain ⟨g', h1, h2⟩ := he.graphs _ _ hg
    rcases hn with rfl | ⟨m, hm⟩
    · exact hc.linkPlain n gi g' _ nm gl o h1 (.inl rfl) (h2.root.get _ _ hgl) hu hreq
    · obtain ⟨t', h3, h4⟩ := h2.nodes _ _ hm
      exact hc.linkPlain n gi g' _ nm gl o h1 (.inr ⟨_, h3⟩) (h4.get _ _ hgl) hu hreq
  linkRoot n gi g nm gl o r v hg hgl hu hreq hv := by
    obtain ⟨g', h1, h2⟩ := he.graphs _ _ hg
    obtain ⟨it, hit⟩ := reqsKnown hgood hg _ (.inl rfl) nm gl r hgl hreq
    refine hc.linkRoot n gi g' nm gl o r v h1 (h2.root.get _ _ hgl) hu hreq ?_
    rw [hv]
    exact (semName_grow (semSub_grow hgood he gi g hg) (.inl rfl) h2.root hit _ _).symm
  linkNode n gi g nn gn nm gl o r ids vs hg hn hgl hu hreq hids hobj hv := by
    obtain ⟨g', h1, h2⟩ := he.graphs _ _ hg
    obtain ⟨t', h3, h4⟩ := h2.nodes _ _ hn
    obtain ⟨it, hit⟩ := reqsKnown hgood hg _ (.inr ⟨_, hn⟩) nm gl r hgl hreq
    refine hc.linkNode n gi g' nn t' nm gl o r ids vs h1 h3 (h4.get _ _ hgl) hu hreq hids hobj ?_
    rw [hv]
    refine List.map_congr_left fun i _ => ?_
    exact (semName_grow (semSub_grow hgood he gi g hg) (.inr ⟨_, hn⟩) h4 hit _ _).symm
  linkValue gi g gn nm gl o i v hg hn hgl hu hi hv := by
    obtain ⟨g', h1, h2⟩ := he.graphs _ _ hg
    have key : ∀ gn', IsNode g' gn' → NodeExtends gn gn' → ValueShape gl.typeEnum v ∧ (gl.typeEnum = .one → v ≠ .nothing) ∧
      ∀ t ∈ targets gl.typeEnum v, D.obj gi gl.node t := by
      intro gn' hn' hx
      refine hc.linkValue gi g' gn' nm gl o i v h1 hn' (hx.get _ _ hgl) hu ?_ ?_
      · unfold IdentOk at hi ⊢
        rw [hx.name]
        exact hi
      · rw [hv]
        exact (semLink_grow (semSub_grow hgood he gi g hg) (reqsKnown hgood hg) hn hx hgl _ _).symm
    rcases hn with rfl | ⟨m, hm⟩
    · exact key _ (.inl rfl) h2.root
    · obtain ⟨t', h3, h4⟩ := h2.nodes _ _ hm
      exact key _ (.inr ⟨_, h3⟩) h4
  noRefs := hc.noRefs
  noRefsProc := hc.noRefsProc
  subObj gi g nn gn n gf sg reqs p s i hg hn hgf hf hs hi := by
    obtain ⟨g', h1, h2⟩ := he.graphs _ _ hg
    obtain ⟨t', h3, h4⟩ := h2.nodes _ _ hn
    exact hc.subObj gi g' nn t' n gf sg reqs p s i h1 h3 (h4.get _ _ hgf) hf (he.subs _ _ hs) hi
  proc gi g nn gn n o gf sg reqs p s g0 t q i q1 r1 hg hn hgf hf hu ho hs hi hg0 ht hth hi1 hp1 hq1 hi2 hp2 hr1 := by
    obtain ⟨g', h1, h2⟩ := he.graphs _ _ hg
    obtain ⟨gn', h3, h4⟩ := h2.nodes _ _ hn
    obtain ⟨g0', h5, h6⟩ := he.graphs _ _ hg0
    obtain ⟨t', h7, h8⟩ := h6.nodes _ _ ht
    have hsa := semSub_grow (D := D) hgood he _ g0 hg0
    have hrk := reqsKnown hgood hg0
    obtain ⟨_, s', g0b, tb, e3, _, e5, e6, _, _, _, e7⟩ := hgood.subs gi g hg gn (.inr ⟨_, hn⟩) n gf hgf sg reqs p hf
    rw [hs] at e3; cases e3
    rw [hg0] at e5; cases e5
    rw [ht] at e6; cases e6
    have hq : NodeOk U g0 t q := by
      have hmem : QItem.link THIS q none none ∈ reqs.fields := by
        unfold QNode.fieldsMap at hth
        rw [dget_dmk] at hth
        have := dget_mem hth
        simp only [List.mem_reverse, List.mem_map] at this
        obtain ⟨y, hy1, hy2⟩ := this
        simp only [Prod.mk.injEq] at hy2
        rw [← hy2.2]
        exact hy1
      have := e7 _ hmem
      rw [if_pos (by rfl)] at this
      obtain ⟨q', h9, h10⟩ := this
      cases h9
      exact h10
    have hroot : NodeOk U g0 g0.root (.mk (reqs.fields.filter fun r => r.name ≠ THIS) false) := by
      rw [nodeOk_iff]
      refine ⟨fun r hr => ?_, by simp [QNode.ordered]⟩
      simp only [QNode.fields, List.mem_filter, decide_eq_true_eq] at hr
      have := e7 r hr.1
      rwa [if_neg hr.2] at this
    have := hc.proc gi g' nn gn' n o gf sg reqs p s g0' t' q i q1 r1 h1 h3 (h4.get _ _ hgf) hf hu ho (he.subs _ _ hs) hi
      h5 h7 hth hi1 hp1 (nodeOk_grow h6 h8 hq1) hi2 hp2 (nodeOk_grow h6 h6.root hr1)
    simp only [Env.grown] at this
    rw [semNode_grow h6 hsa hrk (.inr ⟨_, ht⟩) h8 i q1 hq1, semNode_grow h6 hsa hrk (.inr ⟨_, ht⟩) h8 i q hq,
      semNode_grow h6 hsa hrk (.inl rfl) h6.root _ r1 hr1, semNode_grow h6 hsa hrk (.inl rfl) h6.root _ _ hroot] at this
    exact this

mutual
theorem linksOnly_grow (he : GraphExtends g g') {gn gn' : GNode} (hx : NodeExtends gn gn') : (q : QNode) → LinksOnly g gn q → LinksOnly g' gn' q
  | .mk fs _, h => by
      rw [LinksOnly] at h ⊢
      exact linksOnlyItems_grow he hx fs h
theorem linksOnlyItems_grow (he : GraphExtends g g') {gn gn' : GNode} (hx : NodeExtends gn gn') : (fs : List QItem) →
    LinksOnlyItems g gn fs → LinksOnlyItems g' gn' fs
  | [], _ => trivial
  | .field n o a :: r, h => by
      rw [LinksOnlyItems] at h ⊢
      obtain ⟨it, h1⟩ := Option.isSome_iff_exists.1 h.1
      exact ⟨by rw [hx.get _ _ h1]; rfl, linksOnlyItems_grow he hx r h.2⟩
  | .link n q o a :: r, h => by
      rw [LinksOnlyItems] at h ⊢
      obtain ⟨⟨gl, t, h1, h2, h3⟩, h4⟩ := h
      obtain ⟨t', h5, h6⟩ := he.nodes _ _ h2
      exact ⟨⟨gl, t', hx.get _ _ h1, h5, linksOnly_grow he h6 q h3⟩, linksOnlyItems_grow he hx r h4⟩
end

section
variable (hgood : GoodSys U env.sys) (hgood' : GoodSys U sys') (hx : SysExtends env.sys sys')
  (hH : Faithful env.H D U) (hconf : Conforms (env.grown sys') D U)
  {choose choose' : Nat → List Nat → List Nat} (hch : ValidChoice choose) (hch' : ValidChoice choose')
  {gi : Nat} {q q' : QNode} (hg : env.sys.graphs[gi]? = some g)
  (hi : initOptions g q = .ok q') (hq : NodeOk U g g.root q') {fuel inner fuel' inner' : Nat}
  (hf : costQuery env.sys 1 0 gi q < fuel) (hin : 1 + costQuery env.sys 0 1 gi q < inner)
  (hf' : costQuery sys' 1 0 gi q < fuel') (hin' : 1 + costQuery sys' 0 1 gi q < inner')
include hgood hgood' hx hH hconf hch hch' hg hi hq hf hin hf' hin'

/-- C69: the result of a query which the graph can answer is the same in the larger system, whatever the orders
in which tasks finish here and there. -/
theorem c69_result : ∃ idx idx' v, execute env choose inner fuel gi q = .ok (idx, q') ∧
    execute (env.grown sys') choose' inner' fuel' gi q = .ok (idx', q') ∧
    readNode env.H idx rootName rootIdent q' = .ok v ∧ readNode env.H idx' rootName rootIdent q' = .ok v := by
  obtain ⟨g', h1, h2⟩ := hx.graphs _ _ hg
  obtain ⟨idx, e1, e2⟩ := c06_result hgood hH (conforms_shrink hgood hx hconf) hch hg hi hq hf hin
  obtain ⟨idx', e3, e4⟩ := c06_result (env := env.grown sys') hgood' hH hconf hch' h1 (c69_options h2 hi)
    (nodeOk_grow h2 h2.root hq) hf' hin'
  refine ⟨idx, idx', _, e1, e3, e2, ?_⟩
  exact e4.trans (congrArg _ (c69_value hgood hx hg hq))

/-- C69: and what clients get after `denormalize` is the same. -/
theorem c69_denormalize (hu : UniqueKeys q') (hl : LinksOnly g g.root q') :
    ∃ idx idx' v g', execute env choose inner fuel gi q = .ok (idx, q') ∧
    execute (env.grown sys') choose' inner' fuel' gi q = .ok (idx', q') ∧ sys'.graphs[gi]? = some g' ∧
    denormalize env.H idx g q' = .ok v ∧ denormalize env.H idx' g' q' = .ok v := by
  obtain ⟨g', h1, h2⟩ := hx.graphs _ _ hg
  obtain ⟨idx, idx', _, e1, e2, _, _⟩ := c69_result hgood hgood' hx hH hconf hch hch' hg hi hq hf hin hf' hin'
  refine ⟨idx, idx', _, g', e1, e2, h1, c20_value hgood hH (conforms_shrink hgood hx hconf) hch hg hi hq hu hl hf hin e1, ?_⟩
  exact (c20_value (env := env.grown sys') hgood' hH hconf hch' h1 (c69_options h2 hi) (nodeOk_grow h2 h2.root hq) hu
    (linksOnly_grow h2 h2.root q' hl) hf' hin' e2).trans (congrArg _ (c69_value hgood hx hg hq))

/-- C69: the calls of data functions are the same, up to the order. -/
theorem c69_calls : ∃ st st1 st' st1', startQuery env gi q = .ok st ∧ execLoop env choose inner fuel 0 st = .ok st1 ∧
    startQuery (env.grown sys') gi q = .ok st' ∧ execLoop (env.grown sys') choose' inner' fuel' 0 st' = .ok st1' ∧
    (callsOf st1.log).Perm (callsOf st1'.log) := by
  obtain ⟨g', h1, h2⟩ := hx.graphs _ _ hg
  obtain ⟨st, st1, e1, e2, e3⟩ := c59_calls hgood hH (conforms_shrink hgood hx hconf) hch hg hi hq hf hin
  obtain ⟨st', st1', f1, f2, f3⟩ := c59_calls (env := env.grown sys') hgood' hH hconf hch' h1 (c69_options h2 hi)
    (nodeOk_grow h2 h2.root hq) hf' hin'
  refine ⟨st, st1, st', st1', e1, e2, f1, f2, e3.trans ?_⟩
  rw [← c69_plan hgood hx env.H hg hq]
  exact f3.symm

end

/-! ### Example: `Track.album` was added to the low-level graph of the example, and its tracks were moved -/

def exLowBefore : Graph where
  items := [{ name := some "Track", fields := [.field exTitle] }]

def exBefore : Env := { exEnv with sys := { graphs := [exLowBefore, exHigh], subs := [{ graph := 0, node := "Track" }] } }

example : exBefore.grown exEnv.sys = exEnv := rfl

theorem exExtends : SysExtends exBefore.sys exEnv.sys where
  graphs gi g hg := by
    match gi, hg with
    | 0, hg =>
      simp [exBefore] at hg
      subst hg
      exact ⟨exLow, rfl, c69_extends ⟨rfl, .cons ⟨rfl, rfl⟩ .nil⟩ (fun _ _ h => by cases h)⟩
    | 1, hg =>
      simp [exBefore] at hg
      subst hg
      refine ⟨exHigh, rfl, c69_extends ⟨rfl, ?_⟩ (fun _ _ h => h)⟩
      exact .cons ⟨rfl, rfl⟩ (.cons ⟨rfl, rfl⟩ .nil)
    | n + 2, hg => simp [exBefore] at hg
  subs _ _ h := h

theorem exBefore_good : GoodSys exU exBefore.sys where
  this := rfl
  nodes := by
    intro gi g hg
    match gi, hg with
    | 0, hg => simp [exBefore] at hg; subst hg; rfl
    | 1, hg => simp [exBefore] at hg; subst hg; rfl
    | n + 2, hg => simp [exBefore] at hg
  links := by
    intro gi g hg gn hn n gl h
    match gi, hg with
    | 0, hg =>
      simp [exBefore] at hg; subst hg
      obtain ⟨t, h1, _, h2⟩ := Telemetry.isNode_mem hn h
      simp [exLowBefore] at h1
      subst h1
      simp at h2
    | 1, hg =>
      simp [exBefore] at hg; subst hg
      exact exGood.links 1 exHigh rfl gn hn n gl h
    | n + 2, hg => simp [exBefore] at hg
  subs := by
    intro gi g hg gn hn n gf h sg reqs p hf
    match gi, hg with
    | 0, hg =>
      simp [exBefore] at hg; subst hg
      obtain ⟨t, h1, _, h2⟩ := Telemetry.isNode_mem hn h
      simp [exLowBefore] at h1
      subst h1
      simp at h2
      subst h2
      simp [exTitle] at hf
    | 1, hg =>
      simp [exBefore] at hg; subst hg
      rcases exItems (gi := 1) rfl hn h with ⟨h, _⟩ | ⟨h, _⟩ | ⟨_, _, rfl, rfl, h⟩ |
        ⟨_, _, rfl, rfl, h⟩ | ⟨_, _, rfl, rfl, h⟩ | ⟨_, _, rfl, rfl, h⟩ | ⟨_, _, rfl, rfl, h⟩ <;>
        cases h <;> simp [exName, exLabel, exAlbumId] at hf
      obtain ⟨rfl, rfl, rfl⟩ := hf
      refine ⟨rfl, { graph := 0, node := "Track" }, exLowBefore, _, rfl, by simp, rfl, rfl, rfl, ?_, ?_, ?_⟩
      · simp [exReqs, QNode.Plain, PlainItems, QItem.Plain]
      · exact ⟨_, List.mem_singleton.2 rfl, rfl⟩
      · intro i hi
        simp only [exReqs, QNode.fields, List.mem_singleton] at hi
        subst hi
        rw [if_pos (show QItem.name _ = THIS from rfl)]
        refine ⟨_, rfl, ?_⟩
        simp only [NodeOk, ItemsOk, ItemOk, and_true]
        exact ⟨⟨rfl, exTitle, rfl, by simp [OptsGiven, exTitle]⟩, by simp⟩
    | n + 2, hg => simp [exBefore] at hg

example : ∃ idx idx' v, execute exBefore (fun _ l => l.take 1) 30 60 1 exQuery = .ok (idx, exQuery) ∧
    execute exEnv (fun _ l => l.take 1) 30 60 1 exQuery = .ok (idx', exQuery) ∧
    readNode exEnv.H idx rootName rootIdent exQuery = .ok v ∧ readNode exEnv.H idx' rootName rootIdent exQuery = .ok v :=
  c69_result (env := exBefore) (sys' := exEnv.sys) exBefore_good exGood exExtends exFaithful exConforms
    validChoice_first validChoice_first (g := exHigh) rfl rfl exQuery_ok (by decide +kernel) (by decide +kernel)
    (by decide +kernel) (by decide +kernel)

end Hiku.Grow
