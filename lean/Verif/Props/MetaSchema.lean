import Verif.Spec.MetaSchema
import Verif.Props.IntrospectResult
import Verif.Props.Accepted
import Verif.Props.EndpointData
import Verif.Props.Edn

/-! # C68: the introspection schema of the GraphQL specification is served -/

namespace Hiku.MetaSchema
open Hiku.Intro

variable {base gi : Nat} {g g' : Graph} {dumps : Val → Except Err String} {s : Schema} {D : Data}

def leaves : List MetaOut := [.string, .requiredString, .requiredBoolean, .kind, .locations]
def selectable (t : MetaType) : List MetaOut := [.object t, .requiredObject t, .list t, .requiredList t]

/-- the node which serves a type -/
def nodeOf (base : Nat) (g' : Graph) : MetaType → GNode
  | .query => g'.root
  | .schema => schemaNode base
  | .type => typeNode base
  | .field => fieldNode base
  | .inputValue => inputNode base
  | .enumValue => enumNode base
  | .directive => directiveNode base

def nodeName : MetaType → String
  | .query => ""
  | .schema => "__Schema"
  | .type => "__Type"
  | .field => "__Field"
  | .inputValue => "__InputValue"
  | .enumValue => "__EnumValue"
  | .directive => "__Directive"

theorem nodeOf_mem {t : MetaType} (h : t ≠ .query) : nodeOf base g' t ∈ introItems base := by
  cases t <;> simp [nodeOf, introItems] at h ⊢

theorem nodeOf_name {t : MetaType} (h : t ≠ .query) : (nodeOf base g' t).name = some (nodeName t) := by
  cases t <;> first | rfl | exact absurd rfl h

theorem nodeName_mem {t : MetaType} (h : t ≠ .query) : nodeName t ∈ introNames := by
  cases t <;> simp [nodeName, introNames] at h ⊢

/-- an argument as an option -/
def toOption : MetaArg → GOption
  | .requiredString n => { name := n, ty := some .string }
  | .boolean n => { name := n, ty := some .boolean, dflt := .bool false }

theorem ArgsOk.options {types : List (String × Ty)} {args : List MetaArg} {o : Opts} (h : ArgsOk args o) :
    OptionsOk types (args.map toOption) o := by
  obtain ⟨h1, h2⟩ := h
  refine ⟨?_, ?_, ?_⟩
  · intro op hop
    obtain ⟨a, ha, rfl⟩ := List.mem_map.1 hop
    have := h2 a ha
    cases a with
    | requiredString n =>
      obtain ⟨s, hs⟩ := this
      simp only [toOption, optionValue, hs, Option.getD_some]
      intro e; cases e
    | boolean n =>
      simp only [toOption, optionValue]
      cases hd : dget (o.getD []) n with
      | none => simp
      | some v =>
        obtain ⟨b, rfl⟩ := this v hd
        simp
  · intro op hop t ht
    obtain ⟨a, ha, rfl⟩ := List.mem_map.1 hop
    have := h2 a ha
    cases a with
    | requiredString n =>
      obtain ⟨s, hs⟩ := this
      cases ht
      simp only [toOption, optionValue, hs, Option.getD_some]
      exact .string s
    | boolean n =>
      cases ht
      simp only [toOption, optionValue]
      cases hd : dget (o.getD []) n with
      | none => exact .boolean false
      | some v =>
        obtain ⟨b, rfl⟩ := this v hd
        exact .boolean b
  · intro kv hkv
    rcases h1 kv hkv with h | h
    · exact ⟨_, List.mem_map_of_mem h, rfl⟩
    · exact ⟨_, List.mem_map_of_mem h, rfl⟩

set_option maxHeartbeats 1000000 in
theorem leaf_get {t : MetaType} {f : MetaField} (hf : f ∈ metaFields t) (hl : f.out ∈ leaves) :
    t ≠ .query ∧ f.args = [] ∧ ∃ gf, (nodeOf base g' t).get f.name = some (.field gf) ∧ gf.name = f.name ∧ gf.options = [] ∧
      ∃ k : IFun, gf.func = .plain (k.func base) := by
  cases t <;> simp only [metaFields, List.mem_cons, List.not_mem_nil, or_false] at hf <;>
    (rcases hf with rfl | rfl | rfl | rfl | rfl | rfl | rfl | rfl | rfl) <;>
    first
    | (exfalso; simp only [leaves, List.mem_cons, List.not_mem_nil, or_false, reduceCtorEq] at hl; done)
    | exact ⟨by simp, rfl, _, rfl, rfl, rfl, _, rfl⟩

/-- how many objects -/
def linkTypeOf : MetaOut → LinkType
  | .object _ => .maybe
  | .requiredObject _ => .one
  | _ => .many

set_option maxHeartbeats 1000000 in
theorem link_get (hi : Introspected base g g') {t t' : MetaType} {f : MetaField} (hf : f ∈ metaFields t)
    (hl : f.out ∈ selectable t') :
    t' ≠ .query ∧ ∃ gl, (nodeOf base g' t).get f.name = some (.link gl) ∧ gl.node = nodeName t' ∧
      g'.node gl.node = some (nodeOf base g' t') ∧ gl.options = f.args.map toOption ∧
      gl.typeEnum = linkTypeOf f.out := by
  have key : ∀ t' : MetaType, t' ≠ .query → g'.node (nodeName t') = some (nodeOf base g' t') :=
    fun t' h => hi.node_intro (nodeOf_mem h) (nodeOf_name h)
  have h1 : t' ≠ .query := by
    cases t <;> simp only [metaFields, List.mem_cons, List.not_mem_nil, or_false] at hf <;>
      (rcases hf with rfl | rfl | rfl | rfl | rfl | rfl | rfl | rfl | rfl) <;>
      simp only [selectable, List.mem_cons, List.not_mem_nil, or_false, reduceCtorEq, MetaOut.object.injEq,
        MetaOut.requiredObject.injEq, MetaOut.list.injEq, MetaOut.requiredList.injEq, false_or] at hl <;>
      subst hl <;> simp
  refine ⟨h1, ?_⟩
  rw [← key t' h1]
  cases t with
  | query =>
    simp only [metaFields, List.mem_cons, List.not_mem_nil, or_false] at hf
    rcases hf with rfl | rfl <;>
      simp only [selectable, List.mem_cons, List.not_mem_nil, or_false, reduceCtorEq, MetaOut.object.injEq,
        MetaOut.requiredObject.injEq, false_or] at hl <;> subst hl
    · exact ⟨_, hi.get_root.2 (.inr (.inr ⟨List.mem_cons_self, rfl⟩)), rfl, rfl, rfl, rfl⟩
    · exact ⟨_, hi.get_root.2 (.inr (.inr ⟨List.mem_cons_of_mem _ List.mem_cons_self, rfl⟩)), rfl, rfl, rfl, rfl⟩
  | _ =>
    simp only [metaFields, List.mem_cons, List.not_mem_nil, or_false] at hf
    (rcases hf with rfl | rfl | rfl | rfl | rfl | rfl | rfl | rfl | rfl) <;>
      simp only [selectable, List.mem_cons, List.not_mem_nil, or_false, reduceCtorEq, MetaOut.object.injEq,
        MetaOut.requiredObject.injEq, MetaOut.list.injEq, MetaOut.requiredList.injEq, false_or] at hl <;>
      subst hl <;> exact ⟨_, rfl, rfl, rfl, rfl, rfl⟩

theorem selectsAll_iff {t : MetaType} {fs : List QItem} : SelectsAll t fs ↔ ∀ i ∈ fs, SelectsItem t i := by
  induction fs with
  | nil => simp [SelectsAll]
  | cons i r ih => rw [SelectsAll, ih]; simp

/-! ### Queries are valid -/

/-- a valid item, below the root or anywhere -/
theorem item_valid (hi : Introspected base g g') {t : MetaType} {i : QItem} (h : SelectsItem t i)
    (ih : ∀ n q o a, i = .link n q o a → ∀ t', Selects t' q → QueryValid g' (nodeOf base g' t') q) :
    QueryValidItems g' (nodeOf base g' t) [i] := by
  cases i with
  | field n o a =>
    rw [SelectsItem] at h
    obtain ⟨f, hf, rfl, ho, hl⟩ := h
    obtain ⟨_, ha, gf, hget, _, hopt, _⟩ := leaf_get (base := base) (g' := g') hf hl
    rw [QueryValidItems]
    refine ⟨⟨gf, hget, ?_⟩, trivial⟩
    rw [ha] at ho
    rw [hopt]
    exact ho.options
  | link n q o a =>
    rw [SelectsItem] at h
    obtain ⟨f, hf, rfl, ho, t', hl, hs⟩ := h
    obtain ⟨_, gl, hget, _, hnode, hopt, _⟩ := link_get hi hf hl
    rw [QueryValidItems]
    refine ⟨.inl ⟨gl, _, hget, ?_, hnode, ih _ _ _ _ rfl t' hs⟩, trivial⟩
    rw [hopt]
    exact ho.options

theorem valid_of_items {gn : GNode} {fs : List QItem} (h : ∀ i ∈ fs, QueryValidItems g gn [i]) : QueryValidItems g gn fs := by
  induction fs with
  | nil => trivial
  | cons i r ih =>
    have h1 := h i List.mem_cons_self
    have h2 := ih fun j hj => h j (List.mem_cons_of_mem _ hj)
    cases i with
    | field => simp only [QueryValidItems] at h1 ⊢; exact ⟨h1.1, h2⟩
    | link => simp only [QueryValidItems] at h1 ⊢; exact ⟨h1.1, h2⟩

theorem selects_valid (hi : Introspected base g g') (q : QNode) : ∀ t, Selects t q → QueryValid g' (nodeOf base g' t) q := by
  induction q using QNode.ind with
  | h fs ord ih =>
    intro t h
    rw [Selects, selectsAll_iff] at h
    rw [QueryValid]
    refine ⟨valid_of_items fun i hm => item_valid hi (h.1 i hm) ?_, h.2⟩
    rintro n q o a rfl t' hs
    exact ih n q o a hm t' hs

/-- C68: every selection of the introspection schema of the specification, at any depth, is valid in the graph
with introspection. -/
theorem c68_valid (hi : introspect base g = .ok g') {q : QNode} (h : Selects .query q) : QueryValid g' g'.root q :=
  selects_valid (introspected hi) q .query h

/-! ### The queries of the original graph stay valid -/

mutual
theorem itemsValid_mono {g0 g1 : Graph} (hty : g1.dataTypes = g0.dataTypes)
    (hnodes : ∀ m t, g0.node m = some t → ∃ t', g1.node m = some t' ∧ ∀ y i, t.get y = some i → t'.get y = some i)
    {n0 n1 : GNode} (hget : ∀ y i, n0.get y = some i → n1.get y = some i) :
    (fs : List QItem) → QueryValidItems g0 n0 fs → QueryValidItems g1 n1 fs
  | [], _ => trivial
  | .field n o a :: r, h => by
      rw [QueryValidItems] at h ⊢
      obtain ⟨⟨gf, h1, h2⟩, h3⟩ := h
      exact ⟨⟨gf, hget _ _ h1, hty ▸ h2⟩, itemsValid_mono hty hnodes hget r h3⟩
  | .link n q o a :: r, h => by
      rw [QueryValidItems] at h ⊢
      obtain ⟨h, h3⟩ := h
      refine ⟨?_, itemsValid_mono hty hnodes hget r h3⟩
      rcases h with ⟨gl, t, h1, h2, h4, h5⟩ | ⟨gf, ts, h1, h2, h4, h5⟩
      · obtain ⟨t', h6, h7⟩ := hnodes _ _ h4
        exact .inl ⟨gl, t', hget _ _ h1, hty ▸ h2, h6, valid_mono hty hnodes h7 q h5⟩
      · exact .inr ⟨gf, ts, hget _ _ h1, hty ▸ h2, hty ▸ h4, hty ▸ h5⟩
theorem valid_mono {g0 g1 : Graph} (hty : g1.dataTypes = g0.dataTypes)
    (hnodes : ∀ m t, g0.node m = some t → ∃ t', g1.node m = some t' ∧ ∀ y i, t.get y = some i → t'.get y = some i)
    {n0 n1 : GNode} (hget : ∀ y i, n0.get y = some i → n1.get y = some i) :
    (q : QNode) → QueryValid g0 n0 q → QueryValid g1 n1 q
  | .mk fs ord, h => by
      rw [QueryValid] at h ⊢
      exact ⟨itemsValid_mono hty hnodes hget fs h.1, h.2⟩
end

/-- C68: and whatever is valid in the graph stays valid: selections of both kinds can be mixed in one query. -/
theorem c68_mixed (hi : introspect base g = .ok g') {fs : List QItem} {ord : Bool}
    (h : ∀ i ∈ fs, SelectsItem .query i ∨ QueryValidItems g g.root [i])
    (hd : ∀ i j, [i, j].Sublist fs → i.resultKey = j.resultKey → SameItem i j) :
    QueryValid g' g'.root (.mk fs ord) := by
  have hi := introspected hi
  rw [QueryValid]
  refine ⟨valid_of_items fun i hm => ?_, hd⟩
  rcases h i hm with h | h
  · exact item_valid (t := .query) hi h fun n q o a _ t' hs => selects_valid hi q t' hs
  · refine itemsValid_mono (by rw [hi.eq]) ?_ ?_ _ h
    · intro m t ht
      exact ⟨_, hi.node_old ht, fun y i hy => (hi.get_old ht).2 (.inl hy)⟩
    · intro y i hy
      exact hi.get_root.2 (.inl hy)

/-! ### Answers -/

theorem answersAll_iff {t : MetaType} {kvs : List (Val × Val)} {fs : List QItem} : AnswersAll t kvs fs ↔
    ∀ i ∈ fs, ∃ v, dget kvs (.str i.resultKey) = some v ∧ AnswersItem t i v := by
  induction fs with
  | nil => simp [AnswersAll]
  | cons i r ih => rw [AnswersAll, ih]; simp

theorem optStr_answer (o : Option String) : LeafAnswer .string (optStr o) := by
  cases o with
  | none => exact .inl rfl
  | some s => exact .inr ⟨s, rfl⟩

/-- the values of fields of existing objects -/
theorem leaf_answer {t : MetaType} {v : Val} (h : IntroObj s (nodeName t) v) {f : MetaField} (hf : f ∈ metaFields t)
    (hl : f.out ∈ leaves) : LeafAnswer f.out (introField dumps s (identOf v) f.name) := by
  have hne := (leaf_get (base := 0) (g' := ({ items := [] } : Graph)) hf hl).1
  generalize hn : nodeName t = nm at h
  cases h with
  | @type ty _ =>
    have : t = .type := by cases t <;> simp [nodeName] at hn ⊢
    subst this
    rw [identOf_type]
    simp only [metaFields, List.mem_cons, List.not_mem_nil, or_false] at hf
    rcases hf with rfl | rfl | rfl | rfl | rfl | rfl | rfl | rfl | rfl
    · exact ⟨kindOf ty, by cases ty <;> simp [kindOf, kinds], rfl⟩
    · show LeafAnswer .string (nameOf ty)
      cases ty <;> first | exact .inl rfl | exact .inr ⟨_, rfl⟩
    · show LeafAnswer .string (descriptionOf s ty)
      cases ty <;> first | exact .inl rfl | exact optStr_answer _
    all_goals simp [leaves] at hl
  | @field n f' w _ =>
    have : t = .field := by cases t <;> simp [nodeName] at hn ⊢
    subst this
    rw [identOf_val]
    simp only [metaFields, List.mem_cons, List.not_mem_nil, or_false] at hf
    rcases hf with rfl | rfl | rfl | rfl | rfl | rfl
    · exact ⟨_, rfl⟩
    · exact optStr_answer _
    · simp [leaves] at hl
    · simp [leaves] at hl
    · exact ⟨false, rfl⟩
    · exact .inl rfl
  | @arg n f' a o _ =>
    have : t = .inputValue := by cases t <;> simp [nodeName] at hn ⊢
    subst this
    rw [identOf_val]
    simp only [metaFields, List.mem_cons, List.not_mem_nil, or_false] at hf
    rcases hf with rfl | rfl | rfl | rfl
    · exact ⟨_, rfl⟩
    · exact optStr_answer _
    · simp [leaves] at hl
    · show LeafAnswer .string (((argOf s n f' a).map (defaultOf dumps)).getD .none)
      cases argOf s n f' a with
      | none => exact .inl rfl
      | some o =>
        simp only [Option.map_some, Option.getD_some, defaultOf]
        split
        · exact .inl rfl
        · split
          · exact .inr ⟨_, rfl⟩
          · exact .inl rfl
  | inputField _ _ =>
    have : t = .inputValue := by cases t <;> simp [nodeName] at hn ⊢
    subst this
    rw [identOf_val]
    simp only [metaFields, List.mem_cons, List.not_mem_nil, or_false] at hf
    rcases hf with rfl | rfl | rfl | rfl
    · exact ⟨_, rfl⟩
    · exact .inl rfl
    · simp [leaves] at hl
    · exact .inl rfl
  | directiveArg _ =>
    have : t = .inputValue := by cases t <;> simp [nodeName] at hn ⊢
    subst this
    rw [identOf_val]
    simp only [metaFields, List.mem_cons, List.not_mem_nil, or_false] at hf
    rcases hf with rfl | rfl | rfl | rfl
    · exact ⟨_, rfl⟩
    · exact .inr ⟨_, rfl⟩
    · simp [leaves] at hl
    · exact .inl rfl
  | directive _ =>
    have : t = .directive := by cases t <;> simp [nodeName] at hn ⊢
    subst this
    rw [identOf_val]
    simp only [metaFields, List.mem_cons, List.not_mem_nil, or_false] at hf
    rcases hf with rfl | rfl | rfl | rfl
    · exact ⟨_, rfl⟩
    · exact .inr ⟨_, rfl⟩
    · refine ⟨_, rfl, ?_⟩
      simp [directiveLocations]
    · simp [leaves] at hl
  | schema =>
    have : t = .schema := by cases t <;> simp [nodeName] at hn ⊢
    subst this
    simp only [metaFields, List.mem_cons, List.not_mem_nil, or_false] at hf
    rcases hf with rfl | rfl | rfl | rfl | rfl <;> simp [leaves] at hl

/-- the value of a leaf -/
theorem semItem_leaf {sub : SubSem} {t : MetaType} {f : MetaField} (hf : f ∈ metaFields t) (hl : f.out ∈ leaves)
    {v : Val} (h : t ≠ .schema → IntroObj s (nodeName t) v) {o : Opts} {a : Option String} :
    semItem (introData dumps s base gi D) sub g' (nodeOf base g' t) v (.field f.name o a) =
      introField dumps s (identOf v) f.name := by
  obtain ⟨hq, _, gf, hget, hname, _, k, hk⟩ := leaf_get (base := base) (g' := g') hf hl
  have hs : t ≠ .schema := by
    rintro rfl
    simp only [metaFields, List.mem_cons, List.not_mem_nil, or_false] at hf
    rcases hf with rfl | rfl | rfl | rfl | rfl <;> simp [leaves] at hl
  simp only [semItem, semName, hget, semField, hk, hname, nodeOf_name hq, Option.map_some]
  exact field_intro k (h hs) (by cases t <;> simp [nodeName] at hs hq ⊢)

theorem semNode_dict {D' : Data} {sub : SubSem} {gn : GNode} {v : Val} {q : QNode} :
    ∃ kvs, semNode D' sub g' gn v q = .dict kvs := by
  obtain ⟨fs, ord⟩ := q
  exact ⟨_, rfl⟩

theorem semNode_ne_none {D' : Data} {sub : SubSem} {gn : GNode} {v : Val} {q : QNode} :
    semNode D' sub g' gn v q ≠ .none := by
  obtain ⟨kvs, h⟩ := semNode_dict (D' := D') (sub := sub) (g' := g') (gn := gn) (v := v) (q := q)
  rw [h]; intro e; cases e

section
variable (hi : introspect base g = .ok g')
include hi

/-- `ofType` of all other types is null -/
theorem ofType_none {sub : SubSem} {t : TId} {q : QNode} {o : Opts} {a : Option String} :
    semItem (introData dumps s base gi D) sub g' (typeNode base) t.val (.link "ofType" q o a) = .none ↔
      kindOf t ≠ "LIST" ∧ kindOf t ≠ "NON_NULL" := by
  have hL := fun t => c44_ofType (dumps := dumps) (s := s) (gi := gi) (D := D) hi (sub := sub) (t := t) (q := q) (o := o) (a := a)
  have key : ∀ t : TId, (∀ t', t ≠ .list t') → (∀ t', t ≠ .nonNull t') →
      semItem (introData dumps s base gi D) sub g' (typeNode base) t.val (.link "ofType" q o a) = .none := by
    intro t h1 h2
    have hi := introspected hi
    have h1' : (typeNode base).get "ofType" = some (iLink base "ofType" .maybe "__Type" .ofType (some "id")) := rfl
    have h2' : g'.node "__Type" = some (typeNode base) := hi.node_intro (by simp [introItems]) rfl
    simp only [semItem, h1', iLink, h2', semLink, Option.map_some, typeNode_id, link_intro]
    simp only [requiredIdent, Option.bind_some, Ident.ofVal_type]
    cases t with
    | list t' => exact absurd rfl (h1 t')
    | nonNull t' => exact absurd rfl (h2 t')
    | _ => simp only [introLink, if_true]
  cases t with
  | list t' => rw [(hL t').1]; simp [semNode_ne_none, kindOf]
  | nonNull t' => rw [(hL t').2]; simp [semNode_ne_none, kindOf]
  | _ =>
    rw [key _ (fun _ h => by cases h) (fun _ h => by cases h)]
    simp [kindOf]

theorem fields_empty (hs : GoodSchema dumps s) {sub : SubSem} {t : TId} (ht : TypeOk s t) {q : QNode} {o : Opts} {a : Option String} :
    semItem (introData dumps s base gi D) sub g' (typeNode base) t.val (.link "fields" q o a) = .list [] ↔
      kindOf t ≠ "OBJECT" := by
  have key : ∀ t : TId, (∀ n, t ≠ .object n) →
      semItem (introData dumps s base gi D) sub g' (typeNode base) t.val (.link "fields" q o a) = .list [] := by
    intro t h
    have hi := introspected hi
    have h1 : (typeNode base).get "fields" = some (iLink base "fields" .many "__Field" .fields (some "id") [includeDeprecated]) := rfl
    have h2 : g'.node "__Field" = some (fieldNode base) := hi.node_intro (by simp [introItems]) rfl
    simp only [semItem, h1, iLink, h2, semLink, Option.map_some, typeNode_id, link_intro]
    rw [introLink_opts (by decide)]
    simp only [requiredIdent, Option.bind_some, Ident.ofVal_type]
    cases t with
    | object n => exact absurd rfl (h n)
    | _ => rfl
  cases t with
  | object n =>
    rw [c44_fields hi]
    have hne : fieldsOf s n ≠ [] := hs.nonempty n (by cases ht; assumption)
    cases hf : fieldsOf s n with
    | nil => exact absurd hf hne
    | cons => simp [kindOf, Val.list]
  | _ =>
    rw [key _ (fun _ h => by cases h)]
    simp [kindOf]

theorem inputFields_empty {sub : SubSem} {t : TId} (ht : kindOf t ≠ "INPUT_OBJECT") {q : QNode} {o : Opts} {a : Option String} :
    semItem (introData dumps s base gi D) sub g' (typeNode base) t.val (.link "inputFields" q o a) = .list [] := by
  have hi := introspected hi
  have h1 : (typeNode base).get "inputFields" = some (iLink base "inputFields" .many "__InputValue" .inputFields (some "id")) := rfl
  have h2 : g'.node "__InputValue" = some (inputNode base) := hi.node_intro (by simp [introItems]) rfl
  simp only [semItem, h1, iLink, h2, semLink, Option.map_some, typeNode_id, link_intro]
  simp only [requiredIdent, Option.bind_some, Ident.ofVal_type]
  cases t with
  | inputObject n => simp [kindOf] at ht
  | _ => rfl

end

theorem init_keys {gn : GNode} {fs fs' : List QItem} (h : List.Forall₂ (fun i i' => initItem g gn i = .ok i') fs fs') :
    fs'.map QItem.resultKey = fs.map QItem.resultKey := by
  induction h with
  | nil => rfl
  | cons h _ ih => rw [List.map_cons, List.map_cons, ih, (Endpoint.init_item_link h).2.1]

theorem typeObj {v : Val} (h : IntroObj s "__Type" v) : ∃ ty, TypeOk s ty ∧ v = ty.val := by
  generalize hn : "__Type" = nm at h
  cases h with
  | type h => exact ⟨_, h, rfl⟩
  | _ => simp at hn

/-- a selection of an existing object (or of the root) is answered -/
theorem answers_aux {env' : Env} {U : String → Opts → Prop} (hi : introspect base g = .ok g') (hs : GoodSchema dumps s)
    (hconf : Conforms env' (introData dumps s base gi D) U) (hg' : env'.sys.graphs[gi]? = some g') (q : QNode) :
    ∀ t v q', Selects t q → UniqueKeys q → initNode g' (nodeOf base g' t) q = .ok q' →
      NodeOk U g' (nodeOf base g' t) q' → IsNode g' (nodeOf base g' t) →
      IdentOk (introData dumps s base gi D) gi (nodeOf base g' t) v →
      Answers t q (semNode (introData dumps s base gi D) (semSub env'.sys (introData dumps s base gi D) gi) g'
        (nodeOf base g' t) v q') := by
  have hI := introspected hi
  induction q using QNode.ind with
  | h fs ord ih =>
    intro t v q' hsel huniq hinit hok hnode hid
    generalize hsub : semSub env'.sys (introData dumps s base gi D) gi = sub
    obtain ⟨fs', ord'⟩ := q'
    rw [Selects, selectsAll_iff] at hsel
    rw [UniqueKeys, Endpoint.uniqueKeysItems_iff] at huniq
    rw [initNode_ok] at hinit
    rw [nodeOk_iff] at hok
    obtain ⟨hinit, _⟩ := hinit
    obtain ⟨hok, _⟩ := hok
    simp only [QNode.fields] at hinit hok
    have hobj : t ≠ .query → IntroObj s (nodeName t) v := by
      intro ht
      simp only [IdentOk, nodeOf_name ht] at hid
      rwa [introData_obj_new (nodeName_mem ht)] at hid
    have hkeys : fs'.map QItem.resultKey = fs.map QItem.resultKey := by
      exact init_keys hinit
    have hnd : ((fs'.map fun it => (Val.str it.resultKey, semItem (introData dumps s base gi D) sub g' (nodeOf base g' t) v it)).map (·.1)).Nodup := by
      rw [List.map_map]
      have : (fs'.map QItem.resultKey).Nodup := by rw [hkeys]; exact huniq.1
      have h2 := this.map (f := Val.str) (by intro a b h; cases h; rfl)
      rw [List.map_map] at h2
      exact h2
    have hval : ∀ i ∈ fs, ∃ i' ∈ fs', initItem g' (nodeOf base g' t) i = .ok i' ∧ ItemOk U g' (nodeOf base g' t) i' ∧
        dget (fs'.map fun it => (Val.str it.resultKey, semItem (introData dumps s base gi D) sub g' (nodeOf base g' t) v it))
          (.str i.resultKey) = some (semItem (introData dumps s base gi D) sub g' (nodeOf base g' t) v i') := by
      intro i hi'
      obtain ⟨i', hm, h⟩ := Endpoint.forall2_mem_left hinit hi'
      refine ⟨i', hm, h, hok i' hm, ?_⟩
      rw [← (Endpoint.init_item_link h).2.1]
      exact dget_of_mem_nodup hnd (List.mem_map.2 ⟨i', hm, rfl⟩)
    rw [Answers]
    refine ⟨fs'.map fun it => (Val.str it.resultKey, semItem (introData dumps s base gi D) sub g' (nodeOf base g' t) v it), ?_, ?_, ?_, ?_⟩
    · rw [semNode, semItems_map, dmk_nodup hnd]
    · rw [List.map_map]
      have := congrArg (List.map Val.str) hkeys
      rw [List.map_map, List.map_map] at this
      exact this
    · rw [answersAll_iff]
      intro i him
      obtain ⟨i', hm, hii, hiok, hv⟩ := hval i him
      refine ⟨_, hv, ?_⟩
      obtain ⟨hn, hk, hl, hlink⟩ := Endpoint.init_item_link hii
      have hsi := hsel.1 i him
      cases i with
      | field n o a =>
        rw [SelectsItem] at hsi
        obtain ⟨f, hf, rfl, _, hleaf⟩ := hsi
        cases i' with
        | link => simp [QItem.isLink] at hl
        | field n' o' a' =>
          simp only [QItem.name] at hn
          subst hn
          rw [AnswersItem]
          have hq := (leaf_get (base := base) (g' := g') hf hleaf).1
          refine ⟨f, hf, rfl, ?_⟩
          rw [semItem_leaf hf hleaf (fun _ => hobj hq)]
          exact leaf_answer (hobj hq) hf hleaf
      | link n q o a =>
        rw [SelectsItem] at hsi
        obtain ⟨f, hf, rfl, _, t', hout, hs'⟩ := hsi
        obtain ⟨hne', gl, hget, hgn, hnode', _, hte⟩ := link_get hI hf hout
        obtain ⟨q'', o', rfl, hq''⟩ := hlink _ _ _ _ rfl gl _ hget hnode'
        rw [ItemOk] at hiok
        obtain ⟨hU, hiok⟩ := hiok
        have hqok : NodeOk U g' (nodeOf base g' t') q'' := by
          rcases hiok with ⟨gl2, t2, h1, h2, h3⟩ | ⟨gf, h1, _⟩
          · rw [hget] at h1; cases h1
            rw [hnode'] at h2; cases h2
            exact h3
          · rw [hget] at h1; cases h1
        obtain ⟨hshape, hone, htar⟩ := hconf.linkValue gi g' _ f.name gl o' v _ hg' hnode hget hU hid rfl
        rw [hsub] at hshape hone htar
        have hin : ∀ x ∈ targets gl.typeEnum (semLink (introData dumps s base gi D) sub (nodeOf base g' t) v gl o'),
            Answers t' q (semNode (introData dumps s base gi D) sub g' (nodeOf base g' t') x q'') := by
          intro x hx
          have := htar x hx
          rw [← hsub]
          refine ih _ _ _ _ him t' x q'' hs' (huniq.2 _ _ _ _ him) hq'' hqok (.inr ⟨_, hnode'⟩) ?_
          simp only [IdentOk, nodeOf_name hne']
          rw [hgn] at this
          exact this
        rw [AnswersItem]
        refine ⟨f, hf, rfl, t', ?_⟩
        simp only [semItem, hget, hnode']
        simp only [List.mem_cons, List.not_mem_nil, or_false] at hout
        rcases hout with e | e | e | e <;> rw [e] at hte <;> simp only [linkTypeOf] at hte <;> rw [hte] at hin hshape ⊢
        · refine .inl ⟨e, ?_⟩
          simp only
          split
          · exact .inl rfl
          · rename_i hn
            exact .inr (hin _ (by simp [targets, hn]))
        · exact .inr (.inl ⟨e, hin _ (by simp [targets])⟩)
        · refine .inr (.inr (.inl ⟨e, .inr ⟨_, rfl, ?_⟩⟩))
          intro x hx
          obtain ⟨y, hy, rfl⟩ := List.mem_map.1 hx
          exact hin y hy
        · refine .inr (.inr (.inr ⟨e, _, rfl, ?_⟩))
          intro x hx
          obtain ⟨y, hy, rfl⟩ := List.mem_map.1 hx
          exact hin y hy
    · rintro rfl
      obtain ⟨ty, hty, rfl⟩ := typeObj (hobj (by simp))
      -- the value of a leaf
      have hleaf : ∀ i ∈ fs, i.name ∈ ["kind", "name"] → ∀ w,
          dget (fs'.map fun it => (Val.str it.resultKey, semItem (introData dumps s base gi D) sub g' (nodeOf base g' .type) ty.val it))
            (.str i.resultKey) = some w → w = introField dumps s (.type ty) i.name := by
        intro i him hnm w hw
        obtain ⟨i', hm, hii, _, hv⟩ := hval i him
        rw [hv] at hw
        cases hw
        obtain ⟨hn, _, hl, _⟩ := Endpoint.init_item_link hii
        have hsi := hsel.1 i him
        cases i with
        | link n q o a =>
          rw [SelectsItem] at hsi
          obtain ⟨f, hf, rfl, _, t', hout, _⟩ := hsi
          simp only [QItem.name] at hnm
          simp only [metaFields, List.mem_cons, List.not_mem_nil, or_false] at hf
          exfalso
          rcases hf with rfl | rfl | rfl | rfl | rfl | rfl | rfl | rfl | rfl <;> simp at hnm hout
        | field n o a =>
          rw [SelectsItem] at hsi
          obtain ⟨f, hf, rfl, _, hlf⟩ := hsi
          cases i' with
          | link => simp [QItem.isLink] at hl
          | field n' o' a' =>
            simp only [QItem.name] at hn ⊢
            subst hn
            rw [semItem_leaf hf hlf (fun _ => .type hty), identOf_type]
      -- the value of a link
      have hlinks : ∀ i ∈ fs, i.name ∈ ["ofType", "fields", "inputFields"] → ∀ w,
          dget (fs'.map fun it => (Val.str it.resultKey, semItem (introData dumps s base gi D) sub g' (nodeOf base g' .type) ty.val it))
            (.str i.resultKey) = some w → ∃ q o a, w = semItem (introData dumps s base gi D) sub g' (typeNode base) ty.val (.link i.name q o a) := by
        intro i him hnm w hw
        obtain ⟨i', hm, hii, _, hv⟩ := hval i him
        rw [hv] at hw
        cases hw
        obtain ⟨hn, _, hl, _⟩ := Endpoint.init_item_link hii
        have hsi := hsel.1 i him
        cases i with
        | field n o a =>
          rw [SelectsItem] at hsi
          obtain ⟨f, hf, rfl, _, hlf⟩ := hsi
          simp only [QItem.name] at hnm
          simp only [metaFields, List.mem_cons, List.not_mem_nil, or_false] at hf
          exfalso
          rcases hf with rfl | rfl | rfl | rfl | rfl | rfl | rfl | rfl | rfl <;> simp at hnm hlf
        | link n q o a =>
          cases i' with
          | field => simp [QItem.isLink] at hl
          | link n' q' o' a' =>
            simp only [QItem.name] at hn ⊢
            subst hn
            exact ⟨q', o', a', rfl⟩
      intro i him hi1 k hk j hjm w hw
      have hkk := hleaf i him (by simp [hi1]) _ hk
      rw [hi1] at hkk
      have hkk : k = kindOf ty := by cases hkk; rfl
      subst hkk
      refine ⟨fun hj => ?_, fun hj => ?_, fun hj => ?_, fun hj hne => ?_⟩
      · obtain ⟨q, o, a, rfl⟩ := hlinks j hjm (by simp [hj]) w hw
        rw [hj]
        exact ofType_none hi
      · have := hleaf j hjm (by simp [hj]) w hw
        rw [this, hj]
        show nameOf ty = .none ↔ _
        cases ty <;> simp [nameOf, kindOf]
      · obtain ⟨q, o, a, rfl⟩ := hlinks j hjm (by simp [hj]) w hw
        rw [hj]
        exact fields_empty hi hs hty
      · obtain ⟨q, o, a, rfl⟩ := hlinks j hjm (by simp [hj]) w hw
        rw [hj]
        exact inputFields_empty hi hne

theorem selects_ordered (hi : Introspected base g g') (q : QNode) : ∀ t, Selects t q → OrderedLinksOnly g' (nodeOf base g' t) q := by
  induction q using QNode.ind with
  | h fs ord ih =>
    intro t h
    rw [Selects, selectsAll_iff] at h
    rw [OrderedLinksOnly, orderedLinksOnlyItems_iff]
    have hlink : ∀ n q o a, .link n q o a ∈ fs → ∃ t' gl, (nodeOf base g' t).get n = some (.link gl) ∧
        g'.node gl.node = some (nodeOf base g' t') ∧ Selects t' q := by
      intro n q o a hm
      have hs := h.1 _ hm
      rw [SelectsItem] at hs
      obtain ⟨f, hf, rfl, _, t', hout, hs'⟩ := hs
      obtain ⟨_, gl, h1, _, h2, _⟩ := link_get hi hf hout
      exact ⟨t', gl, h1, h2, hs'⟩
    refine ⟨fun _ i hm hl => ?_, fun n q o a hm gl tn hg ht => ?_⟩
    · cases i with
      | field => simp [QItem.isLink] at hl
      | link n q o a =>
        obtain ⟨_, gl, h1, _⟩ := hlink n q o a hm
        exact ⟨gl, h1⟩
    · obtain ⟨t', gl', h1, h2, h3⟩ := hlink n q o a hm
      rw [hg] at h1; cases h1
      rw [ht] at h2; cases h2
      exact ih n q o a hm t' h3

section
variable {env : Env} {U : String → Opts → Prop}
  (hgood : GoodSys U env.sys) (hH : Faithful env.H D U) (hconf : Conforms env D U)
  (hb : Telemetry.Below env.sys base) (hsub : ∀ x ∈ env.sys.subs, x.graph ≠ gi) (hU : IntroNames U)
  (hs : GoodSchema dumps s) (hd : TypesDict s) (hg : env.sys.graphs[gi]? = some g) (hi : introspect base g = .ok g')
  {choose : Nat → List Nat → List Nat} (hch : ValidChoice choose)
include hgood hH hconf hb hsub hU hs hd hg hi hch

/-- C68: the execution of every such selection finishes for every schedule, and its result is an answer in the
sense of the specification.  (`U` are the names and options in use.) -/
theorem c68_served {q : QNode} (hq : Selects .query q) (hu : UniqueKeys q) :
    ∃ q', initOptions g' q = .ok q' ∧
      ((∀ p node i, ItemAt g' g'.root q' p node i → U i.name i.options) →
        ∃ st n st' wf v, startQuery (introEnv base dumps s env gi g g') gi q = .ok st ∧
          Loops (introEnv base dumps s env gi g g') choose 0 st n (.ok st') ∧ st'.wfs[0]? = some wf ∧ wf.query = q' ∧
          readNode env.H wf.index rootName rootIdent q' = .ok v ∧ Answers .query q v) := by
  obtain ⟨q', h1, h2⟩ := init_valid q g'.root (c68_valid hi hq)
  refine ⟨q', h1, fun hall => ?_⟩
  have hok := h2 U (selects_ordered (introspected hi) q .query hq) hall
  obtain ⟨st, n, st', wf, h3, h4, h5, h6, h7⟩ := c44_loop_partial hgood hH hconf hb hsub hU hs hd hg hi hch h1 hok
  refine ⟨st, n, st', wf, _, h3, h4, h5, h6, h7, ?_⟩
  have hg' := introEnv_graph (base := base) (dumps := dumps) (s := s) (g' := g') hg
  simp only [semQuery, hg']
  exact answers_aux hi hs (intro_conforms hgood hU hconf hb hsub hs hd hg (introspected hi)) hg' q .query _ q' hq hu h1 hok
    (.inl rfl) rfl

end

/-- `null` for an optional argument, which the specification allows, is refused. -/
theorem c68_null_argument (hi : introspect base g = .ok g') (q : QNode) (a : Option String) (r : List QItem) :
    ¬ QueryValid g' (typeNode base) (.mk (.link "fields" q (some [("includeDeprecated", .none)]) a :: r) false) := by
  intro h
  rw [QueryValid, QueryValidItems] at h
  have hget : (typeNode base).get "fields" = some (iLink base "fields" .many "__Field" .fields (some "id") [includeDeprecated]) := rfl
  rcases h.1.1 with ⟨gl, t, h1, h2, _⟩ | ⟨gf, ts, h1, _⟩
  · rw [hget] at h1
    cases h1
    have := h2.typed includeDeprecated List.mem_cons_self _ rfl
    cases this
  · rw [hget] at h1
    cases h1

end Hiku.MetaSchema
