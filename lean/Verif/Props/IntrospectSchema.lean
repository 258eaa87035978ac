import Verif.Props.IntrospectTypes
import Verif.Proofs.SemSub

/-! # C44: what the data functions of introspection return -/

namespace Hiku.Intro

theorem TId.ofVal_val : (t : TId) → TId.ofVal t.val = some t
  | .scalar n => rfl
  | .object n => rfl
  | .inputObject n => rfl
  | .list t => by simp [TId.val, TId.ofVal, TId.ofVal_val t]
  | .nonNull t => by simp [TId.val, TId.ofVal, TId.ofVal_val t]

theorem Ident.ofVal_val (x : Ident) : Ident.ofVal x.val = some x := by
  cases x with
  | type t =>
    have h := TId.ofVal_val t
    cases t <;> exact congrArg (Option.map Ident.type) h
  | _ => rfl

theorem Ident.ofVal_type (t : TId) : Ident.ofVal t.val = some (.type t) := Ident.ofVal_val (.type t)

/-- the lookups of object types -/
theorem nodesMap_get (s : Schema) (n : String) : dget s.nodesMap n = objectNode s n := by
  unfold Schema.nodesMap objectNode Graph.node Graph.nodesMap
  rw [dget_dmk, dget_dmk]
  cases hm : s.mutation with
  | none =>
    simp only [List.append_nil, List.reverse_append, List.reverse_cons, List.reverse_nil, List.nil_append,
      List.cons_append, dget_cons, Option.isSome_none, Bool.false_eq_true, and_false, if_false]
    by_cases h : n = "Query"
    · subst h; rfl
    · rw [if_neg h, if_neg (fun e => h e.symm)]
  | some m =>
    simp only [List.reverse_append, List.reverse_cons, List.reverse_nil, List.nil_append,
      List.cons_append, dget_cons, Option.isSome_some, and_true, Option.map_some]
    by_cases h : n = "Mutation"
    · subst h; rfl
    · rw [if_neg h, if_neg (fun e => h e.symm)]
      by_cases h' : n = "Query"
      · subst h'; rfl
      · rw [if_neg h', if_neg (fun e => h' e.symm)]

theorem mapM_map {α β : Type} {f : α → Except Err β} {g : α → β} {l : List α} (h : ∀ a ∈ l, f a = .ok (g a)) :
    l.mapM f = .ok (l.map g) := by
  induction l with
  | nil => rfl
  | cons a l ih =>
    rw [List.mapM_cons, h a List.mem_cons_self, ih fun b hb => h b (List.mem_cons_of_mem _ hb)]
    rfl

variable {dumps : Val → Except Err String} {s : Schema}

theorem recordType_iff {n : String} {fs : List (String × Ty)} :
    recordType s n = some fs ↔ ∃ r, dget s.dataTypes n = some (.record r) ∧ fs = dmk r := by
  unfold recordType
  cases h : dget s.dataTypes n with
  | none => simp
  | some t => cases t <;> simp [eq_comm]

theorem typeIdent_ok {input : Bool} {t : Ty} (h : OkTy (if input then IsRecord s else IsObject s) t) :
    ∃ x, typeIdent s.dataTypes input t = .ok x ∧ TypeOk s x := by
  match t with
  | .any => exact ⟨_, rfl, .scalar (by simp)⟩
  | .mapping _ _ => exact ⟨_, rfl, .scalar (by simp)⟩
  | .record _ => exact ⟨_, rfl, .scalar (by simp)⟩
  | .string => exact ⟨_, rfl, .nonNull (.scalar (by simp))⟩
  | .integer => exact ⟨_, rfl, .nonNull (.scalar (by simp))⟩
  | .float => exact ⟨_, rfl, .nonNull (.scalar (by simp))⟩
  | .boolean => exact ⟨_, rfl, .nonNull (.scalar (by simp))⟩
  | .callable as => exact h.elim
  | .ref n =>
    simp only [typeIdent]
    cases input with
    | false => exact ⟨_, rfl, .nonNull (.object h)⟩
    | true =>
      have h : IsRecord s n := h
      obtain ⟨fs, hfs⟩ := Option.isSome_iff_exists.1 h
      obtain ⟨r, hr, _⟩ := recordType_iff.1 hfs
      have hd : dhas s.dataTypes n = true := by simp [dhas, hr]
      simp only [if_true]
      rw [if_pos hd]
      exact ⟨_, rfl, .nonNull (.inputObject h)⟩
  | .sequence t =>
    obtain ⟨x, hx, ho⟩ := typeIdent_ok (t := t) h
    simp only [typeIdent, hx]
    exact ⟨_, rfl, .nonNull (.list ho)⟩
  | .optional t =>
    obtain ⟨x, hx, ho⟩ := typeIdent_ok (t := t) h
    simp only [typeIdent, hx]
    refine ⟨_, rfl, ?_⟩
    cases ho with
    | nonNull ho => exact ho
    | scalar ho => exact .scalar ho
    | object ho => exact .object ho
    | inputObject ho => exact .inputObject ho
    | list ho => exact .list ho

/-- the type of a field of an introspected graph as reported -/
theorem reportedType_ok {input : Bool} {t : Ty} (h : OkTy (if input then IsRecord s else IsObject s) t) :
    ∃ x, typeIdent s.dataTypes input t = .ok x ∧ reportedType s input t = x.val ∧ TypeOk s x := by
  obtain ⟨x, hx, ho⟩ := typeIdent_ok h
  exact ⟨x, hx, by simp only [reportedType, hx], ho⟩

/-! ### Lists of types -/

/-- C44: `__schema.types` lists exactly the built-in scalars, the object types (the nodes of the query graph,
the roots, the record data types) and the input types of record data types. -/
theorem c44_listed_iff (t : TId) : t ∈ schemaTypes s ↔
    (∃ n, t = .scalar n ∧ n ∈ ["String", "Int", "Boolean", "Float", "Any"]) ∨
    (∃ n, t = .object n ∧ ((objectNode s n).isSome ∨ ∃ fs, (n, Ty.record fs) ∈ s.dataTypes)) ∨
    (∃ n, t = .inputObject n ∧ ∃ fs, (n, Ty.record fs) ∈ s.dataTypes) := by
  have hn : ∀ n, n ∈ s.nodesMap.map Prod.fst ↔ (objectNode s n).isSome := by
    intro n; rw [← nodesMap_get, dget_isSome_iff]
  have hr : ∀ ty : Ty, isRecord ty = true ↔ ∃ fs, ty = .record fs := by intro ty; cases ty <;> simp [isRecord]
  have hd : t ∈ s.dataTypes.flatMap (fun kv => if isRecord kv.2 then [TId.object kv.1, .inputObject kv.1] else []) ↔
      ∃ n, (t = .object n ∨ t = .inputObject n) ∧ ∃ fs, (n, Ty.record fs) ∈ s.dataTypes := by
    rw [List.mem_flatMap]
    constructor
    · rintro ⟨⟨n, ty⟩, h1, h2⟩
      by_cases h : isRecord ty = true
      · simp only [h, if_true] at h2
        obtain ⟨fs, rfl⟩ := (hr ty).1 h
        exact ⟨n, by simpa using h2, fs, h1⟩
      · simp [h] at h2
    · rintro ⟨n, h1, fs, h2⟩
      exact ⟨_, h2, by simpa [isRecord] using h1⟩
  unfold schemaTypes
  rw [List.mem_append, List.mem_append, hd]
  have hs : t ∈ [TId.scalar "String", .scalar "Int", .scalar "Boolean", .scalar "Float", .scalar "Any"] ↔
      ∃ n, t = .scalar n ∧ n ∈ ["String", "Int", "Boolean", "Float", "Any"] := by
    simp only [List.mem_cons, List.not_mem_nil, or_false]
    constructor
    · rintro (h | h | h | h | h) <;> exact ⟨_, h, by simp⟩
    · rintro ⟨n, rfl, h⟩
      simpa using h
  have ho : t ∈ s.nodesMap.map (fun kv => TId.object kv.1) ↔ ∃ n, t = .object n ∧ (objectNode s n).isSome := by
    rw [List.mem_map]
    constructor
    · rintro ⟨kv, h1, rfl⟩
      exact ⟨kv.1, rfl, (hn _).1 (List.mem_map_of_mem h1)⟩
    · rintro ⟨n, rfl, h⟩
      obtain ⟨kv, h1, rfl⟩ := List.mem_map.1 ((hn n).2 h)
      exact ⟨kv, h1, rfl⟩
  rw [hs, ho]
  constructor
  · rintro ((h | ⟨n, h1, h2⟩) | ⟨n, h1 | h1, h2⟩)
    · exact .inl h
    · exact .inr (.inl ⟨n, h1, .inl h2⟩)
    · exact .inr (.inl ⟨n, h1, .inr h2⟩)
    · exact .inr (.inr ⟨n, h1, h2⟩)
  · rintro (h | ⟨n, h1, h2 | h2⟩ | ⟨n, h1, h2⟩)
    · exact .inl (.inl h)
    · exact .inl (.inr ⟨n, h1, h2⟩)
    · exact .inr ⟨n, .inl h1, h2⟩
    · exact .inr ⟨n, .inr h1, h2⟩

theorem allTypes_eq : allTypes s = schemaTypes s := rfl

theorem isRecord_mem {n : String} (h : IsRecord s n) : ∃ fs, (n, Ty.record fs) ∈ s.dataTypes := by
  obtain ⟨fs, hfs⟩ := Option.isSome_iff_exists.1 h
  obtain ⟨r, hr, _⟩ := recordType_iff.1 hfs
  exact ⟨r, dget_mem hr⟩

/-- the data types are a dict -/
def TypesDict (s : Schema) : Prop := (s.dataTypes.map Prod.fst).Nodup

theorem isRecord_of_mem (hd : TypesDict s) {n : String} {fs : List (String × Ty)} (h : (n, Ty.record fs) ∈ s.dataTypes) :
    IsRecord s n := by
  unfold IsRecord recordType
  rw [dget_of_mem_nodup hd h]
  rfl

/-- C44: the named type inside of every type which introspection shows is listed in `__schema.types`. -/
theorem c44_leaf_listed_partial {t : TId} (h : TypeOk s t) : leaf t ∈ schemaTypes s := by
  induction h with
  | scalar h => exact (c44_listed_iff _).2 (.inl ⟨_, rfl, h⟩)
  | object h =>
    refine (c44_listed_iff _).2 (.inr (.inl ⟨_, rfl, ?_⟩))
    rcases h with h | h
    · exact .inl h
    · exact .inr (isRecord_mem h)
  | inputObject h => exact (c44_listed_iff _).2 (.inr (.inr ⟨_, rfl, isRecord_mem h⟩))
  | list _ ih => exact ih
  | nonNull _ ih => exact ih

/-- every listed type can be shown -/
theorem c44_listed_ok (hd : TypesDict s) {t : TId} (h : t ∈ schemaTypes s) : TypeOk s t := by
  rcases (c44_listed_iff _).1 h with ⟨n, rfl, h1⟩ | ⟨n, rfl, h1 | ⟨fs, h1⟩⟩ | ⟨n, rfl, fs, h1⟩
  · exact .scalar h1
  · exact .object (.inl h1)
  · exact .object (.inr (isRecord_of_mem hd h1))
  · exact .inputObject (isRecord_of_mem hd h1)

/-! ### The data functions -/

theorem rowOf_ok {info : List (String × Val)} {qfs : List QItem} {g : String → Val}
    (h : ∀ q ∈ qfs, dget info q.name = some (g q.name)) :
    rowOf info qfs = .ok (.list (qfs.map fun q => g q.name)) := by
  unfold rowOf
  rw [mapM_map (g := fun q : QItem => g q.name) fun q hq => by rw [h q hq]]
  rfl

/-- the identifier of an object -/
def identOf (v : Val) : Ident := (Ident.ofVal v).getD (.directive "")

theorem identOf_val (x : Ident) : identOf x.val = x := by simp [identOf, Ident.ofVal_val]
theorem identOf_type (t : TId) : identOf t.val = .type t := identOf_val (.type t)

/-- rows of values of fields -/
def introRows (dumps : Val → Except Err String) (s : Schema) (qfs : List QItem) (ids : List Val) : Val :=
  .list (ids.map fun v => .list (qfs.map fun q => introField dumps s (identOf v) q.name))

theorem typeInfo_ok {qfs : List QItem} {ids : List Val}
    (hq : ∀ q ∈ qfs, q.name ∈ ["id", "kind", "name", "description"]) (hi : ∀ v ∈ ids, ∃ t : TId, v = t.val) :
    typeInfo s qfs ids = .ok (introRows dumps s qfs ids) := by
  unfold typeInfo introRows
  rw [mapM_map (g := fun v => .list (qfs.map fun q => introField dumps s (identOf v) q.name))]
  · rfl
  · intro v hv
    obtain ⟨t, rfl⟩ := hi v hv
    have key : ∃ info, typeRow s t.val = .ok info ∧ ∀ q ∈ qfs, (dget info q.name).getD .none =
        introField dumps s (.type t) q.name := by
      unfold typeRow
      rw [Ident.ofVal_type]
      cases t with
      | scalar n =>
        refine ⟨_, rfl, fun q h => ?_⟩
        have := hq q h
        simp only [List.mem_cons, List.not_mem_nil, or_false] at this
        rcases this with e | e | e | e <;> rw [e] <;> rfl
      | object n =>
        refine ⟨_, rfl, fun q h => ?_⟩
        have := hq q h
        simp only [List.mem_cons, List.not_mem_nil, or_false] at this
        rcases this with e | e | e | e <;> rw [e]
        · rfl
        · rfl
        · rfl
        · rw [nodesMap_get]
          simp only [introField, descriptionOf]
          cases objectNode s n <;> rfl
      | inputObject n =>
        refine ⟨_, rfl, fun q h => ?_⟩
        have := hq q h
        simp only [List.mem_cons, List.not_mem_nil, or_false] at this
        rcases this with e | e | e | e <;> rw [e] <;> rfl
      | list t =>
        refine ⟨_, rfl, fun q h => ?_⟩
        have := hq q h
        simp only [List.mem_cons, List.not_mem_nil, or_false] at this
        rcases this with e | e | e | e <;> rw [e] <;> rfl
      | nonNull t =>
        refine ⟨_, rfl, fun q h => ?_⟩
        have := hq q h
        simp only [List.mem_cons, List.not_mem_nil, or_false] at this
        rcases this with e | e | e | e <;> rw [e] <;> rfl
    obtain ⟨info, h1, h2⟩ := key
    rw [h1, ok_bind', identOf_type]
    exact congrArg (fun l => Except.ok (Val.list l)) (List.map_congr_left h2)

theorem get_name {n : GNode} {f : String} {i : GItem} (h : n.get f = some i) : i.name = f := by
  unfold GNode.get GNode.fieldsMap at h
  rw [dget_dmk] at h
  have := dget_mem h
  simp only [List.mem_reverse, List.mem_map, Prod.mk.injEq] at this
  obtain ⟨a, _, h1, rfl⟩ := this
  exact h1

/-- fields of object types are fields of nodes or of records -/
theorem fieldAt_cases {n f : String} {v : FieldView} (h : fieldAt s n f = some v) :
    (∃ node i, objectNode s n = some node ∧ isPublic f = true ∧ node.get f = some i ∧ v = itemView i) ∨
    (objectNode s n = none ∧ ∃ fs t, recordType s n = some fs ∧ dget fs f = some t ∧ v = { ty := t }) := by
  unfold fieldAt at h
  cases ho : objectNode s n with
  | some node =>
    rw [ho] at h
    simp only at h
    split at h
    · rename_i hp
      obtain ⟨i, h1, h2⟩ := Option.map_eq_some_iff.1 h
      exact .inl ⟨node, i, rfl, hp, h1, h2.symm⟩
    · cases h
  | none =>
    rw [ho] at h
    simp only [Option.map_eq_some_iff, Option.bind_eq_some_iff] at h
    obtain ⟨t, ⟨fs, h1, h2⟩, rfl⟩ := h
    exact .inr ⟨rfl, fs, t, h1, h2, rfl⟩

theorem itemView_description (i : GItem) : (itemView i).description = GItem.description i := by cases i <;> rfl
theorem itemView_args (i : GItem) : (itemView i).args = i.options := by cases i <;> rfl
theorem itemView_ty (i : GItem) : (itemView i).ty = i.ty := by cases i <;> rfl

theorem fieldInfo_ok {qfs : List QItem} {ids : List Val}
    (hq : ∀ q ∈ qfs, q.name ∈ ["id", "name", "description", "isDeprecated", "deprecationReason"])
    (hi : ∀ v ∈ ids, ∃ n f w, fieldAt s n f = some w ∧ v = (Ident.field n f).val) :
    fieldInfo s qfs ids = .ok (introRows dumps s qfs ids) := by
  unfold fieldInfo introRows
  rw [mapM_map (g := fun v => .list (qfs.map fun q => introField dumps s (identOf v) q.name))]
  · rfl
  · intro v hv
    obtain ⟨n, f, w, h1, rfl⟩ := hi v hv
    have key : ∃ info, fieldRow s (Ident.field n f).val = .ok info ∧ ∀ q ∈ qfs, dget info q.name =
        some (introField dumps s (.field n f) q.name) := by
      unfold fieldRow
      rw [Ident.ofVal_val]
      simp only
      rw [nodesMap_get]
      rcases fieldAt_cases h1 with ⟨node, i, h2, _, h3, rfl⟩ | ⟨h2, fs, t, h3, h4, rfl⟩
      · rw [h2]
        simp only [nodeField, h3, ok_bind', get_name h3]
        refine ⟨_, rfl, fun q h => ?_⟩
        have := hq q h
        simp only [List.mem_cons, List.not_mem_nil, or_false] at this
        rcases this with e | e | e | e | e <;> rw [e]
        · rfl
        · rfl
        · simp only [introField, h1, Option.bind_some, itemView_description]; rfl
        · rfl
        · rfl
      · rw [h2]
        refine ⟨_, rfl, fun q h => ?_⟩
        have := hq q h
        simp only [List.mem_cons, List.not_mem_nil, or_false] at this
        rcases this with e | e | e | e | e <;> rw [e]
        · rfl
        · rfl
        · simp only [introField, h1, Option.bind_some]; rfl
        · rfl
        · rfl
    obtain ⟨info, h1, h2⟩ := key
    rw [h1, ok_bind', identOf_val]
    exact rowOf_ok h2

/-- arguments of fields are options of fields and links of nodes -/
theorem argOf_cases {n f a : String} {o : GOption} (h : argOf s n f a = some o) :
    fieldOption s n f a = .ok o ∧ o.name = a ∧ ∃ v, fieldAt s n f = some v ∧ o ∈ v.args := by
  obtain ⟨v, h1, h2⟩ := Option.bind_eq_some_iff.1 h
  have hm : o ∈ v.args ∧ o.name = a := by
    rw [dget_dmk] at h2
    have := dget_mem h2
    simp only [List.mem_reverse, List.mem_map, Prod.mk.injEq] at this
    obtain ⟨x, hx, h3, rfl⟩ := this
    exact ⟨hx, h3⟩
  refine ⟨?_, hm.2, v, h1, hm.1⟩
  unfold fieldOption
  rw [nodesMap_get]
  rcases fieldAt_cases h1 with ⟨node, i, h3, _, h4, rfl⟩ | ⟨_, fs, t, _, _, rfl⟩
  · rw [h3]
    simp only [nodeField, h4, ok_bind']
    rw [itemView_args] at h2
    rw [h2]
  · exact absurd hm.1 (by simp)

theorem inputInfo_ok (hs : GoodSchema dumps s) {qfs : List QItem} {ids : List Val}
    (hq : ∀ q ∈ qfs, q.name ∈ ["id", "name", "description", "defaultValue"])
    (hi : ∀ v ∈ ids, IntroObj s "__InputValue" v) :
    inputInfo dumps s qfs ids = .ok (introRows dumps s qfs ids) := by
  unfold inputInfo introRows
  rw [mapM_map (g := fun v => .list (qfs.map fun q => introField dumps s (identOf v) q.name))]
  · rfl
  · intro v hv
    have key : ∃ info, inputRow dumps s v = .ok info ∧ ∀ q ∈ qfs, dget info q.name =
        some (introField dumps s (identOf v) q.name) := by
      unfold inputRow
      have hv := hi v hv
      generalize hnm : "__InputValue" = nm at hv
      cases hv with
      | @arg n f a o h =>
        obtain ⟨h1, h2, w, h3, h4⟩ := argOf_cases h
        obtain ⟨_, _, _, hd⟩ := hs.args n f w h3 o h4
        rw [Ident.ofVal_val, identOf_val]
        simp only [h1, ok_bind']
        have hdef : defaultValue dumps o = Except.ok (defaultOf dumps o) := by
          unfold defaultOf defaultValue
          by_cases he : o.dflt = .nothing
          · rw [if_pos he, if_pos he]
          · obtain ⟨x, hx⟩ := hd he
            rw [if_neg he, if_neg he, hx]
        rw [hdef, ok_bind']
        refine ⟨_, rfl, fun q h' => ?_⟩
        have := hq q h'
        simp only [List.mem_cons, List.not_mem_nil, or_false] at this
        rcases this with e | e | e | e <;> rw [e]
        · rfl
        · rw [h2]; rfl
        · simp only [introField, h, Option.bind_some]; rfl
        · simp only [introField, h, Option.map_some, Option.getD_some]; rfl
      | @inputField n k fs t _ _ =>
        rw [Ident.ofVal_val, identOf_val]
        refine ⟨_, rfl, fun q h' => ?_⟩
        have := hq q h'
        simp only [List.mem_cons, List.not_mem_nil, or_false] at this
        rcases this with e | e | e | e <;> rw [e] <;> rfl
      | @directiveArg n hn =>
        rw [Ident.ofVal_val, identOf_val]
        rcases hn with rfl | rfl
        · refine ⟨_, rfl, fun q h' => ?_⟩
          have := hq q h'
          simp only [List.mem_cons, List.not_mem_nil, or_false] at this
          rcases this with e | e | e | e <;> rw [e] <;> rfl
        · refine ⟨_, rfl, fun q h' => ?_⟩
          have := hq q h'
          simp only [List.mem_cons, List.not_mem_nil, or_false] at this
          rcases this with e | e | e | e <;> rw [e] <;> rfl
      | _ => simp at hnm
    obtain ⟨info, h1, h2⟩ := key
    rw [h1, ok_bind']
    exact rowOf_ok h2

theorem directiveInfo_ok {qfs : List QItem} {ids : List Val}
    (hq : ∀ q ∈ qfs, q.name ∈ ["name", "description", "locations"])
    (hi : ∀ v ∈ ids, ∃ n, (n = "skip" ∨ n = "include") ∧ v = (Ident.directive n).val) :
    directiveInfo qfs ids = .ok (introRows dumps s qfs ids) := by
  unfold directiveInfo introRows
  rw [mapM_map (g := fun v => .list (qfs.map fun q => introField dumps s (identOf v) q.name))]
  · rfl
  · intro v hv
    obtain ⟨n, hn, rfl⟩ := hi v hv
    have key : ∃ info, directiveRow (Ident.directive n).val = .ok info ∧ ∀ q ∈ qfs, dget info q.name =
        some (introField dumps s (.directive n) q.name) := by
      unfold directiveRow
      rw [Ident.ofVal_val]
      rcases hn with rfl | rfl
      · refine ⟨_, rfl, fun q h' => ?_⟩
        have := hq q h'
        simp only [List.mem_cons, List.not_mem_nil, or_false] at this
        rcases this with e | e | e <;> rw [e] <;> rfl
      · refine ⟨_, rfl, fun q h' => ?_⟩
        have := hq q h'
        simp only [List.mem_cons, List.not_mem_nil, or_false] at this
        rcases this with e | e | e <;> rw [e] <;> rfl
    obtain ⟨info, h1, h2⟩ := key
    rw [h1, ok_bind', identOf_val]
    exact rowOf_ok h2

/-! Links -/

/-- values of links -/
def introValues (s : Schema) (k : IFun) (ids : List Val) : Val :=
  .list (ids.map fun v => introLink s none k (some (identOf v)))

theorem fieldNames_ok (hs : GoodSchema dumps s) {n : String} (h : IsObject s n) :
    fieldNames s n = .ok (fieldsOf s n) := by
  have hne := hs.nonempty n h
  unfold fieldNames
  unfold fieldsOf at hne ⊢
  rw [nodesMap_get]
  cases ho : objectNode s n with
  | some node =>
    rw [ho] at hne
    simp only [ok_bind'] at hne ⊢
    rw [if_neg (by simpa using hne)]
  | none =>
    rcases h with h | h
    · rw [ho] at h; cases h
    · obtain ⟨fs, hfs⟩ := Option.isSome_iff_exists.1 h
      obtain ⟨r, hr, rfl⟩ := recordType_iff.1 hfs
      rw [ho, hfs] at hne
      simp only [hr, ok_bind', Option.getD_some, hfs] at hne ⊢
      rw [if_neg (by simpa using hne)]

theorem typeFields_ok (hs : GoodSchema dumps s) {ids : List Val} (hi : ∀ v ∈ ids, IntroObj s "__Type" v) :
    typeFields s ids = .ok (introValues s .fields ids) := by
  unfold typeFields introValues
  rw [mapM_map (g := fun v => introLink s none .fields (some (identOf v)))]
  · rfl
  · intro v hv
    have hv := hi v hv
    generalize hnm : "__Type" = nm at hv
    cases hv with
    | @type t ht =>
      rw [Ident.ofVal_type, identOf_type]
      cases ht with
      | object h => simp only [fieldNames_ok hs h, ok_bind', introLink]
      | _ => rfl
    | _ => simp at hnm

theorem ofType_ok {ids : List Val} (hi : ∀ v ∈ ids, IntroObj s "__Type" v) :
    ofType ids = .ok (introValues s .ofType ids) := by
  unfold ofType introValues
  refine congrArg (fun l => Except.ok (Val.list l)) (List.map_congr_left fun v hv => ?_)
  have hv := hi v hv
  generalize hnm : "__Type" = nm at hv
  cases hv with
  | @type t ht =>
    rw [Ident.ofVal_type, identOf_type]
    cases t <;> rfl
  | _ => simp at hnm

theorem inputFields_ok {ids : List Val} (hi : ∀ v ∈ ids, IntroObj s "__Type" v) :
    inputFields s ids = .ok (introValues s .inputFields ids) := by
  unfold inputFields introValues
  rw [mapM_map (g := fun v => introLink s none .inputFields (some (identOf v)))]
  · rfl
  · intro v hv
    have hv := hi v hv
    generalize hnm : "__Type" = nm at hv
    cases hv with
    | @type t ht =>
      rw [Ident.ofVal_type, identOf_type]
      cases ht with
      | inputObject h =>
        obtain ⟨fs, hfs⟩ := Option.isSome_iff_exists.1 h
        obtain ⟨r, hr, rfl⟩ := recordType_iff.1 hfs
        simp only [hr, introLink, hfs, Option.getD_some]
      | _ => rfl
    | _ => simp at hnm

theorem fieldArgs_ok {ids : List Val} (hi : ∀ v ∈ ids, IntroObj s "__Field" v) :
    fieldArgs s ids = .ok (introValues s .args ids) := by
  unfold fieldArgs introValues
  rw [mapM_map (g := fun v => introLink s none .args (some (identOf v)))]
  · rfl
  · intro v hv
    have hv := hi v hv
    generalize hnm : "__Field" = nm at hv
    cases hv with
    | @field n f w h =>
      rw [Ident.ofVal_val, identOf_val]
      simp only [introLink, h, Option.map_some, Option.getD_some]
      rw [nodesMap_get]
      rcases fieldAt_cases h with ⟨node, i, h2, _, h3, rfl⟩ | ⟨h2, fs, t, h3, h4, rfl⟩
      · rw [h2]
        simp only [nodeField, h3, ok_bind', itemView_args, get_name h3]
      · rw [h2]; rfl
    | _ => simp at hnm

theorem fieldType_ok (hs : GoodSchema dumps s) {ids : List Val} (hi : ∀ v ∈ ids, IntroObj s "__Field" v) :
    fieldType s ids = .ok (introValues s .fieldType ids) := by
  unfold fieldType introValues
  rw [mapM_map (g := fun v => introLink s none .fieldType (some (identOf v)))]
  · rfl
  · intro v hv
    have hv := hi v hv
    generalize hnm : "__Field" = nm at hv
    cases hv with
    | @field n f w h =>
      rw [Ident.ofVal_val, identOf_val]
      obtain ⟨x, h5, h6, _⟩ := reportedType_ok (input := false) (hs.types n f w h)
      simp only [introLink, h, Option.map_some, Option.getD_some, h6]
      rw [nodesMap_get]
      rcases fieldAt_cases h with ⟨node, i, h2, _, h3, rfl⟩ | ⟨h2, fs, t, h3, h4, rfl⟩
      · rw [h2]
        rw [itemView_ty] at h5
        simp only [nodeField, h3, ok_bind', h5]
      · rw [h2]
        obtain ⟨r, hr, rfl⟩ := recordType_iff.1 h3
        simp only at h5
        simp only [recordField, hr, h4, ok_bind', h5]
    | _ => simp at hnm

theorem inputType_ok (hs : GoodSchema dumps s) {ids : List Val} (hi : ∀ v ∈ ids, IntroObj s "__InputValue" v) :
    inputType s ids = .ok (introValues s .inputType ids) := by
  unfold inputType introValues
  rw [mapM_map (g := fun v => introLink s none .inputType (some (identOf v)))]
  · rfl
  · intro v hv
    have hv := hi v hv
    generalize hnm : "__InputValue" = nm at hv
    cases hv with
    | @arg n f a o h =>
      rw [Ident.ofVal_val, identOf_val]
      obtain ⟨h1, _, w, h3, h4⟩ := argOf_cases h
      obtain ⟨t, ht, hok, _⟩ := hs.args n f w h3 o h4
      obtain ⟨x, h5, h6, _⟩ := reportedType_ok (input := true) hok
      simp only [introLink, h, h1, ok_bind', Option.bind_some, ht, Option.map_some, Option.getD_some, h6, h5]
    | @inputField n k fs t h h' =>
      rw [Ident.ofVal_val, identOf_val]
      obtain ⟨x, h5, h6, _⟩ := reportedType_ok (input := true) (hs.inputs n fs h k t h')
      obtain ⟨r, hr, rfl⟩ := recordType_iff.1 h
      simp only [introLink, h, Option.bind_some, h', Option.map_some, Option.getD_some, h6, recordField, hr, ok_bind', h5]
    | directiveArg _ => rw [Ident.ofVal_val, identOf_val]; rfl
    | _ => simp at hnm

end Hiku.Intro
