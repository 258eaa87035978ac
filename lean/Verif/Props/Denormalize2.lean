import Verif.Props.Denormalize

/-! # C21, C22: the two other denormalizers -/

namespace Hiku

variable {H : PyHash} {idx : Index} {g : Graph}

/-! ### the types of the graph -/

theorem dget_filterMap_name {α : Type} (f : GNode → α) (l : List GNode) (nm : String) :
    dget (l.filterMap fun n => n.name.map fun s => (s, f n)).reverse nm =
      (dget (dmk (l.filterMap fun n => n.name.map fun s => (s, n))) nm).map f := by
  rw [dget_dmk, ← dget_map_snd, List.map_reverse]
  congr 2
  rw [List.map_filterMap]
  congr 1
  funext n
  cases n.name <;> rfl

theorem types_get {nm : String} (hr : nm ≠ rootName) :
    dget g.types nm = ((g.node nm).map fun t => Ty.record t.recordFields).or (dget g.dataTypes nm) := by
  have hr : "__root__" ≠ nm := Ne.symm hr
  rw [Graph.types, dget_dset_ne _ _ hr, dget_dupdate, dget_filterMap_name (fun n => Ty.record n.recordFields)]
  rfl

theorem types_node {nm : String} {t : GNode} (h : g.node nm = some t) (hr : nm ≠ rootName) :
    dget g.types nm = some (.record t.recordFields) := by
  rw [types_get hr, h]; rfl

theorem types_data {nm : String} (h : g.node nm = none) (hr : nm ≠ rootName) :
    dget g.types nm = dget g.dataTypes nm := by
  rw [types_get hr, h]; rfl

theorem recordFields_get (gn : GNode) (n : String) :
    dget gn.recordFields n = (gn.get n).map GItem.ty := by
  rw [GNode.recordFields, GNode.get, GNode.fieldsMap, dget_dmk, dget_dmk, ← dget_map_snd, List.map_reverse]
  congr 2
  rw [List.map_map]
  rfl

theorem dget_dmk_append {κ ν : Type} [DecidableEq κ] (a b : List (κ × ν)) (k : κ) :
    dget (dmk (a ++ b)) k = (dget (dmk b) k).or (dget (dmk a) k) := by
  rw [dget_dmk, dget_dmk, dget_dmk, List.reverse_append, dget_append]

theorem types_root (g : Graph) : ∃ ts, dget g.types rootName = some (.record ts) ∧
    ∀ n, dget ts n = (g.root.get n).map GItem.ty := by
  refine ⟨_, dget_dset_self .., fun n => ?_⟩
  rw [← recordFields_get, GNode.recordFields, Graph.root]
  simp only
  generalize g.items.filter (fun n => n.name.isNone) = l
  induction l with
  | nil => rfl
  | cons x r ih =>
    rw [List.flatMap_cons, List.flatMap_cons, List.map_append, dget_dmk_append, dget_dmk_append, ih,
      GNode.recordFields, dmk_eq_self _ (nodup_dmk _)]

/-! ### C21 -/

theorem dnItems_bind (types : List (String × Ty)) (tn : Option String) (t : Ty) (data : PObj) (l : List QItem) :
    ∀ acc, dnItems H idx types tn t data acc l = (do
      let kvs ← l.mapM fun i => do
        let v ← dnItem H idx types tn t data i
        pure (Val.str i.resultKey, v)
      .ok (dupdate acc kvs)) := by
  induction l with
  | nil => intro acc; simp [dnItems, dupdate_nil]
  | cons i r ih =>
    intro acc
    rw [dnItems, List.mapM_cons]
    cases h : dnItem H idx types tn t data i with
    | error e => rfl
    | ok v =>
      simp only [ok_bind', ih]
      cases h : (r.mapM fun i => do
        let v ← dnItem H idx types tn t data i
        pure (Val.str i.resultKey, v) : Except Err _) with
      | error e =>  rfl
      | ok kvs => rfl

theorem denormItems_eq {gn : GNode} {r : PObj} {l : List QItem} (h : ∀ i ∈ l, (gn.get i.name).isSome) :
    denormItems H idx g gn r l = l.mapM fun i => (do
      let x ← pget H idx r i.resultKey
      let v ← (match gn.get i.name with
        | some gi => denormItem H idx g gi x i
        | none => .error .keyError)
      pure (Val.str i.resultKey, v) : Except Err _) := by
  induction l with
  | nil => rfl
  | cons i l ih =>
    obtain ⟨gi, hgi⟩ := Option.isSome_iff_exists.1 (h i (by simp))
    rw [denormItems, List.mapM_cons, hgi, ih fun x hx => h x (by simp [hx])]
    simp only
    cases pget H idx r i.resultKey with
    | error e => rfl
    | ok x =>
      simp only [ok_bind']
      cases denormItem H idx g gi x i with
      | error e => rfl
      | ok v => rfl

theorem mapM_congr' {α β : Type} {f f' : α → Except Err β} {l : List α} (h : ∀ a ∈ l, f a = f' a) :
    l.mapM f = l.mapM f' := by
  induction l with
  | nil => rfl
  | cons a r ih =>
    rw [List.mapM_cons, List.mapM_cons, h a (by simp), ih fun x hx => h x (by simp [hx])]

theorem recordSel_items {ts : List (String × Ty)} {fs : List QItem} (h : RecordSelItems ts fs) :
    ∀ i ∈ fs, i.alias_ = none ∧ ((i.isLink = false ∧ ∃ ty, dget ts i.name = some ty) ∨
      ∃ n q o ts', i = .link n q o none ∧
        (dget ts n = some (.sequence (.record ts')) ∨ dget ts n = some (.optional (.record ts'))) ∧
        RecordSel ts' q) := by
  induction fs with
  | nil => simp
  | cons x r ih =>
    cases x with
    | field n o a =>
      rw [RecordSelItems] at h
      intro i hi
      rcases List.mem_cons.1 hi with rfl | hi
      · exact ⟨h.1.1, .inl ⟨rfl, h.1.2⟩⟩
      · exact ih h.2 i hi
    | link n q o a =>
      rw [RecordSelItems] at h
      intro i hi
      rcases List.mem_cons.1 hi with rfl | hi
      · obtain ⟨⟨rfl, ts', h1, h2⟩, _⟩ := h
        exact ⟨rfl, .inr ⟨n, q, o, ts', rfl, h1, h2⟩⟩
      · exact ih h.2 i hi

theorem denormTyField_eq (ts : List (String × Ty)) (x : PObj) (f : QItem) :
    denormTyField H idx ts x f = (match dget ts f.name with
      | none => .error .keyError
      | some t => do
          let y ← pget H idx x f.name
          denormTy H idx t y f) := by
  induction ts with
  | nil => simp [denormTyField]
  | cons kt r ih =>
    obtain ⟨k, t⟩ := kt
    rw [denormTyField, dget_cons]
    by_cases hk : k = f.name
    · simp [hk]
    · simp [hk, ih]

theorem denormTy_field (t : Ty) (x : PObj) (n : String) (o : Opts) (a : Option String) :
    denormTy H idx t x (.field n o a) = x.toVal := by
  cases t <;> simp [denormTy]

/-- the value of a record -/
theorem record_eq (types : List (String × Ty)) (q : QNode) : ∀ ts x n o a, RecordSel ts q →
    denormTy H idx (.record ts) x (.link n q o a) = (do
      let d ← dnNode H idx types none (.record ts) x [] q
      .ok (.dict d)) := by
  induction q using QNode.ind with
  | h fs ord ih =>
    intro ts x n o a hs
    rw [RecordSel] at hs
    have hs := recordSel_items hs
    rw [denormTy, dnNode, dnItems_bind]
    have key : (QNode.mk fs ord).fields.mapM (fun f => (do
        let r ← denormTyField H idx ts x f
        pure (Val.str f.name, r) : Except Err _)) =
      fs.mapM (fun i => (do
        let v ← dnItem H idx types none (.record ts) x i
        pure (Val.str i.resultKey, v) : Except Err _)) := by
      refine mapM_congr' fun i hi => ?_
      obtain ⟨ha, hcase⟩ := hs i hi
      have hk : i.resultKey = i.name := by rw [QItem.resultKey, ha]; rfl
      rw [hk, denormTyField_eq]
      congr 1
      rcases hcase with ⟨hl, ty, hty⟩ | ⟨m, q, o, ts', rfl, hty, hq⟩
      · cases i with
        | link => simp [QItem.isLink] at hl
        | field m o a =>
          have hty' : dget ts m = some ty := hty
          simp only [hty, dnItem, denormTy_field]
          rw [hk]
      · have ihq := fun y => ih m q o none hi ts' y m o none hq
        have hn : (QItem.link m q o none).name = m := rfl
        rw [hn] at hk ⊢
        rcases hty with hty | hty
        · simp only [hty, dnItem, recordTypes, ok_bind', pushTypeName, getType, hk]
          congr 1
          funext y
          rw [denormTy]
          congr 1
          funext l
          congr 1
          refine mapM_congr' fun y _ => ?_
          rw [ihq]
          rfl
        · simp only [hty, dnItem, recordTypes, ok_bind', pushTypeName, getType, hk]
          congr 1
          funext y
          rw [denormTy]
          rw [ihq]
    rw [key]
    cases (fs.mapM (fun i => (do
        let v ← dnItem H idx types none (.record ts) x i
        pure (Val.str i.resultKey, v) : Except Err _))) <;> rfl


theorem plainSel_items {gn : GNode} {fs : List QItem} (h : PlainSelItems g gn fs) :
    ∀ i ∈ fs, (gn.get i.name).isSome ∧ (i.isLink = false ∨ ∃ n q o a, i = .link n q o a ∧
      ((∃ gl t, gn.get n = some (.link gl) ∧ g.node gl.node = some t ∧ PlainSel g t q) ∨
       (∃ gf ty ts, gn.get n = some (.field gf) ∧ gf.ty = some ty ∧ RecordSel ts q ∧
         (ty = .sequence (.record ts) ∨ ty = .optional (.record ts) ∨
          ∃ nm, ty = .ref nm ∧ dget g.dataTypes nm = some (.record ts) ∧ g.node nm = none ∧ nm ≠ rootName)))) := by
  induction fs with
  | nil => simp
  | cons x r ih =>
    cases x with
    | field n o a =>
      rw [PlainSelItems] at h
      intro i hi
      rcases List.mem_cons.1 hi with rfl | hi
      · exact ⟨h.1, .inl rfl⟩
      · exact ih h.2 i hi
    | link n q o a =>
      rw [PlainSelItems] at h
      intro i hi
      rcases List.mem_cons.1 hi with rfl | hi
      · refine ⟨?_, .inr ⟨n, q, o, a, rfl, h.1⟩⟩
        rcases h.1 with ⟨_, _, h, _⟩ | ⟨_, _, _, h, _⟩ <;> exact Option.isSome_iff_exists.2 ⟨_, h⟩
      · exact ih h.2 i hi

theorem node_eq (hroot : g.node rootName = none) (q : QNode) : ∀ gn ts x, PlainSel g gn q →
    (∀ n, dget ts n = (gn.get n).map GItem.ty) →
    denormNode H idx g gn x q = (do
      let d ← dnNode H idx g.types none (.record ts) x [] q
      .ok (.dict d)) := by
  induction q using QNode.ind with
  | h fs ord ih =>
    intro gn ts x hs hts
    rw [PlainSel] at hs
    have hs := plainSel_items hs
    rw [denormNode, dnNode, dnItems_bind, denormItems_eq fun i hi => (hs i hi).1]
    have key : fs.mapM (fun i => (do
        let y ← pget H idx x i.resultKey
        let v ← (match gn.get i.name with
          | some gi => denormItem H idx g gi y i
          | none => .error .keyError)
        pure (Val.str i.resultKey, v) : Except Err _)) =
      fs.mapM (fun i => (do
        let v ← dnItem H idx g.types none (.record ts) x i
        pure (Val.str i.resultKey, v) : Except Err _)) := by
      refine mapM_congr' fun i hi => ?_
      obtain ⟨hg, hcase⟩ := hs i hi
      rw [← bind_assoc]
      congr 1
      rcases hcase with hl | ⟨m, q, o, a, rfl, hcase⟩
      · cases i with
        | link => simp [QItem.isLink] at hl
        | field m o a =>
          obtain ⟨gi, hgi⟩ := Option.isSome_iff_exists.1 hg
          simp only [hgi, dnItem, denormItem]
      · have hn : (QItem.link m q o a).name = m := rfl
        rw [hn]
        rcases hcase with ⟨gl, t, hg, ht, hq⟩ | ⟨gf, ty, ts', hg, hty, hq, hcase⟩
        · have hgn : gl.node ≠ rootName := by
            intro e; rw [e] at ht; rw [ht] at hroot; cases hroot
          have ihq := fun y => ih m q o a hi t t.recordFields y hq (recordFields_get t)
          have htg : dget ts m = some gl.ty := by rw [hts, hg]; rfl
          have htt := types_node ht hgn
          simp only [hg, dnItem, recordTypes, ok_bind', pushTypeName, htg, denormItem, ht]
          rw [GLink.ty]
          cases gl.typeEnum with
          | one => simp only [getType, htt, ihq]
          | maybe => simp only [getType, htt, ihq]
          | many =>
            simp only [getType, htt]
            congr 1
            funext y
            congr 1
            funext l
            congr 1
            refine mapM_congr' fun y _ => ?_
            rw [ihq]; rfl
        · have htg : dget ts m = some ty := by rw [hts, hg]; simp [GItem.ty, hty]
          have hr := fun y => record_eq (H := H) (idx := idx) g.types q ts' y m o a hq
          rcases hcase with rfl | rfl | ⟨nm, rfl, hd, hno, hnr⟩
          · simp only [hg, hty, dnItem, recordTypes, ok_bind', pushTypeName, htg, denormItem, getType]
            congr 1
            funext y
            rw [denormTy]
            congr 1
            funext l
            congr 1
            refine mapM_congr' fun y _ => ?_
            rw [hr]; rfl
          · simp only [hg, hty, dnItem, recordTypes, ok_bind', pushTypeName, htg, denormItem, getType]
            congr 1
            funext y
            rw [denormTy, hr]
          · simp only [hg, hty, dnItem, recordTypes, ok_bind', pushTypeName, htg, denormItem, getType,
              types_data hno hnr, hd]
            congr 1
            funext y
            rw [hr]
    rw [key]
    cases (fs.mapM (fun i => (do
        let v ← dnItem H idx g.types none (.record ts) x i
        pure (Val.str i.resultKey, v) : Except Err _))) <;> rfl

/-- C21: `denormalize` and `Denormalize` give the same value, or the same exception, for every index, on
every query which selects through links and inside of records as in `PlainSel`. -/
theorem c21_agree (hroot : g.node rootName = none) {q : QNode} (hq : PlainSel g g.root q) :
    denormalizeQ H idx g none q q = denormalize H idx g q := by
  obtain ⟨ts, h1, h2⟩ := types_root g
  rw [denormalizeQ, h1, denormalize, node_eq hroot q g.root ts _ hq h2]

end Hiku

namespace Hiku

variable {H : PyHash} {idx : Index} {g : Graph}

/-! ### C22 -/

theorem dnNode_bind (types : List (String × Ty)) (tn : Option String) (t : Ty) (data : PObj) (fs : List QItem)
    (ord : Bool) : dnNode H idx types tn t data [] (.mk fs ord) = (do
      let kvs ← fs.mapM fun i => (do
        let v ← dnItem H idx types tn t data i
        pure (Val.str i.resultKey, v))
      .ok (dmk kvs)) := by
  rw [dnNode, dnItems_bind]; rfl

/-- `B` does what `A` does, with values related by `R` -/
def SameOutcome {α β : Type} (R : α → β → Prop) (A : Except Err α) (B : Except Err β) : Prop :=
  match A with
  | .ok a => ∃ b, B = .ok b ∧ R a b
  | .error e => B = .error e

theorem SameOutcome.bind {α β γ δ : Type} {R : α → β → Prop} {S : γ → δ → Prop} {A : Except Err α}
    {B : Except Err β} {f : α → Except Err γ} {f' : β → Except Err δ} (h : SameOutcome R A B)
    (hf : ∀ a b, R a b → SameOutcome S (f a) (f' b)) : SameOutcome S (A >>= f) (B >>= f') := by
  cases A with
  | error e => 
    have h : B = .error e := h
    subst h; exact rfl
  | ok a =>
    obtain ⟨b, rfl, h⟩ : ∃ b, B = .ok b ∧ R a b := h
    exact hf a b h

theorem SameOutcome.refl {α : Type} (A : Except Err α) : SameOutcome (fun a b => a = b) A A := by
  cases A with
  | error e => exact rfl
  | ok a => exact ⟨a, rfl, rfl⟩

theorem SameOutcome.mapM {α β β' : Type} {R : β → β' → Prop} {f : α → Except Err β} {f' : α → Except Err β'}
    {l : List α} (h : ∀ a ∈ l, SameOutcome R (f a) (f' a)) :
    SameOutcome (List.Forall₂ R) (l.mapM f) (l.mapM f') := by
  induction l with
  | nil => exact ⟨[], rfl, .nil⟩
  | cons a r ih =>
    rw [List.mapM_cons, List.mapM_cons]
    refine (h a (by simp)).bind fun b b' hb => ?_
    refine (ih fun x hx => h x (by simp [hx])).bind fun l l' hl => ?_
    exact ⟨b' :: l', rfl, .cons hb hl⟩

theorem namedSel_items {types ts : List (String × Ty)} {fs : List QItem} (h : NamedSelItems types ts fs)
    {n : String} {q : QNode} {o : Opts} {a : Option String} (hm : .link n q o a ∈ fs) :
    n ≠ TYPENAME ∧ ∃ ty nm ts', dget ts n = some ty ∧
        (ty = .ref nm ∨ ty = .sequence (.ref nm) ∨ ty = .optional (.ref nm)) ∧
        dget types nm = some (.record ts') ∧ NamedSel types ts' q := by
  induction fs with
  | nil => simp at hm
  | cons x r ih =>
    have hm0 := List.mem_cons.1 hm
    cases x with
    | field n o a =>
      rw [NamedSelItems] at h
      rcases hm0 with hm0 | hm0
      · cases hm0
      · exact ih h hm0
    | link n q o a =>
      rw [NamedSelItems] at h
      rcases hm0 with hm0 | hm0
      · cases hm0; exact h.1
      · exact ih h.2 hm0

theorem stripItem_key (i : QItem) : (stripItem i).resultKey = i.resultKey := by
  cases i <;> simp [stripItem, QItem.resultKey, QItem.alias_, QItem.name]

theorem typename_node (types : List (String × Ty)) (q : QNode) : ∀ ts tn x, NamedSel types ts q → UniqueKeys q →
    SameOutcome (fun d d' => WithTypename types tn (.record ts) q (.dict d) (.dict d'))
      (dnNode H idx types none (.record ts) x [] (stripNode q))
      (dnNode H idx types (some tn) (.record ts) x [] q) := by
  induction q using QNode.ind with
  | h fs ord ih =>
    intro ts tn x hs hu
    rw [NamedSel] at hs
    rw [UniqueKeys] at hu
    rw [stripNode, dnNode_bind, dnNode_bind]
    -- one item
    have one : ∀ i ∈ fs, ¬ (i.name = TYPENAME) → SameOutcome (fun v v' => WithTypenameItem types (.record ts) i v v')
        (dnItem H idx types none (.record ts) x (stripItem i))
        (dnItem H idx types (some tn) (.record ts) x i) := by
      intro i hi hne
      cases i with
      | field n o a =>
        have hne : n ≠ TYPENAME := hne
        simp only [stripItem, dnItem, if_neg hne, WithTypenameItem]
        cases (do
          let y ← pget H idx x (QItem.field n o a).resultKey
          y.toVal : Except Err Val) with
        | error e => exact rfl
        | ok v => exact ⟨v, rfl, rfl⟩
      | link n q o a =>
        obtain ⟨_, ty, nm, ts', h1, h2, h3, h4⟩ := namedSel_items hs hi
        have huq := uniqueKeys_item hu.2 hi
        have ihq := fun y => ih n q o a hi ts' nm y h4 huq
        have hk : (QItem.link n (stripNode q) o a).resultKey = (QItem.link n q o a).resultKey := rfl
        have hp : SameOutcome (fun p p' => p = p') (pget H idx x (QItem.link n q o a).resultKey)
          (pget H idx x (QItem.link n q o a).resultKey) := .refl _
        rcases h2 with rfl | rfl | rfl
        · simp only [stripItem, dnItem, recordTypes, ok_bind', h1, pushTypeName, typeRefName, getType, h3, hk]
          refine hp.bind fun p p' e => ?_
          subst e
          refine (ihq p).bind fun d d' hd => ?_
          refine ⟨_, rfl, ?_⟩
          beta_reduce; rw [WithTypenameItem]
          exact ⟨ts, _, rfl, h1, _, h3, hd⟩
        · simp only [stripItem, dnItem, recordTypes, ok_bind', h1, pushTypeName, typeRefName, getType, h3, hk]
          refine hp.bind fun p p' e => ?_
          subst e
          refine (SameOutcome.refl (piter p)).bind fun l l' e => ?_
          subst e
          refine (SameOutcome.mapM (R := WithTypename types nm (.record ts') q) fun y _ => ?_).bind
            fun vs vs' hvs => ?_
          · refine (ihq y).bind fun d d' hd => ?_
            exact ⟨_, rfl, hd⟩
          · refine ⟨_, rfl, ?_⟩
            beta_reduce; rw [WithTypenameItem]
            exact ⟨ts, _, rfl, h1, _, vs, vs', h3, rfl, rfl, hvs⟩
        · simp only [stripItem, dnItem, recordTypes, ok_bind', h1, pushTypeName, typeRefName, getType, h3, hk]
          refine hp.bind fun p p' e => ?_
          subst e
          by_cases hn : p.isNone
          · rw [if_pos hn, if_pos hn]
            refine ⟨_, rfl, ?_⟩
            beta_reduce; rw [WithTypenameItem]
            exact ⟨ts, _, rfl, h1, .inl ⟨rfl, rfl⟩⟩
          · rw [if_neg hn, if_neg hn]
            refine (ihq p).bind fun d d' hd => ?_
            refine ⟨_, rfl, ?_⟩
            beta_reduce; rw [WithTypenameItem]
            exact ⟨ts, _, rfl, h1, .inr ⟨_, h3, hd⟩⟩
    have key : ∀ l, (∀ i ∈ l, i ∈ fs) → SameOutcome
        (fun kvs kvs' => kvs.map (·.1) = (stripItems l).map (fun f => Val.str f.resultKey) ∧
          ∃ vs', kvs' = (l.map fun f => Val.str f.resultKey).zip vs' ∧ l.length = vs'.length ∧
          ∀ KVS, (∀ kv ∈ kvs, dget KVS kv.1 = some kv.2) → WithTypenameItems types tn (.record ts) l KVS vs')
        ((stripItems l).mapM fun i => (do
          let v ← dnItem H idx types none (.record ts) x i
          pure (Val.str i.resultKey, v) : Except Err _))
        (l.mapM fun i => (do
          let v ← dnItem H idx types (some tn) (.record ts) x i
          pure (Val.str i.resultKey, v) : Except Err _)) := by
      intro l
      induction l with
      | nil =>
        intro _
        refine ⟨[], rfl, rfl, [], rfl, rfl, ?_⟩
        intro _ _; rw [WithTypenameItems]
      | cons i r ihr =>
        intro hm
        have ihr := ihr fun x hx => hm x (by simp [hx])
        have hmi := hm i (by simp)
        rw [stripItems, List.mapM_cons]
        by_cases hne : i.name = TYPENAME
        · -- the type name
          cases i with
          | link n q o a => exact absurd hne (namedSel_items hs hmi).1
          | field n o a =>
            have hne' : n = TYPENAME := hne
            rw [if_neg (by simpa using hne)]
            have e1 : dnItem H idx types (some tn) (.record ts) x (.field n o a) = .ok (.str tn) := by
              simp [dnItem, hne']
            rw [e1]
            unfold SameOutcome at ihr ⊢
            split
            · rename_i kvs hk
              rw [hk] at ihr
              obtain ⟨kvs', e2, e3, vs', rfl, e4, e5⟩ := ihr
              refine ⟨_, by rw [e2]; rfl, e3, .str tn :: vs', rfl, by simp [e4], ?_⟩
              intro KVS hK
              rw [WithTypenameItems]
              refine ⟨_, vs', rfl, e5 KVS hK, ?_⟩
              rw [if_pos ⟨hne, rfl⟩]
            · rename_i e hk
              rw [hk] at ihr
              have ihr : _ = Except.error e := ihr
              rw [ihr]; rfl
        · rw [if_pos hne, List.mapM_cons]
          have h1 : SameOutcome (fun kv kv' : Val × Val => kv.1 = Val.str i.resultKey ∧ kv'.1 = Val.str i.resultKey ∧
              WithTypenameItem types (.record ts) i kv.2 kv'.2)
            (do let v ← dnItem H idx types none (.record ts) x (stripItem i)
                pure (Val.str (stripItem i).resultKey, v))
            (do let v ← dnItem H idx types (some tn) (.record ts) x i
                pure (Val.str i.resultKey, v)) := by
            refine (one i hmi hne).bind fun v v' hv => ?_
            exact ⟨_, rfl, by rw [stripItem_key], rfl, hv⟩
          refine h1.bind fun kv kv' hkv => ?_
          refine ihr.bind fun kvs kvs' hkvs => ?_
          obtain ⟨k, v⟩ := kv
          obtain ⟨k', v'⟩ := kv'
          obtain ⟨rfl, rfl, hv⟩ := hkv
          obtain ⟨e3, vs', rfl, e4, e5⟩ := hkvs
          refine ⟨_, rfl, ?_, v' :: vs', rfl, by simp [e4], ?_⟩
          · simp only [List.map_cons, e3, stripItem_key]
          · intro KVS hK
            rw [WithTypenameItems]
            refine ⟨v', vs', rfl, e5 KVS fun kv hkv => hK kv (by simp [hkv]), ?_⟩
            rw [if_neg (by rintro ⟨h, _⟩; exact hne h)]
            exact ⟨v, hK (_, v) (by simp), hv⟩
    have hnd : ((fs.map QItem.resultKey).map Val.str).Nodup := nodup_str hu.1
    refine (key fs fun _ h => h).bind fun kvs kvs' hkvs => ?_
    obtain ⟨e3, vs', rfl, e4, e5⟩ := hkvs
    refine ⟨_, rfl, ?_⟩
    beta_reduce; rw [WithTypename]
    have hsub : ∀ l : List QItem, ((stripItems l).map (fun f => Val.str f.resultKey)).Sublist
        (l.map fun f => Val.str f.resultKey) := by
      intro l
      induction l with
      | nil => simp [stripItems]
      | cons i r ih =>
        rw [stripItems]
        split
        · rw [List.map_cons, List.map_cons, stripItem_key]; exact ih.cons_cons _
        · exact ih.cons _
    have hnd' : (kvs.map (·.1)).Nodup := by
      rw [e3]
      refine (hsub fs).nodup ?_
      simpa [Function.comp_def] using hnd
    refine ⟨kvs, vs', by rw [dmk_eq_self _ hnd'], ?_, ?_⟩
    · rw [dmk_eq_self]
      rw [zip_keys (k := fun f : QItem => Val.str f.resultKey) e4]
      simpa [Function.comp_def] using hnd
    · exact e5 kvs fun kv hkv => dget_of_mem_nodup hnd' hkv

/-- C22: on the result of the query without `__typename`, `DenormalizeGraphQL` gives what `Denormalize`
gives with the names of the enclosing types added. -/
theorem c22_typename {rq q : QNode} {ts : List (String × Ty)} (hts : dget g.types rootName = some (.record ts))
    (hs : NamedSel g.types ts q) (hu : UniqueKeys q) (tn : String) {v : Val}
    (hv : denormalizeQ H idx g none rq (stripNode q) = .ok v) :
    ∃ v', denormalizeQ H idx g (some tn) rq q = .ok v' ∧ WithTypename g.types tn (.record ts) q v v' := by
  have h := typename_node (H := H) (idx := idx) g.types q ts tn (.proxy (.ref rootName rootIdent) rq) hs hu
  rw [denormalizeQ, hts] at hv ⊢
  simp only at hv ⊢
  cases hd : dnNode H idx g.types none (.record ts) (.proxy (.ref rootName rootIdent) rq) [] (stripNode q) with
  | error e => rw [hd] at hv; cases hv
  | ok d =>
    rw [hd] at hv h
    cases hv
    obtain ⟨d', h1, h2⟩ := h
    exact ⟨.dict d', by rw [h1]; rfl, h2⟩

/-- ... and fails only with the exception with which `Denormalize` fails -/
theorem c22_error {rq q : QNode} {ts : List (String × Ty)} (hts : dget g.types rootName = some (.record ts))
    (hs : NamedSel g.types ts q) (hu : UniqueKeys q) (tn : String) {e : Err}
    (hv : denormalizeQ H idx g none rq (stripNode q) = .error e) :
    denormalizeQ H idx g (some tn) rq q = .error e := by
  have h := typename_node (H := H) (idx := idx) g.types q ts tn (.proxy (.ref rootName rootIdent) rq) hs hu
  rw [denormalizeQ, hts] at hv ⊢
  simp only at hv ⊢
  cases hd : dnNode H idx g.types none (.record ts) (.proxy (.ref rootName rootIdent) rq) [] (stripNode q) with
  | ok d => rw [hd] at hv; cases hv
  | error e' =>
    rw [hd] at hv h
    cases hv
    have h : _ = Except.error e := h
    rw [h]; rfl

end Hiku

namespace Hiku

/-! ### Examples -/

/-- a graph with a named record type: `Root([Field('img', TypeRef['Image'], f), Field('imgs',
Sequence[TypeRef['Image']], f), Link('user', Optional[TypeRef['User']], f, requires=None)])` -/
def exDnImg : GField := { name := "img", ty := some (.ref "Image"), func := .plain { id := 1 } }
def exDnImgs : GField := { name := "imgs", ty := some (.sequence (.ref "Image")), func := .plain { id := 1 } }
def exDnUser : GLink :=
  { name := "user", typeEnum := .maybe, node := "User", func := { id := 2 }, requires := none }
def exDnName : GField := { name := "name", ty := some .string, func := .plain { id := 3 } }
def exDnNode : GNode := { name := some "User", fields := [.field exDnName] }
def exDnGraph : Graph where
  items := [exDnNode, { name := none, fields := [.field exDnImg, .field exDnImgs, .link exDnUser] }]
  dataTypes := [("Image", .record [("id", .integer), ("name", .string)])]

def exDnHash : PyHash := { atom := fun _ => 0, pairs := fun _ => 0, ints := fun _ => 0 }

def exDnImage (n : Int) : Val := .dict [(.str "id", .int n), (.str "name", .str "pic")]

def exDnIdx : Index :=
  [((rootName, rootIdent, "img"), exDnImage 1),
   ((rootName, rootIdent, "imgs"), .list [exDnImage 1, exDnImage 2]),
   ((rootName, rootIdent, "user"), .ref "User" (.int 7)),
   (("User", .int 7, "name"), .str "Ann")]

/-- `{ img { id } user { n: name } }` -/
def exDnQ : QNode := .mk [.link "img" (.mk [.field "id" none none] false) none none,
  .link "user" (.mk [.field "name" none (some "n")] false) none none] false

theorem exDnQ_plain : PlainSel exDnGraph exDnGraph.root exDnQ := by
  rw [exDnQ, PlainSel, PlainSelItems, PlainSelItems, PlainSelItems]
  refine ⟨.inr ⟨exDnImg, .ref "Image", _, rfl, rfl, ?_, .inr (.inr ⟨"Image", rfl, rfl, rfl, by decide⟩)⟩,
    .inl ⟨exDnUser, exDnNode, rfl, rfl, ?_⟩, trivial⟩
  · rw [RecordSel, RecordSelItems, RecordSelItems]
    exact ⟨⟨rfl, _, rfl⟩, trivial⟩
  · rw [PlainSel, PlainSelItems, PlainSelItems]
    exact ⟨rfl, trivial⟩

/-- C21 applies to the example, and the value is not trivial -/
example : denormalizeQ exDnHash exDnIdx exDnGraph none exDnQ exDnQ = denormalize exDnHash exDnIdx exDnGraph exDnQ ∧
    denormalize exDnHash exDnIdx exDnGraph exDnQ = .ok (.dict [(.str "img", .dict [(.str "id", .int 1)]),
      (.str "user", .dict [(.str "n", .str "Ann")])]) :=
  ⟨c21_agree rfl exDnQ_plain, rfl⟩

/-- C20 applies to it as well -/
example : ∃ v, denormalize exDnHash exDnIdx exDnGraph exDnQ = .ok v ∧
    NodeShape exDnHash exDnIdx exDnGraph exDnGraph.root rootName rootIdent exDnQ v := by
  refine c20_shape (by simp [exDnQ, UniqueKeys, UniqueKeysItems, QItem.resultKey, QItem.alias_, QItem.name]) ?_
  rw [exDnQ, Stored, StoredItems, StoredItems, StoredItems, StoredItem, StoredItem]
  refine ⟨⟨exDnImage 1, rfl, .inr ⟨exDnImg, _, _, rfl, rfl, rfl, rfl, ?_⟩⟩,
    ⟨.ref "User" (.int 7), rfl, .inl ⟨exDnUser, exDnNode, rfl, rfl, ?_⟩⟩, trivial⟩
  · rw [Fits]
    refine ⟨_, _, rfl, by simp [QNode.fields], ?_⟩
    intro f hf
    simp [QNode.fields] at hf
    subst hf
    refine ⟨.int 1, rfl, ?_⟩
    rw [FitsField]
    exact .inl ⟨rfl, by simp [Fits]⟩
  · refine .inr ⟨.int 7, rfl, ?_⟩
    rw [Stored, StoredItems, StoredItems, StoredItem]
    exact ⟨⟨rfl, _, rfl⟩, trivial⟩

/-- The restriction of C21 is needed: on a selection in a list of named records `{ imgs { id } }`
`denormalize` raises AssertionError while `Denormalize` gives the value ... -/
theorem c21_named_list : ∃ q, UniqueKeys q ∧
    denormalize exDnHash exDnIdx exDnGraph q = .error .assertionError ∧
    denormalizeQ exDnHash exDnIdx exDnGraph none q q =
      .ok (.dict [(.str "imgs", .list [.dict [(.str "id", .int 1)], .dict [(.str "id", .int 2)]])]) :=
  ⟨.mk [.link "imgs" (.mk [.field "id" none none] false) none none] false,
    by simp [UniqueKeys, UniqueKeysItems], rfl, rfl⟩

/-- ... and on an alias inside of a record `{ img { x: id } }` `denormalize` ignores the alias while
`Denormalize` raises KeyError. -/
theorem c21_record_alias : ∃ q, UniqueKeys q ∧
    denormalize exDnHash exDnIdx exDnGraph q = .ok (.dict [(.str "img", .dict [(.str "id", .int 1)])]) ∧
    denormalizeQ exDnHash exDnIdx exDnGraph none q q = .error .keyError :=
  ⟨.mk [.link "img" (.mk [.field "id" none (some "x")] false) none none] false,
    by simp [UniqueKeys, UniqueKeysItems], rfl, rfl⟩

/-- `{ __typename user { t: __typename n: name } }` -/
def exDnTq : QNode := .mk [.field "__typename" none none,
  .link "user" (.mk [.field "__typename" none (some "t"), .field "name" none (some "n")] false) none none] false

/-- the hypotheses of C22 can be met -/
example : ∃ v v', denormalizeQ exDnHash exDnIdx exDnGraph none (stripNode exDnTq) (stripNode exDnTq) = .ok v ∧
    denormalizeQ exDnHash exDnIdx exDnGraph (some "Query") (stripNode exDnTq) exDnTq = .ok v' ∧
    v = .dict [(.str "user", .dict [(.str "n", .str "Ann")])] ∧
    v' = .dict [(.str "__typename", .str "Query"),
      (.str "user", .dict [(.str "t", .str "User"), (.str "n", .str "Ann")])] ∧
    ∃ ts, WithTypename exDnGraph.types "Query" (.record ts) exDnTq v v' := by
  obtain ⟨v', h1, h2⟩ := c22_typename (H := exDnHash) (idx := exDnIdx) (g := exDnGraph) (rq := stripNode exDnTq)
    (q := exDnTq) (ts := [("img", .ref "Image"), ("imgs", .sequence (.ref "Image")), ("user", .optional (.ref "User"))])
    rfl (by
      rw [exDnTq, NamedSel, NamedSelItems, NamedSelItems, NamedSelItems]
      refine ⟨⟨by decide, _, "User", _, rfl, .inr (.inr rfl), rfl, ?_⟩, trivial⟩
      rw [NamedSel, NamedSelItems, NamedSelItems, NamedSelItems]
      trivial)
    (by simp [exDnTq, UniqueKeys, UniqueKeysItems, QItem.resultKey, QItem.alias_, QItem.name]) "Query"
    (v := .dict [(.str "user", .dict [(.str "n", .str "Ann")])]) rfl
  refine ⟨_, v', rfl, h1, rfl, ?_, _, h2⟩
  have h3 : denormalizeQ exDnHash exDnIdx exDnGraph (some "Query") (stripNode exDnTq) exDnTq =
    .ok (.dict [(.str "__typename", .str "Query"),
      (.str "user", .dict [(.str "t", .str "User"), (.str "n", .str "Ann")])]) := rfl
  rw [h3] at h1
  cases h1
  rfl

/-- `__typename` with a selection is removed before the query is validated and executed, and then
`DenormalizeGraphQL` raises KeyError: the restriction in `NamedSel` is needed. -/
theorem c22_typename_selection : ∃ q, UniqueKeys q ∧ stripNode q = .mk [] false ∧
    denormalizeQ exDnHash exDnIdx exDnGraph (some "Query") (stripNode q) q = .error .keyError :=
  ⟨.mk [.link "__typename" (.mk [.field "x" none none] false) none none] false,
    by simp [UniqueKeys, UniqueKeysItems], by simp [stripNode, stripItems, QItem.name, TYPENAME], rfl⟩

end Hiku
