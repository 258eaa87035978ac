import Verif.Spec.Simple
import Verif.Props.Edn
import Verif.Props.Merge

/-! # C29: queries survive export to and reading from EDN -/

namespace Hiku

variable {P : PyText} {th : String → Option (Val → Except Err Val)} {H : PyHash} {pyStr : Val → String}

/-! ### Nested nodes may be merged first -/

theorem isLink_field {n : String} {o : Opts} {a : Option String} : (QItem.field n o a).isLink = false := rfl
theorem isLink_link {n : String} {q : QNode} {o : Opts} {a : Option String} : (QItem.link n q o a).isLink = true := rfl

/-- a link whose node is merged -/
def mergeInner (H : PyHash) : QItem → QItem
  | .field n o a => .field n o a
  | .link n q o a => .link n (merge H [q]) o a

theorem merge_inner (H : PyHash) (items : List QItem) (ord : Bool) :
    merge H [.mk (items.map (mergeInner H)) ord] = merge H [.mk items ord] := by
  have hf : ∀ l : List QItem, fieldItems (l.map (mergeInner H)) = fieldItems l := by
    intro l
    induction l with
    | nil => rfl
    | cons i r ih =>
      unfold fieldItems at ih ⊢
      cases i with
      | field n o a => simp [mergeInner, isLink_field, ih]
      | link n q o a => simp [mergeInner, isLink_link, ih]
  have hl : ∀ l : List QItem, (linkItems (l.map (mergeInner H))).map QItem.trip = (linkItems l).map QItem.trip := by
    intro l
    induction l with
    | nil => rfl
    | cons i r ih =>
      unfold linkItems at ih ⊢
      cases i with
      | field n o a => simp [mergeInner, isLink_field, ih]
      | link n q o a =>
        rw [List.map_cons, mergeInner, List.filter_cons_of_pos rfl, List.filter_cons_of_pos rfl, List.map_cons, List.map_cons, ih]
        rfl
  have hn : ∀ (k : MKey) (l : List QItem), nodesOf H k (l.map (mergeInner H)) = (nodesOf H k l).map fun q => merge H [q] := by
    intro k l
    induction l with
    | nil => rfl
    | cons i r ih =>
      unfold nodesOf at ih ⊢
      cases i with
      | field n o a => simpa [mergeInner] using ih
      | link n q o a =>
        simp only [mergeInner, List.map_cons]
        by_cases hk : (n, optionsHash H o, a) = k
        · rw [List.filterMap_cons_some (b := merge H [q]) (by simp [hk]), List.filterMap_cons_some (b := q) (by simp [hk])]
          simp [ih]
        · rw [List.filterMap_cons_none (by simp [hk]), List.filterMap_cons_none (by simp [hk])]
          exact ih
  have hg : ∀ k, merge H (nodesOf H k (items.map (mergeInner H))) = merge H (nodesOf H k items) := by
    intro k
    rw [hn]
    have := c02_merge_grouping H ((nodesOf H k items).map fun q => [q])
    rw [List.map_map] at this
    rw [show (fun q => merge H [q]) = merge H ∘ fun q => [q] from rfl, this]
    congr 1
    induction nodesOf H k items with
    | nil => rfl
    | cons x r ih => simp [ih]
  rw [merge_trip, merge_trip]
  simp only [List.flatMap_cons, List.flatMap_nil, List.append_nil, QNode.fields, hf, hl, hg]
  rfl

/-! ### Values -/

mutual
theorem encode_view : (v : Val) → Exportable v → simpleEncode pyStr v = .ok (ednView v)
  | .none, _ | .bool _, _ | .int _, _ | .float _, _ | .str _, _ | .kw _, _ | .sym _, _ => rfl
  | .nothing, h | .seq .tup _, h | .seq .elist _, h | .seq .etup _, h | .tagged .., h | .ref .., h => by simp [Exportable] at h
  | .seq .list xs, h => by
    simp [simpleEncode, ednView, encode_views xs (by simpa [Exportable] using h)]
  | .seq .set xs, h => by
    simp [simpleEncode, ednView, encode_views xs (by simpa [Exportable] using h)]
  | .seq .eset xs, h => by
    simp [simpleEncode, ednView, encode_views xs (by simpa [Exportable] using h)]
  | .map k kvs, h => by
    simp [simpleEncode, ednView, encode_viewKvs kvs (by simpa [Exportable] using h)]
theorem encode_views : (xs : List Val) → Exportables xs → simpleEncodeList pyStr xs = .ok (ednViews xs)
  | [], _ => rfl
  | x :: r, h => by
    simp only [Exportables] at h
    simp [simpleEncodeList, ednViews, encode_view x h.1, encode_views r h.2]
theorem encode_viewKvs : (kvs : List (Val × Val)) → ExportableKvs kvs → simpleEncodeKvs pyStr kvs = .ok (ednViewKvs kvs)
  | [], _ => rfl
  | (k, v) :: r, h => by
    simp only [ExportableKvs] at h
    obtain ⟨⟨s, rfl⟩, h1, h2⟩ := h
    simp [simpleEncodeKvs, ednViewKvs, encode_view v h1, encode_viewKvs r h2, keywordOf]
end

theorem hashables_iff (xs : List Val) : hashables xs = true ↔ ∀ x ∈ xs, x.hashable = true := by
  induction xs with
  | nil => simp [hashables]
  | cons x r ih => simp [hashables, ih]

theorem hashableKvs_iff (kvs : List (Val × Val)) : hashableKvs kvs = true ↔ ∀ kv ∈ kvs, kv.1.hashable = true ∧ kv.2.hashable = true := by
  induction kvs with
  | nil => simp [hashableKvs]
  | cons x r ih => simp [hashableKvs, ih]

theorem mem_mkSet {xs : List Val} {x : Val} (h : x ∈ mkSet xs) : x ∈ xs := by
  have : ∀ (xs acc : List Val), x ∈ xs.foldl (fun acc x => if x ∈ acc then acc else acc ++ [x]) acc → x ∈ acc ∨ x ∈ xs := by
    intro xs
    induction xs with
    | nil => intro acc h; exact .inl h
    | cons y r ih =>
      intro acc h
      rw [List.foldl_cons] at h
      rcases ih _ h with h | h
      · split at h
        · exact .inl h
        · rcases List.mem_append.1 h with h | h
          · exact .inl h
          · simp at h; subst h; exact .inr List.mem_cons_self
      · exact .inr (List.mem_cons_of_mem _ h)
  rcases this xs [] h with h | h
  · cases h
  · exact h

theorem mem_of_mem_dmk {α β : Type} [DecidableEq α] {l : List (α × β)} {kv : α × β} (h : kv ∈ dmk l) : kv ∈ l := by
  have hset : ∀ (l : List (α × β)) k v, kv ∈ dset l k v → kv ∈ l ∨ kv = (k, v) := by
    intro l k v
    induction l with
    | nil => intro h; simp [dset] at h; exact .inr h
    | cons x r ih =>
      intro h
      obtain ⟨k', v'⟩ := x
      rw [dset] at h
      split at h
      · rcases List.mem_cons.1 h with h | h
        · exact .inr h
        · exact .inl (List.mem_cons_of_mem _ h)
      · rcases List.mem_cons.1 h with h | h
        · exact .inl (by rw [h]; exact List.mem_cons_self)
        · rcases ih h with h | h
          · exact .inl (List.mem_cons_of_mem _ h)
          · exact .inr h
  have : ∀ (l acc : List (α × β)), kv ∈ l.foldl (fun d kv => dset d kv.1 kv.2) acc → kv ∈ acc ∨ kv ∈ l := by
    intro l
    induction l with
    | nil => intro acc h; exact .inl h
    | cons y r ih =>
      intro acc h
      rw [List.foldl_cons] at h
      rcases ih _ h with h | h
      · rcases hset _ _ _ h with h | h
        · exact .inl h
        · exact .inr (by rw [h]; exact List.mem_cons_self)
      · exact .inr (List.mem_cons_of_mem _ h)
  rcases this l [] h with h | h
  · cases h
  · exact h

mutual
theorem view_hashable : (v : Val) → Exportable v → (ednView v).hashable = true
  | .none, _ | .bool _, _ | .int _, _ | .float _, _ | .str _, _ | .kw _, _ | .sym _, _ => rfl
  | .nothing, h | .seq .tup _, h | .seq .elist _, h | .seq .etup _, h | .tagged .., h | .ref .., h => by simp [Exportable] at h
  | .seq .list xs, h => by
    simp only [ednView, Val.hashable]
    exact (hashables_iff _).2 (views_hashable xs (by simpa [Exportable] using h))
  | .seq .set xs, h => by
    simp only [ednView, Val.hashable]
    exact (hashables_iff _).2 fun x hx => views_hashable xs (by simpa [Exportable] using h) x (mem_mkSet hx)
  | .seq .eset xs, h => by
    simp only [ednView, Val.hashable]
    exact (hashables_iff _).2 fun x hx => views_hashable xs (by simpa [Exportable] using h) x (mem_mkSet hx)
  | .map k kvs, h => by
    simp only [ednView, Val.hashable]
    exact (hashableKvs_iff _).2 fun x hx => viewKvs_hashable kvs (by simpa [Exportable] using h) x (mem_of_mem_dmk hx)
theorem views_hashable : (xs : List Val) → Exportables xs → ∀ x ∈ ednViews xs, x.hashable = true
  | [], _ => fun x hx => by cases hx
  | y :: r, h => by
    simp only [Exportables] at h
    intro x hx
    rcases List.mem_cons.1 hx with rfl | hx
    · exact view_hashable y h.1
    · exact views_hashable r h.2 x hx
theorem viewKvs_hashable : (kvs : List (Val × Val)) → ExportableKvs kvs → ∀ x ∈ ednViewKvs kvs, x.1.hashable = true ∧ x.2.hashable = true
  | [], _ => fun x hx => by cases hx
  | (k, v) :: r, h => by
    simp only [ExportableKvs] at h
    obtain ⟨⟨s, rfl⟩, h1, h2⟩ := h
    intro x hx
    rcases List.mem_cons.1 hx with rfl | hx
    · exact ⟨rfl, view_hashable v h1⟩
    · exact viewKvs_hashable r h2 x hx
end

/-! ### The exported value -/

/-- the options as `edn.Dict` -/
def optsEdn (kvs : List (String × Val)) : Val := .map .edict (kvs.map fun kv => (.kw kv.1, ednView kv.2))

def headEdn (n : String) : Opts → Val
  | none => .kw n
  | some kvs => .seq .etup [.kw n, optsEdn kvs]

mutual
def itemEdn : QItem → Val
  | .field n o _ => headEdn n o
  | .link n q o _ => .map .edict [(headEdn n o, nodeEdn q)]
def nodeEdn : QNode → Val
  | .mk fs _ => .seq .elist (itemsEdn fs)
def itemsEdn : List QItem → List Val
  | [] => []
  | i :: r => itemEdn i :: itemsEdn r
end

theorem kw_inj {a b : String} (h : Val.kw a = Val.kw b) : a = b := by cases h; rfl

theorem keys_nodup_kw {kvs : List (String × Val)} (h : (kvs.map (·.1)).Nodup) :
    ((kvs.map fun kv => ((.kw kv.1 : Val), ednView kv.2)).map (·.1)).Nodup := by
  rw [List.map_map]
  have : (kvs.map ((fun x : Val × Val => x.1) ∘ fun kv => ((.kw kv.1 : Val), ednView kv.2))) = (kvs.map (·.1)).map Val.kw := by
    rw [List.map_map]; rfl
  rw [this]
  exact List.Pairwise.map _ (fun a b hne he => hne (kw_inj he)) h

theorem exportHead_ok {ascii : Bool} {n : String} {o : Opts} (h : SimpleOpts P th ascii o) :
    exportHead pyStr n o = .ok (headEdn n o) := by
  cases o with
  | none => rfl
  | some kvs =>
    obtain ⟨h1, h2⟩ := h
    have hx : ∀ kvs : List (String × Val), (∀ kv ∈ kvs, KwSafe kv.1 ∧ Exportable kv.2 ∧ EdnVal P th ascii (ednView kv.2)) →
        ExportableKvs (kvs.map fun kv => (.str kv.1, kv.2)) ∧
        ednViewKvs (kvs.map fun kv => (.str kv.1, kv.2)) = kvs.map fun kv => (.kw kv.1, ednView kv.2) := by
      intro kvs
      induction kvs with
      | nil => intro _; exact ⟨trivial, rfl⟩
      | cons x r ih =>
        intro h
        obtain ⟨i1, i2⟩ := ih fun kv hkv => h kv (List.mem_cons_of_mem _ hkv)
        refine ⟨⟨⟨_, rfl⟩, (h x List.mem_cons_self).2.1, i1⟩, ?_⟩
        simp only [List.map_cons, ednViewKvs, i2]
    obtain ⟨i1, i2⟩ := hx kvs h2
    have he : simpleEncode pyStr (optsVal kvs) = .ok (optsEdn kvs) := by
      rw [encode_view (optsVal kvs) (by simpa [optsVal, Exportable] using i1)]
      simp only [optsVal, ednView, i2, optsEdn]
      rw [dmk_nodup (keys_nodup_kw h1)]
    simp [exportHead, he, headEdn]

mutual
theorem exportItem_ok {ascii : Bool} : (i : QItem) → SimpleItem P th ascii i → exportItem pyStr i = .ok (itemEdn i)
  | .field n o a, h => by
    simp only [SimpleItem] at h
    simp [exportItem, itemEdn, exportHead_ok h.2]
  | .link n q o a, h => by
    simp only [SimpleItem] at h
    simp [exportItem, itemEdn, exportHead_ok h.2.1, exportNode_ok q h.2.2]
theorem exportNode_ok {ascii : Bool} : (q : QNode) → SimpleQuery P th ascii q → exportNode pyStr q = .ok (nodeEdn q)
  | .mk fs ord, h => by
    simp only [SimpleQuery] at h
    simp [exportNode, nodeEdn, exportItems_ok fs h]
theorem exportItems_ok {ascii : Bool} : (fs : List QItem) → SimpleItems P th ascii fs → exportItems pyStr fs = .ok (itemsEdn fs)
  | [], _ => rfl
  | i :: r, h => by
    simp only [SimpleItems] at h
    simp [exportItems, itemsEdn, exportItem_ok i h.1, exportItems_ok r h.2]
end

theorem keys_distinct_kw (hP : P.Ok) {kvs : List (String × Val)} (h : (kvs.map (·.1)).Nodup) :
    Distinct P ((kvs.map fun kv => ((.kw kv.1 : Val), ednView kv.2)).map (·.1)) := by
  have e : ((kvs.map fun kv => ((.kw kv.1 : Val), ednView kv.2)).map (·.1)) = (kvs.map (·.1)).map Val.kw := by
    simp [List.map_map, Function.comp_def]
  rw [e]
  refine List.Pairwise.map _ (fun a b hne => ?_) h
  cases he : P.eq (.kw a) (.kw b) with
  | false => rfl
  | true => exact absurd (hP.kw a b he) hne

theorem headEdn_ok (hP : P.Ok) {ascii : Bool} {n : String} {o : Opts} (hn : KwSafe n) (h : SimpleOpts P th ascii o) :
    EdnVal P th ascii (headEdn n o) ∧ (headEdn n o).hashable = true := by
  cases o with
  | none => exact ⟨hn, rfl⟩
  | some kvs =>
    obtain ⟨h1, h2⟩ := h
    have hk : ∀ kvs : List (String × Val), (∀ kv ∈ kvs, KwSafe kv.1 ∧ Exportable kv.2 ∧ EdnVal P th ascii (ednView kv.2)) →
        EdnKvs P th ascii (kvs.map fun kv => (.kw kv.1, ednView kv.2)) := by
      intro kvs
      induction kvs with
      | nil => intro _; trivial
      | cons x r ih =>
        intro h
        exact ⟨(h x List.mem_cons_self).1, (h x List.mem_cons_self).2.2, ih fun kv hkv => h kv (List.mem_cons_of_mem _ hkv)⟩
    refine ⟨?_, ?_⟩
    · simp only [headEdn, EdnVal, EdnVals, optsEdn, and_true]
      refine ⟨⟨hn, hk kvs h2, ?_, keys_distinct_kw hP h1, ?_⟩, ?_⟩
      · apply lastOk_all
        intro v hv
        rw [List.map_map] at hv
        obtain ⟨x, hx, rfl⟩ := List.mem_map.1 hv
        exact view_hashable _ (h2 x hx).2.1
      · intro kv hkv
        obtain ⟨x, _, rfl⟩ := List.mem_map.1 hkv
        rfl
      · intro x hx; cases hx; exact id
    · simp only [headEdn, Val.hashable, hashables, optsEdn, Bool.and_true, Bool.true_and]
      refine (hashableKvs_iff _).2 fun kv hkv => ?_
      obtain ⟨x, hx, rfl⟩ := List.mem_map.1 hkv
      exact ⟨rfl, view_hashable _ (h2 x hx).2.1⟩

theorem nodeEdn_dangling (q : QNode) : ¬ (nodeEdn q).Dangling := by
  cases q with
  | mk fs ord => simp [nodeEdn, Val.Dangling]

theorem itemsEdn_dangling (fs : List QItem) : ∀ x ∈ itemsEdn fs, ¬ x.Dangling := by
  induction fs with
  | nil => intro x hx; simp [itemsEdn] at hx
  | cons i r ih =>
    intro x hx
    rw [itemsEdn] at hx
    rcases List.mem_cons.1 hx with rfl | hx
    · cases i with
      | field n o a => cases o <;> simp [itemEdn, headEdn, Val.Dangling]
      | link n q o a => simp [itemEdn, Val.Dangling]
    · exact ih x hx

mutual
theorem itemEdn_ok (hP : P.Ok) {ascii : Bool} : (i : QItem) → SimpleItem P th ascii i → EdnVal P th ascii (itemEdn i)
  | .field n o a, h => by
    simp only [SimpleItem] at h
    exact (headEdn_ok hP h.1 h.2).1
  | .link n q o a, h => by
    simp only [SimpleItem] at h
    obtain ⟨h1, h2⟩ := headEdn_ok hP h.1 h.2.1
    simp only [itemEdn, EdnVal, EdnKvs, and_true]
    refine ⟨⟨h1, nodeEdn_ok hP q h.2.2⟩, ?_, by simp [Distinct], by simpa using h2⟩
    intro x hx
    cases hx
    exact nodeEdn_dangling q
theorem nodeEdn_ok (hP : P.Ok) {ascii : Bool} : (q : QNode) → SimpleQuery P th ascii q → EdnVal P th ascii (nodeEdn q)
  | .mk fs ord, h => by
    simp only [SimpleQuery] at h
    simp only [nodeEdn, EdnVal]
    refine ⟨itemsEdn_ok hP fs h, ?_⟩
    intro x hx
    exact itemsEdn_dangling fs x (List.mem_of_getLast? hx)
theorem itemsEdn_ok (hP : P.Ok) {ascii : Bool} : (fs : List QItem) → SimpleItems P th ascii fs → EdnVals P th ascii (itemsEdn fs)
  | [], _ => trivial
  | i :: r, h => by
    simp only [SimpleItems] at h
    exact ⟨itemEdn_ok hP i h.1, itemsEdn_ok hP r h.2⟩
end

/-! ### Reading -/

theorem simpleOptions_ok {ascii : Bool} {n : String} {kvs : List (String × Val)} (h : SimpleOpts P th ascii (some kvs)) :
    simpleOptions [.kw n, optsEdn kvs] = .ok (n, kvs.map fun kv => (kv.1, ednView kv.2)) := by
  have hk : ∀ kvs : List (String × Val), kwOpts (kvs.map fun kv => (.kw kv.1, ednView kv.2)) = .ok (kvs.map fun kv => (kv.1, ednView kv.2)) := by
    intro kvs
    induction kvs with
    | nil => rfl
    | cons x r ih => simp [kwOpts, ih]
  simp only [simpleOptions, optsEdn, hk, ok_bind']
  rw [dmk_nodup (by rw [List.map_map]; exact h.1)]

mutual
theorem transform_item {ascii : Bool} : (i : QItem) → SimpleItem P th ascii i → ∀ r,
    simpleExtract H (itemEdn i :: r) = (simpleExtract H r >>= fun b => .ok (mergeInner H (viewItem i) :: b))
  | .field n none a, _ => fun r => by
    simp only [itemEdn, headEdn, simpleExtract, viewItem, viewOpts, mergeInner, Option.map]
  | .field n (some kvs) a, h => fun r => by
    simp only [SimpleItem] at h
    simp only [itemEdn, headEdn, simpleExtract, simpleOptions_ok h.2, viewItem, viewOpts, mergeInner, Option.map, ok_bind']
  | .link n q none a, h => fun r => by
    simp only [SimpleItem] at h
    simp only [itemEdn, headEdn, simpleExtract, simpleLinks, transform_node q h.2.2, viewItem, viewOpts, mergeInner, Option.map, ok_bind']
    rfl
  | .link n q (some kvs) a, h => fun r => by
    simp only [SimpleItem] at h
    simp only [itemEdn, headEdn, simpleExtract, simpleLinks, transform_node q h.2.2, simpleOptions_ok h.2.1, viewItem, viewOpts, mergeInner, Option.map, ok_bind']
    rfl
theorem transform_node {ascii : Bool} : (q : QNode) → SimpleQuery P th ascii q →
    simpleTransform H (nodeEdn q) = .ok (merge H [viewQuery q])
  | .mk fs ord, h => by
    simp only [SimpleQuery] at h
    simp only [nodeEdn, simpleTransform, transform_items fs h, ok_bind', viewQuery, merge_inner]
theorem transform_items {ascii : Bool} : (fs : List QItem) → SimpleItems P th ascii fs →
    simpleExtract H (itemsEdn fs) = .ok ((viewItems fs).map (mergeInner H))
  | [], _ => by simp [itemsEdn, simpleExtract, viewItems]
  | i :: r, h => by
    simp only [SimpleItems] at h
    simp only [itemsEdn, transform_item i h.1, transform_items r h.2, viewItems, List.map_cons, ok_bind']
end

/-- C29: the text of every exportable query is read as the merged query with the same names, nesting and options (the
option values as EDN values, `ednView`), without aliases. -/
theorem c29_view (hP : P.Ok) (ascii : Bool) (H : PyHash) (pyStr : Val → String) {q : QNode} (h : SimpleQuery P th ascii q) :
    ∃ v t, exportNode pyStr q = .ok v ∧ dumps ascii v = .ok t ∧ simpleRead P th H t = .ok (merge H [viewQuery q]) := by
  obtain ⟨t, h1, h2⟩ := c28_partial hP ascii (nodeEdn_ok hP q h)
  refine ⟨nodeEdn q, t, exportNode_ok q h, h1, ?_⟩
  rw [simpleRead, h2]
  exact transform_node q h

theorem view_scalar {v : Val} (h : v.Scalar) : ednView v = v := by
  cases v with
  | atom a => rfl
  | seq k xs => exact h.elim
  | map k kvs => exact h.elim
  | tagged t v => exact h.elim
  | ref n i => exact h.elim

theorem viewOpts_plain {o : Opts} (h : ∀ kvs ∈ o, ∀ kv ∈ kvs, Val.Scalar kv.2) : viewOpts o = o := by
  cases o with
  | none => rfl
  | some kvs =>
    have h := h kvs rfl
    simp only [viewOpts, Option.map]
    congr 1
    have : ∀ kv ∈ kvs, (kv.1, ednView kv.2) = kv := fun kv hkv => by rw [view_scalar (h kv hkv)]
    simpa using List.map_congr_left this

mutual
theorem viewItem_plain : (i : QItem) → BareItem i → viewItem i = i
  | .field n o a, h => by
    simp only [BareItem] at h
    obtain ⟨rfl, h⟩ := h
    simp only [viewItem, viewOpts_plain h]
  | .link n q o a, h => by
    simp only [BareItem] at h
    obtain ⟨rfl, h, hq⟩ := h
    simp only [viewItem, viewOpts_plain h, viewQuery_plain q hq]
theorem viewQuery_plain : (q : QNode) → BareQuery q → viewQuery q = q
  | .mk fs ord, h => by
    simp only [BareQuery] at h
    obtain ⟨rfl, h⟩ := h
    simp only [viewQuery, viewItems_plain fs h]
theorem viewItems_plain : (fs : List QItem) → BareItems fs → viewItems fs = fs
  | [], _ => rfl
  | i :: r, h => by
    simp only [BareItems] at h
    simp only [viewItems, viewItem_plain i h.1, viewItems_plain r h.2]
end

/-- C29, for the queries without aliases and `ordered` nodes, whose options are scalars: `read(dumps(export(q)))` is
`merge([q])`.  Missing from the full statement, because it is false there (`c29_*` below): aliases, mutations, options
which are lists or dicts. -/
theorem c29_partial (hP : P.Ok) (ascii : Bool) (H : PyHash) (pyStr : Val → String) {q : QNode} (h : SimpleQuery P th ascii q)
    (hp : BareQuery q) :
    ∃ v t, exportNode pyStr q = .ok v ∧ dumps ascii v = .ok t ∧ simpleRead P th H t = .ok (merge H [q]) := by
  obtain ⟨v, t, h1, h2, h3⟩ := c29_view hP ascii H pyStr h
  rw [viewQuery_plain q hp] at h3
  exact ⟨v, t, h1, h2, h3⟩

/-! ### The assumptions can be met, and counterexamples -/

/-- `[:a (:b {:x "1" :y nil}) {:c [{:e [:g]}]} {(:c {}) [:a]}]` -/
def exSimple : QNode :=
  .mk [.field "a" none none, .field "b" (some [("x", .str "1"), ("y", .none)]) none,
    .link "c" (.mk [.link "e" (.mk [.field "g" none none] false) none none] false) none none,
    .link "c" (.mk [.field "a" none none] false) (some []) none] false

theorem charsOk {s : String} (h : (s.toList.all fun c => decide (c ∉ symEnd)) = true) : KwSafe s := by
  intro c hc
  simpa using List.all_eq_true.1 h c hc

theorem exSimple_ok : SimpleQuery exPyText noTags true exSimple := by
  simp only [exSimple, SimpleQuery, SimpleItems, SimpleItem, SimpleOpts, and_true, true_and]
  refine ⟨charsOk (by decide), ⟨charsOk (by decide), by decide, ?_⟩, ⟨charsOk (by decide), charsOk (by decide), charsOk (by decide)⟩,
    charsOk (by decide), ⟨by decide, fun kv h => by cases h⟩, charsOk (by decide)⟩
  intro kv hkv
  simp only [List.mem_cons, List.not_mem_nil, or_false] at hkv
  rcases hkv with rfl | rfl
  · refine ⟨charsOk (by decide), trivial, ?_⟩
    simp only [ednView, EdnVal]
    intro c hc
    have : c ∈ ['1'] := by simpa using hc
    simp only [List.mem_cons, List.not_mem_nil, or_false] at this
    subst this
    exact .inr (by decide)
  · exact ⟨charsOk (by decide), trivial, trivial⟩

theorem exSimple_plain : BareQuery exSimple := by
  simp only [exSimple, BareQuery, BareItems, BareItem, and_true, true_and]
  refine ⟨by simp, fun kvs h kv hkv => ?_, by simp, by simp⟩
  cases h
  simp only [List.mem_cons, List.not_mem_nil, or_false] at hkv
  rcases hkv with rfl | rfl <;> trivial

example : ∃ v t, exportNode (fun _ => "") exSimple = .ok v ∧ dumps true v = .ok t ∧
    simpleRead exPyText noTags exHash t = .ok (merge exHash [exSimple]) :=
  c29_partial exPyText_ok true exHash _ exSimple_ok exSimple_plain

/-- the query, its text and what is read from it -/
def ReadsAs (H : PyHash) (q q' : QNode) : Prop :=
  ∃ v t, exportNode (fun _ => "") q = .ok v ∧ dumps true v = .ok t ∧ simpleRead exPyText noTags H t = .ok q'

/-- an alias is lost -/
theorem c29_alias (H : PyHash) : ReadsAs H (.mk [.field "a" none (some "b")] false) (.mk [.field "a" none none] false) :=
  ⟨_, _, rfl, rfl, rfl⟩

/-- the query of a mutation is read as an unordered one -/
theorem c29_ordered (H : PyHash) : ReadsAs H (.mk [.field "a" none none] true) (.mk [.field "a" none none] false) :=
  ⟨_, _, rfl, rfl, rfl⟩

/-- an option value `[None]` comes back as `edn.List`, which is a tuple -/
theorem c29_list (H : PyHash) : ReadsAs H (.mk [.field "a" (some [("x", .list [.none])]) none] false)
    (.mk [.field "a" (some [("x", .elist [.none])]) none] false) :=
  ⟨_, _, rfl, rfl, rfl⟩

/-- the keys of an option value `{'k': None}` come back as keywords -/
theorem c29_dict (H : PyHash) : ReadsAs H (.mk [.field "a" (some [("x", .dict [(.str "k", .none)])]) none] false)
    (.mk [.field "a" (some [("x", .edict [(.kw "k", .none)])]) none] false) :=
  ⟨_, _, rfl, rfl, rfl⟩

/-- a name with a space changes the query: `Field('a :b')` is read as two fields -/
theorem c29_name (H : PyHash) : ReadsAs H (.mk [.field "a :b" none none] false)
    (.mk [.field "a" none none, .field "b" none none] false) :=
  ⟨_, _, rfl, rfl, rfl⟩

/-- options of other types cannot be exported -/
theorem c29_unsupported (n : String) (a : Option String) (ord : Bool) :
    exportNode pyStr (.mk [.field n (some [("x", .tup [])]) a] ord) = .error .typeError := rfl

end Hiku
