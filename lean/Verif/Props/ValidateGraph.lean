import Verif.Spec.ValidateGraph
import Verif.Proofs.Dict
import Mathlib.Data.List.Nodup
import Mathlib.Data.List.Count

/-! # C27: `Graph()` accepts exactly the well-formed graphs -/

namespace Hiku

theorem mem_duplicates {names : List String} {k : String} : k ∈ duplicates names ↔ 1 < names.count k := by
  unfold duplicates
  rw [List.mem_filterMap]
  constructor
  · rintro ⟨⟨k', _⟩, h1, h2⟩
    split at h2
    · cases h2; assumption
    · cases h2
  · intro h
    have hm : k ∈ names := List.count_pos_iff.1 (by omega)
    have h2 : k ∈ (dmk (names.map fun n => (n, ()))).map (·.1) := by
      rw [mem_keys_dmk]
      simpa using hm
    obtain ⟨⟨k', u⟩, h3, h4⟩ := List.mem_map.1 h2
    cases h4
    exact ⟨(k', u), h3, by simp only; rw [if_pos h]⟩

theorem duplicates_nil {names : List String} : duplicates names = [] ↔ names.Nodup := by
  rw [List.nodup_iff_count_le_one, List.eq_nil_iff_forall_not_mem]
  constructor
  · intro h a
    have := h a
    rw [mem_duplicates] at this
    omega
  · intro h a
    rw [mem_duplicates]
    have := h a
    omega

theorem rawNames_mem {fs : List RawField} {n : String} : n ∈ rawNames fs ↔ HasName fs n := by
  rw [rawNames, List.mem_filterMap, HasName]
  constructor
  · rintro ⟨f, h1, h2⟩
    cases f with
    | other => cases h2
    | item i ok => cases h2; exact ⟨i, ok, h1, rfl⟩
  · rintro ⟨i, ok, h1, rfl⟩
    exact ⟨_, h1, rfl⟩

theorem rawNames_nodup {fs : List RawField} : (rawNames fs).Nodup ↔ DistinctNames fs := by
  rw [rawNames, DistinctNames, List.Nodup, List.pairwise_filterMap]
  constructor
  · intro h
    refine h.imp fun {a b} hab i ok j ok' e1 e2 => ?_
    subst e1; subst e2
    exact hab _ rfl _ rfl
  · intro h
    refine h.imp fun {a b} hab x hx y hy => ?_
    cases a with
    | other => cases hx
    | item i ok =>
      cases b with
      | other => cases hy
      | item j ok' => cases hx; cases hy; exact hab _ _ _ _ rfl rfl

theorem rawNodeNames_mem {items : List RawNode} {n : String} :
    n ∈ rawNodeNames items ↔ ∃ fs, .node (some n) fs ∈ items := by
  rw [rawNodeNames, List.mem_filterMap]
  constructor
  · rintro ⟨f, h1, h2⟩
    cases f with
    | other => cases h2
    | node m fs => cases h2; exact ⟨fs, h1⟩
  · rintro ⟨fs, h1⟩
    exact ⟨_, h1, rfl⟩

theorem rawNodeNames_nodup {items : List RawNode} : (rawNodeNames items).Nodup ↔
    items.Pairwise fun a b => ∀ n fs m fs', a = .node (some n) fs → b = .node (some m) fs' → n ≠ m := by
  rw [rawNodeNames, List.Nodup, List.pairwise_filterMap]
  constructor
  · intro h
    refine h.imp fun {a b} hab n fs m fs' e1 e2 => ?_
    subst e1; subst e2
    exact hab _ rfl _ rfl
  · intro h
    refine h.imp fun {a b} hab x hx y hy => ?_
    cases a with
    | other => cases hx
    | node n fs =>
      cases b with
      | other => cases hy
      | node m fs' =>
        have hx : n = some x := hx
        have hy : m = some y := hy
        subst hx; subst hy
        exact hab _ _ _ _ rfl rfl

theorem gvItem_nil {names : List String} {label : String} {own : List String} {f : RawField} :
    gvItem names label own f = [] ↔ ∀ l ok, f = .item (.link l) ok →
      ok = true ∧ l.node ∈ names ∧ ∀ r, l.requires = some r → r ∈ own := by
  cases f with
  | other => simp [gvItem]
  | item i ok =>
    cases i with
    | field => simp [gvItem]
    | link l =>
      cases ok with
      | false => simp [gvItem]
      | true =>
        simp only [gvItem]
        cases hr : l.requires with
        | none => simp [hr]
        | some r => simp [hr]

theorem any_other_fields {fs : List RawField} : fs.any RawField.isOther = true ↔ ¬ ∀ f ∈ fs, f ≠ .other := by
  rw [List.any_eq_true]
  constructor
  · rintro ⟨f, h1, h2⟩ h
    cases f with
    | other => exact h _ h1 rfl
    | item => cases h2
  · intro h
    rw [Classical.not_forall] at h
    obtain ⟨f, h⟩ := h
    rw [Classical.not_imp] at h
    obtain ⟨h1, h2⟩ := h
    have h2 := Classical.not_not.1 h2
    subst h2
    exact ⟨_, h1, rfl⟩

theorem any_other_nodes {fs : List RawNode} : fs.any RawNode.isOther = true ↔ ¬ ∀ f ∈ fs, f ≠ .other := by
  rw [List.any_eq_true]
  constructor
  · rintro ⟨f, h1, h2⟩ h
    cases f with
    | other => exact h _ h1 rfl
    | node => cases h2
  · intro h
    rw [Classical.not_forall] at h
    obtain ⟨f, h⟩ := h
    rw [Classical.not_imp] at h
    obtain ⟨h1, h2⟩ := h
    have h2 := Classical.not_not.1 h2
    subst h2
    exact ⟨_, h1, rfl⟩

theorem gvNode_nil {items : List RawNode} {label : String} {fs : List RawField} :
    gvNode (rawNodeNames items) label fs = [] ↔ NodeWF items fs := by
  rw [gvNode]
  split
  · rename_i h
    rw [any_other_fields] at h
    exact ⟨fun e => (by cases e), fun w => absurd w.items_ok h⟩
  · rename_i h
    rw [any_other_fields, Classical.not_not] at h
    rw [List.append_eq_nil_iff, List.flatMap_eq_nil_iff]
    have hd : (if (duplicates (rawNames fs)).isEmpty = true then ([] : List GErr)
        else [.duplicatedNames label (duplicates (rawNames fs))]) = [] ↔ DistinctNames fs := by
      rw [← rawNames_nodup, ← duplicates_nil]
      cases duplicates (rawNames fs) <;> simp
    simp only [gvItem_nil]
    rw [hd]
    constructor
    · rintro ⟨h1, h2⟩
      exact ⟨h, h2, fun l ok hm => (h1 _ hm l ok rfl).1,
        fun l ok hm => rawNodeNames_mem.1 (h1 _ hm l ok rfl).2.1,
        fun l ok r hm hr => rawNames_mem.1 ((h1 _ hm l ok rfl).2.2 r hr)⟩
    · intro w
      refine ⟨?_, w.distinct⟩
      rintro f hf l ok rfl
      exact ⟨w.options l ok hf, rawNodeNames_mem.2 (w.target l ok hf),
        fun r hr => rawNames_mem.2 (w.required l ok r hf hr)⟩

theorem graphErrors_nil {items : List RawNode} : graphErrors items = [] ↔ GraphWF items := by
  rw [graphErrors]
  split
  · rename_i h
    rw [any_other_nodes] at h
    exact ⟨fun e => (by cases e), fun w => absurd w.nodes_ok h⟩
  · rename_i h
    rw [any_other_nodes, Classical.not_not] at h
    rw [List.append_eq_nil_iff, List.append_eq_nil_iff, List.flatMap_eq_nil_iff, gvNode_nil]
    have hd : (if (duplicates (rawNodeNames items)).isEmpty = true then ([] : List GErr)
        else [.duplicatedNodes (duplicates (rawNodeNames items))]) = [] ↔
        items.Pairwise fun a b => ∀ n fs m fs', a = .node (some n) fs → b = .node (some m) fs' → n ≠ m := by
      rw [← rawNodeNames_nodup, ← duplicates_nil]
      cases duplicates (rawNodeNames items) <;> simp
    have hd2 : (let d := duplicates (rawNodeNames items)
        if d.isEmpty = true then ([] : List GErr) else [.duplicatedNodes d]) = [] ↔
        items.Pairwise fun a b => ∀ n fs m fs', a = .node (some n) fs → b = .node (some m) fs' → n ≠ m := hd
    rw [hd2]
    constructor
    · rintro ⟨⟨h1, h2⟩, h3⟩
      refine ⟨h, h3, ?_⟩
      rintro fs (rfl | ⟨n, hn⟩)
      · exact h1
      · exact gvNode_nil.1 (h2 _ hn)
    · intro w
      refine ⟨⟨w.nodes _ (.inl rfl), ?_⟩, w.distinct⟩
      intro x hx
      cases x with
      | other => rfl
      | node n fs =>
        cases n with
        | none => rfl
        | some n => exact gvNode_nil.2 (w.nodes fs (.inr ⟨n, hx⟩))

/-- C27: `Graph(items)` raises GraphValidationError if and only if the items are not a well-formed
graph. -/
theorem c27_graph (items : List RawNode) (types : List (String × Ty)) :
    ((∃ g, mkGraph items types = .ok g) ↔ GraphWF items) ∧
    (mkGraph items types = .error .graphValidationError ↔ ¬ GraphWF items) := by
  rw [← graphErrors_nil, mkGraph]
  cases h : graphErrors items with
  | nil => simp
  | cons e r => simp

/-! ### What is reported -/

/-- C27: the duplicated names which are reported for a node are exactly those which occur more than once -/
theorem c27_duplicates (names : List String) (k : String) : k ∈ duplicates names ↔ 1 < names.count k :=
  mem_duplicates

/-- C27: for items of the right classes, each link of a node to a missing node and each missing requirement is
reported, and nothing else is reported about links. -/
theorem c27_links {items : List RawNode} (hn : ∀ x ∈ items, x ≠ .other)
    (hf : ∀ fs, GraphNode items fs → ∀ f ∈ fs, f ≠ .other) :
    (∀ link target, (∃ label, .missingNode label link target ∈ graphErrors items) ↔
      ∃ fs l, GraphNode items fs ∧ .item (.link l) true ∈ fs ∧ l.name = link ∧ l.node = target ∧
        ¬ ∃ fs', .node (some target) fs' ∈ items) ∧
    (∀ link r, (∃ label, .missingRequired label link r ∈ graphErrors items) ↔
      ∃ fs l, GraphNode items fs ∧ .item (.link l) true ∈ fs ∧ l.name = link ∧ l.requires = some r ∧
        ¬ HasName fs r) := by
  have hmem : ∀ e : GErr, (∀ d, e ≠ .duplicatedNodes d) → (∀ l d, e ≠ .duplicatedNames l d) →
      ((∃ fs label, GraphNode items fs ∧ (label = "root" ∧ fs = rawRoot items ∨
          ∃ n, label = rawLabel (some n) ∧ .node (some n) fs ∈ items) ∧
        ∃ f ∈ fs, e ∈ gvItem (rawNodeNames items) label (rawNames fs) f) ↔ e ∈ graphErrors items) := by
    intro e he1 he2
    have hnode : ∀ fs label, GraphNode items fs → (e ∈ gvNode (rawNodeNames items) label fs ↔
        ∃ f ∈ fs, e ∈ gvItem (rawNodeNames items) label (rawNames fs) f) := by
      intro fs label hg
      rw [gvNode, if_neg (by rw [any_other_fields, Classical.not_not]; exact hf fs hg), List.mem_append, List.mem_flatMap]
      constructor
      · rintro (h | h)
        · exact h
        · simp only at h
          split at h
          · cases h
          · simp at h; exact absurd h (he2 _ _)
      · exact .inl
    rw [graphErrors, if_neg (by rw [any_other_nodes, Classical.not_not]; exact hn), List.mem_append, List.mem_append,
      List.mem_flatMap]
    constructor
    · rintro ⟨fs, label, hg, (⟨rfl, rfl⟩ | ⟨n, rfl, hm⟩), hi⟩
      · exact .inl (.inl ((hnode _ _ hg).2 hi))
      · exact .inl (.inr ⟨_, hm, (hnode _ _ hg).2 hi⟩)
    · rintro ((h | ⟨x, hx, h⟩) | h)
      · exact ⟨_, _, .inl rfl, .inl ⟨rfl, rfl⟩, (hnode _ _ (.inl rfl)).1 h⟩
      · cases x with
        | other => cases h
        | node n fs =>
          cases n with
          | none => cases h
          | some n =>
            exact ⟨fs, _, .inr ⟨n, hx⟩, .inr ⟨n, rfl, hx⟩, (hnode fs _ (.inr ⟨n, hx⟩)).1 h⟩
      · simp only at h
        split at h
        · cases h
        · simp at h; exact absurd h (he1 _)
  have hlabel : ∀ fs, GraphNode items fs → ∃ label, (label = "root" ∧ fs = rawRoot items ∨
          ∃ n, label = rawLabel (some n) ∧ .node (some n) fs ∈ items) := by
    rintro fs (rfl | ⟨n, h⟩)
    · exact ⟨_, .inl ⟨rfl, rfl⟩⟩
    · exact ⟨_, .inr ⟨n, rfl, h⟩⟩
  constructor
  · intro link target
    constructor
    · rintro ⟨label, h⟩
      rw [← hmem _ (by simp) (by simp)] at h
      obtain ⟨fs, label', hg, _, f, hf', h⟩ := h
      cases f with
      | other => cases h
      | item i ok =>
        cases i with
        | field => cases h
        | link l =>
          cases ok with
          | false => simp [gvItem] at h
          | true =>
            simp only [gvItem] at h
            cases hr : l.requires with
            | none =>
              simp [hr] at h
              obtain ⟨h1, h2, h3, h4⟩ := h
              exact ⟨fs, l, hg, hf', h3.symm, h4.symm, by rw [h4, ← rawNodeNames_mem]; exact h1⟩
            | some r =>
              simp [hr] at h
              obtain ⟨h1, h2, h3, h4⟩ := h
              exact ⟨fs, l, hg, hf', h3.symm, h4.symm, by rw [h4, ← rawNodeNames_mem]; exact h1⟩
    · rintro ⟨fs, l, hg, hm, rfl, rfl, hno⟩
      obtain ⟨label, hl⟩ := hlabel fs hg
      refine ⟨label, (hmem _ (by simp) (by simp)).1 ⟨fs, label, hg, hl, _, hm, ?_⟩⟩
      rw [← rawNodeNames_mem] at hno
      simp [gvItem, hno]
  · intro link r
    constructor
    · rintro ⟨label, h⟩
      rw [← hmem _ (by simp) (by simp)] at h
      obtain ⟨fs, label', hg, _, f, hf', h⟩ := h
      cases f with
      | other => cases h
      | item i ok =>
        cases i with
        | field => cases h
        | link l =>
          cases ok with
          | false => simp [gvItem] at h
          | true =>
            simp only [gvItem] at h
            cases hr : l.requires with
            | none => simp [hr] at h
            | some r' =>
              simp [hr] at h
              obtain ⟨h1, h2, h3, h4⟩ := h
              exact ⟨fs, l, hg, hf', h3.symm, by rw [h4, hr], by rw [h4, ← rawNames_mem]; exact h1⟩
    · rintro ⟨fs, l, hg, hm, rfl, hr, hno⟩
      obtain ⟨label, hl⟩ := hlabel fs hg
      refine ⟨label, (hmem _ (by simp) (by simp)).1 ⟨fs, label, hg, hl, _, hm, ?_⟩⟩
      rw [← rawNames_mem] at hno
      simp [gvItem, hno, hr]

/-! ### The graph behind -/

theorem rawItems_root (items : List RawNode) (types : List (String × Ty)) :
    ({ items := rawItems items, dataTypes := types } : Graph).root.fields = rawFields (rawRoot items) := by
  simp only [Graph.root]
  induction items with
  | nil => rfl
  | cons x r ih =>
    cases x with
    | other => simpa [rawItems, rawRoot] using ih
    | node n fs =>
      cases n with
      | some n => simpa [rawItems, rawRoot] using ih
      | none =>
        simp only [rawItems, rawRoot, List.filterMap_cons, List.flatMap_cons, rawFields, List.filterMap_append] at ih ⊢
        simp only [List.filter_cons, Option.isNone_none, if_true, List.flatMap_cons, ih]

theorem rawItems_names (items : List RawNode) :
    (rawItems items).filterMap (fun n => n.name.map fun s => (s, n)) =
      items.filterMap fun
        | .node (some n) fs => some (n, ({ name := some n, fields := rawFields fs } : GNode))
        | _ => none := by
  induction items with
  | nil => rfl
  | cons x r ih =>
    cases x with
    | other => simpa [rawItems] using ih
    | node n fs => cases n <;> simpa [rawItems] using ih

theorem mem_rawFields {fs : List RawField} {i : GItem} : i ∈ rawFields fs ↔ ∃ ok, .item i ok ∈ fs := by
  rw [rawFields, List.mem_filterMap]
  constructor
  · rintro ⟨f, h1, h2⟩
    cases f with
    | other => cases h2
    | item j ok => cases h2; exact ⟨ok, h1⟩
  · rintro ⟨ok, h⟩; exact ⟨_, h, rfl⟩

/-- a node of a well-formed graph is found under its name -/
theorem mkGraph_node {items : List RawNode} {types : List (String × Ty)} {g : Graph} (h : mkGraph items types = .ok g)
    {n : String} {gn : GNode} :
    g.node n = some gn ↔ ∃ fs, .node (some n) fs ∈ items ∧ gn = { name := some n, fields := rawFields fs } := by
  have hw : GraphWF items := (c27_graph items types).1.1 ⟨g, h⟩
  have hg : g = { items := rawItems items, dataTypes := types } := by
    rw [mkGraph, if_pos (by rw [graphErrors_nil.2 hw]; rfl)] at h
    cases h; rfl
  subst hg
  rw [Graph.node, Graph.nodesMap]
  simp only [rawItems_names]
  have hk : ((items.filterMap fun
        | .node (some n) fs => some (n, ({ name := some n, fields := rawFields fs } : GNode))
        | _ => none).map (·.1)) = rawNodeNames items := by
    rw [rawNodeNames, List.map_filterMap]
    congr 1
    funext x
    cases x with
    | other => rfl
    | node n fs => cases n <;> rfl
  have hnd := rawNodeNames_nodup.2 hw.distinct
  rw [← hk] at hnd
  rw [dget_dmk_nodup _ hnd]
  constructor
  · intro h
    have hm := dget_mem h
    rw [List.mem_filterMap] at hm
    obtain ⟨x, h1, h2⟩ := hm
    cases x with
    | other => cases h2
    | node m fs =>
      cases m with
      | none => cases h2
      | some m => cases h2; exact ⟨fs, h1, rfl⟩
  · rintro ⟨fs, h1, rfl⟩
    refine dget_of_mem_nodup hnd ?_
    rw [List.mem_filterMap]
    exact ⟨_, h1, rfl⟩

/-- a field or a link of a well-formed node is found under its name -/
theorem rawFields_get {items : List RawNode} {fs : List RawField} (hw : NodeWF items fs) {gn : GNode}
    (hgn : gn.fields = rawFields fs) {n : String} {i : GItem} :
    gn.get n = some i ↔ (∃ ok, .item i ok ∈ fs) ∧ i.name = n := by
  have hk : ((gn.fields.map fun f => (f.name, f)).map (·.1)) = rawNames fs := by
    rw [hgn, rawNames, rawFields, List.map_map, List.map_filterMap]
    congr 1
    funext x
    cases x <;> rfl
  have hnd := rawNames_nodup.2 hw.distinct
  rw [← hk] at hnd
  rw [GNode.get, GNode.fieldsMap, dget_dmk_nodup _ hnd]
  constructor
  · intro h
    have hm := dget_mem h
    obtain ⟨j, h1, h2⟩ := List.mem_map.1 hm
    cases h2
    rw [hgn, mem_rawFields] at h1
    exact ⟨h1, rfl⟩
  · rintro ⟨h1, rfl⟩
    exact dget_of_mem_nodup hnd (List.mem_map.2 ⟨i, by rw [hgn, mem_rawFields]; exact h1, rfl⟩)

/-- C27: in every graph which is accepted, every link which can be looked up points to a node which can be
looked up, and requires a name which can be looked up in its node. -/
theorem c27_lookups {items : List RawNode} {types : List (String × Ty)} {g : Graph} (h : mkGraph items types = .ok g)
    {gn : GNode} (hgn : gn = g.root ∨ ∃ m, g.node m = some gn) {n : String} {l : GLink} (hl : gn.get n = some (.link l)) :
    (∃ t, g.node l.node = some t) ∧ ∀ r, l.requires = some r → ∃ i, gn.get r = some i := by
  have hw : GraphWF items := (c27_graph items types).1.1 ⟨g, h⟩
  have hfs : ∃ fs, GraphNode items fs ∧ gn.fields = rawFields fs := by
    rcases hgn with rfl | ⟨m, hm⟩
    · refine ⟨_, .inl rfl, ?_⟩
      rw [mkGraph, if_pos (by rw [graphErrors_nil.2 hw]; rfl)] at h
      cases h
      exact rawItems_root items types
    · obtain ⟨fs, h1, rfl⟩ := (mkGraph_node h).1 hm
      exact ⟨fs, .inr ⟨m, h1⟩, rfl⟩
  obtain ⟨fs, h1, h2⟩ := hfs
  have hn := hw.nodes fs h1
  obtain ⟨⟨ok, h3⟩, _⟩ := (rawFields_get hn h2).1 hl
  constructor
  · obtain ⟨fs', h4⟩ := hn.target l ok h3
    exact ⟨_, (mkGraph_node h).2 ⟨fs', h4, rfl⟩⟩
  · intro r hr
    obtain ⟨i, ok', h5, h6⟩ := hn.required l ok r h3 hr
    exact ⟨i, (rawFields_get hn h2).2 ⟨⟨ok', h5⟩, h6⟩⟩

/-! ### Examples -/

def exRawField (n : String) : RawField := .item (.field { name := n, ty := none, func := .plain { id := 0 } }) true
def exRawLink (n target : String) (req : Option String) : RawField :=
  .item (.link { name := n, typeEnum := .one, node := target, func := { id := 1 }, requires := req }) true

/-- accepted: two roots, a link with a requirement -/
example : ∃ g, mkGraph [.node (some "A") [exRawField "id", exRawLink "b" "B" (some "id")],
    .node (some "B") [exRawField "id"], .node none [exRawField "x"], .node none [exRawLink "a" "A" (some "x")]] [] = .ok g :=
  ⟨_, rfl⟩

/-- rejected: the same name in two roots, a missing node, a missing requirement, a duplicated node -/
example : graphErrors [.node (some "A") [exRawField "id", exRawLink "b" "C" none],
    .node (some "A") [exRawField "id"], .node none [exRawField "x"], .node none [exRawField "x", exRawLink "a" "A" (some "y")]] =
  [.missingRequired "root" "a" "y", .duplicatedNames "root" ["x"], .missingNode "A" "b" "C", .duplicatedNodes ["A"]] :=
  rfl

/-- The requirement may be a link, which the engine cannot use as a field: such graphs are accepted. -/
theorem c27_requires_link : ∃ g gn l, mkGraph [.node (some "A") [exRawLink "b" "A" none, exRawLink "c" "A" (some "b")]] [] = .ok g ∧
    g.node "A" = some gn ∧ gn.get "c" = some (.link l) ∧ ∃ l', l.requires = some l'.name ∧ gn.get l'.name = some (.link l') :=
  ⟨_, _, _, rfl, rfl, rfl,
    { name := "b", typeEnum := .one, node := "A", func := { id := 1 }, requires := none }, rfl, rfl⟩

end Hiku
