import Verif.Props.IntrospectGraph
import Verif.Props.IntrospectSchema
import Verif.Props.Semantics

/-! # C44: queries of a graph with introspection -/

namespace Hiku.Intro
open Hiku.Transform Hiku.Telemetry

variable {env : Env} {U : String → Opts → Prop} {D : Data} {base gi : Nat} {dumps : Val → Except Err String}
  {s : Schema} {g g' : Graph}

/-- the node `gn` of the graph number `j` (with introspection) extends the node `gn0` of the original one -/
structure OldNode (env : Env) (gi j : Nat) (g1 : Graph) (gn : GNode) (g0 : Graph) (gn0 : GNode) : Prop where
  graph : env.sys.graphs[j]? = some g0
  isNode : IsNode g0 gn0
  name : gn0.name = gn.name
  get : ∀ y i, gn0.get y = some i → gn.get y = some i
  notIntro : ∀ nm, gn.name = some nm → ¬ (j = gi ∧ nm ∈ introNames)
  node : ∀ nm, gn.name = some nm → g0.node nm = some gn0
  root : gn.name = none → gn0 = g0.root
  nodes : ∀ m t, g0.node m = some t → ∃ t', g1.node m = some t' ∧ ∀ y i, t.get y = some i → t'.get y = some i

theorem root_name (g : Graph) : g.root.name = none := rfl

theorem isNode_cases {g : Graph} {gn : GNode} (h : IsNode g gn) :
    (gn.name = none ∧ gn = g.root) ∨ ∃ nm, gn.name = some nm ∧ g.node nm = some gn := by
  rcases h with rfl | ⟨nm, h⟩
  · exact .inl ⟨rfl, rfl⟩
  · exact .inr ⟨nm, (node_mem h).2, h⟩

/-- where an item of the system with introspection comes from -/
theorem item_cases (hg : env.sys.graphs[gi]? = some g) (hi : Introspected base g g') {j : Nat} {g1 : Graph}
    (hj : (introEnv base dumps s env gi g g').sys.graphs[j]? = some g1) {gn : GNode} (hn : IsNode g1 gn)
    {x : String} {i : GItem} (hx : gn.get x = some i) (ht : x ≠ "__typename") :
    (∃ g0 gn0, OldNode env gi j g1 gn g0 gn0 ∧ gn0.get x = some i) ∨
    (j = gi ∧ g1 = g' ∧ ∃ t ∈ introItems base, t.name = gn.name ∧ (gn.name.isSome → gn = t) ∧ i ∈ t.fields ∧ i.name = x) := by
  simp only [introEnv] at hj
  by_cases he : gi = j
  · subst he
    rw [List.getElem?_set_self (List.getElem?_eq_some_iff.1 hg).1] at hj
    cases hj
    have hnodes : ∀ m t, g.node m = some t → ∃ t', g'.node m = some t' ∧ ∀ y i, t.get y = some i → t'.get y = some i :=
      fun m t ht => ⟨_, hi.node_old ht, fun y i h => (hi.get_old ht).2 (.inl h)⟩
    rcases isNode_cases hn with ⟨h1, rfl⟩ | ⟨nm, h1, h2⟩
    · rcases hi.get_root.1 hx with h | ⟨_, h, _⟩ | h
      · refine .inl ⟨g, g.root, ⟨hg, .inl rfl, rfl, fun y i h => hi.get_root.2 (.inl h), ?_, ?_, fun _ => rfl, hnodes⟩, h⟩
        · intro nm h; rw [h1] at h; cases h
        · intro nm h; rw [h1] at h; cases h
      · exact absurd h ht
      · refine .inr ⟨rfl, rfl, introRoot base, by simp [introItems], h1.symm ▸ rfl, ?_, h.1, h.2⟩
        intro h; rw [h1] at h; cases h
    · rcases hi.node h2 with ⟨t, h3, rfl⟩ | ⟨h3, _, h4⟩
      · rcases (hi.get_old h3).1 hx with h | h
        · refine .inl ⟨g, t, ⟨hg, .inr ⟨nm, h3⟩, rfl, fun y i h => (hi.get_old h3).2 (.inl h), ?_, ?_, ?_, hnodes⟩, h⟩
          · rintro nm' h ⟨_, h5⟩
            rw [h1] at h; cases h
            exact hi.notIntro (node_mem h3).1 (node_mem h3).2 h5
          · intro nm' h
            rw [h1] at h; cases h
            exact h3
          · intro h; rw [h1] at h; cases h
        · exact absurd h.1 ht
      · refine .inr ⟨rfl, rfl, gn, h3, rfl, fun _ => rfl, ?_⟩
        have := get_mem hx
        exact ⟨this, (get_name hx)⟩
  · rw [List.getElem?_set_ne he] at hj
    refine .inl ⟨g1, gn, ⟨hj, hn, rfl, fun _ _ h => h, fun _ _ h => he h.1.symm, ?_, ?_, fun m t h => ⟨t, h, fun _ _ h => h⟩⟩, hx⟩
    · intro nm h
      rcases isNode_cases hn with ⟨h1, _⟩ | ⟨nm', h1, h2⟩
      · rw [h1] at h; cases h
      · rw [h1] at h; cases h; exact h2
    · intro h
      rcases isNode_cases hn with ⟨_, h1⟩ | ⟨nm', h1, h2⟩
      · exact h1
      · rw [h1] at h; cases h

mutual
theorem itemOk_mono {g0 g1 : Graph} (hnodes : ∀ m t, g0.node m = some t → ∃ t', g1.node m = some t' ∧
      ∀ y i, t.get y = some i → t'.get y = some i) {n0 n1 : GNode}
    (hget : ∀ y i, n0.get y = some i → n1.get y = some i) : (q : QItem) → ItemOk U g0 n0 q → ItemOk U g1 n1 q
  | .field n o a, h => by
      simp only [ItemOk] at h ⊢
      obtain ⟨h1, gf, h2, h3⟩ := h
      exact ⟨h1, gf, hget _ _ h2, h3⟩
  | .link n q o a, h => by
      simp only [ItemOk] at h ⊢
      obtain ⟨h1, h | ⟨gf, h2, h3⟩⟩ := h
      · obtain ⟨gl, t, h2, h3, h4⟩ := h
        obtain ⟨t', h5, h6⟩ := hnodes _ _ h3
        exact ⟨h1, .inl ⟨gl, t', hget _ _ h2, h5, nodeOk_mono hnodes h6 q h4⟩⟩
      · exact ⟨h1, .inr ⟨gf, hget _ _ h2, h3⟩⟩
theorem nodeOk_mono {g0 g1 : Graph} (hnodes : ∀ m t, g0.node m = some t → ∃ t', g1.node m = some t' ∧
      ∀ y i, t.get y = some i → t'.get y = some i) {n0 n1 : GNode}
    (hget : ∀ y i, n0.get y = some i → n1.get y = some i) : (q : QNode) → NodeOk U g0 n0 q → NodeOk U g1 n1 q
  | .mk fs ord, h => by
      simp only [NodeOk] at h ⊢
      refine ⟨itemsOk_mono hnodes hget fs h.1, fun ho i hi hl => ?_⟩
      obtain ⟨gl, h1⟩ := h.2 ho i hi hl
      exact ⟨gl, hget _ _ h1⟩
theorem itemsOk_mono {g0 g1 : Graph} (hnodes : ∀ m t, g0.node m = some t → ∃ t', g1.node m = some t' ∧
      ∀ y i, t.get y = some i → t'.get y = some i) {n0 n1 : GNode}
    (hget : ∀ y i, n0.get y = some i → n1.get y = some i) : (l : List QItem) → ItemsOk U g0 n0 l → ItemsOk U g1 n1 l
  | [], _ => trivial
  | i :: r, h => by
      simp only [ItemsOk] at h ⊢
      exact ⟨itemOk_mono hnodes hget i h.1, itemsOk_mono hnodes hget r h.2⟩
end

/-- what has to be known about names and options in queries: `id` and `name` are loaded as requirements of
links, `__typename` is removed from queries before they are executed, `__type` is called with a name -/
structure IntroNames (U : String → Opts → Prop) : Prop where
  id : U "id" none
  name : U "name" none
  typename : ∀ o, ¬ U "__typename" o
  type : ∀ o, U "__type" o → ∃ n, dget (o.getD []) "name" = some (.str n)

theorem introEnv_graph (hg : env.sys.graphs[gi]? = some g) :
    (introEnv base dumps s env gi g g').sys.graphs[gi]? = some g' := by
  simp only [introEnv]
  rw [List.getElem?_set_self (List.getElem?_eq_some_iff.1 hg).1]

theorem introEnv_other {j : Nat} (h : j ≠ gi) :
    (introEnv base dumps s env gi g g').sys.graphs[j]? = env.sys.graphs[j]? := by
  simp only [introEnv]
  rw [List.getElem?_set_ne (Ne.symm h)]

/-- a link of the introspection graph: its node is in the introspection graph, its requirement is a field of
the node -/
theorem introLink_ok {t : GNode} (ht : t ∈ introItems base) {l : GLink} (hl : .link l ∈ t.fields) :
    (∃ t2 ∈ introItems base, t2.name = some l.node) ∧ ∀ r, l.requires = some r →
      (r = "id" ∨ r = "name") ∧ ∃ f, t.get r = some (.field f) ∧ f.options = [] := by
  simp only [introItems, List.mem_cons, List.not_mem_nil, or_false] at ht
  rcases ht with rfl | rfl | rfl | rfl | rfl | rfl | rfl <;>
    simp only [typeNode, fieldNode, inputNode, directiveNode, enumNode, schemaNode, introRoot, iField, iLink,
      List.mem_cons, List.not_mem_nil, or_false, GItem.link.injEq, reduceCtorEq, false_or] at hl
  · rcases hl with rfl | rfl | rfl | rfl | rfl | rfl <;>
      refine ⟨by simp [introItems, typeNode, fieldNode, inputNode, enumNode], fun r hr => ?_⟩ <;> cases hr <;>
      exact ⟨.inl rfl, _, rfl, rfl⟩
  · rcases hl with rfl | rfl <;>
      refine ⟨by simp [introItems, typeNode, fieldNode, inputNode, enumNode], fun r hr => ?_⟩ <;> cases hr <;>
      exact ⟨.inl rfl, _, rfl, rfl⟩
  · subst hl
    refine ⟨by simp [introItems, typeNode], fun r hr => ?_⟩
    cases hr
    exact ⟨.inl rfl, _, rfl, rfl⟩
  · subst hl
    refine ⟨by simp [introItems, inputNode], fun r hr => ?_⟩
    cases hr
    exact ⟨.inr rfl, _, rfl, rfl⟩
  · rcases hl with rfl | rfl | rfl | rfl | rfl <;>
      exact ⟨by simp [introItems, typeNode, directiveNode], fun r hr => (by cases hr)⟩
  · rcases hl with rfl | rfl <;>
      exact ⟨by simp [introItems, typeNode, schemaNode], fun r hr => (by cases hr)⟩

theorem introRoot_requires {l : GLink} (hl : .link l ∈ (introRoot base).fields) : l.requires = none := by
  simp only [introRoot, iLink, List.mem_cons, List.not_mem_nil, or_false, GItem.link.injEq] at hl
  rcases hl with rfl | rfl <;> rfl

theorem introField_plain {t : GNode} (ht : t ∈ introItems base) {f : GField} (hf : .field f ∈ t.fields) :
    ∃ k : IFun, f.func = .plain (k.func base) := by
  simp only [introItems, List.mem_cons, List.not_mem_nil, or_false] at ht
  rcases ht with rfl | rfl | rfl | rfl | rfl | rfl | rfl <;>
    simp only [typeNode, fieldNode, inputNode, directiveNode, enumNode, schemaNode, introRoot, iField, iLink,
      List.mem_cons, List.not_mem_nil, or_false, GItem.field.injEq, reduceCtorEq, false_or] at hf
  · rcases hf with rfl | rfl | rfl | rfl <;> exact ⟨_, rfl⟩
  · rcases hf with rfl | rfl | rfl | rfl | rfl <;> exact ⟨_, rfl⟩
  · rcases hf with rfl | rfl | rfl | rfl <;> exact ⟨_, rfl⟩
  · rcases hf with rfl | rfl | rfl <;> exact ⟨_, rfl⟩
  · rcases hf with rfl | rfl | rfl | rfl <;> exact ⟨_, rfl⟩

theorem rootName_not : rootName ∉ introNames := by decide

theorem not_typename_get (hU : IntroNames U) {x : String} {o : Opts} (h : U x o) : x ≠ "__typename" := by
  rintro rfl
  exact hU.typename o h

theorem typename_field (hg : env.sys.graphs[gi]? = some g) (hgood : GoodSys U env.sys) (hi : Introspected base g g') {j : Nat} {g1 : Graph}
    (hj : (introEnv base dumps s env gi g g').sys.graphs[j]? = some g1) {gn : GNode} (hn : IsNode g1 gn)
    {i : GItem} (hx : gn.get "__typename" = some i) :
    (∃ g0 gn0, OldNode env gi j g1 gn g0 gn0 ∧ gn0.get "__typename" = some i) ∨
    ∃ nm, i = typenameField base g nm := by
  simp only [introEnv] at hj
  by_cases he : gi = j
  · subst he
    rw [List.getElem?_set_self (List.getElem?_eq_some_iff.1 hg).1] at hj
    cases hj
    have hnodes : ∀ m t, g.node m = some t → ∃ t', g'.node m = some t' ∧ ∀ y i, t.get y = some i → t'.get y = some i :=
      fun m t ht => ⟨_, hi.node_old ht, fun y i h => (hi.get_old ht).2 (.inl h)⟩
    rcases isNode_cases hn with ⟨h1, rfl⟩ | ⟨nm, h1, h2⟩
    · rcases hi.get_root.1 hx with h | ⟨_, _, h⟩ | ⟨h, h'⟩
      · refine .inl ⟨g, g.root, ⟨hg, .inl rfl, rfl, fun y i h => hi.get_root.2 (.inl h), ?_, ?_, fun _ => rfl, hnodes⟩, h⟩
        · intro nm h; rw [h1] at h; cases h
        · intro nm h; rw [h1] at h; cases h
      · exact .inr ⟨_, h⟩
      · simp only [introRoot, List.mem_cons, List.not_mem_nil, or_false] at h
        rcases h with rfl | rfl <;> simp [iLink, GItem.name] at h'
    · rcases hi.node h2 with ⟨t, h3, rfl⟩ | ⟨h3, _, h4⟩
      · rcases (hi.get_old h3).1 hx with h | h
        · refine .inl ⟨g, t, ⟨hg, .inr ⟨nm, h3⟩, rfl, fun y i h => (hi.get_old h3).2 (.inl h), ?_, ?_, ?_, hnodes⟩, h⟩
          · rintro nm' h ⟨_, h5⟩
            rw [h1] at h; cases h
            exact hi.notIntro (node_mem h3).1 (node_mem h3).2 h5
          · intro nm' h
            rw [h1] at h; cases h
            exact h3
          · intro h; rw [h1] at h; cases h
        · exact .inr ⟨_, h.2⟩
      · have h5 := get_mem hx
        have h6 := get_name hx
        exact absurd h6 (mem_introFields h3 h5)
  · rw [List.getElem?_set_ne he] at hj
    refine .inl ⟨g1, gn, ⟨hj, hn, rfl, fun _ _ h => h, fun _ _ h => he h.1.symm, ?_, ?_, fun m t h => ⟨t, h, fun _ _ h => h⟩⟩, hx⟩
    · intro nm h
      rcases isNode_cases hn with ⟨h1, _⟩ | ⟨nm', h1, h2⟩
      · rw [h1] at h; cases h
      · rw [h1] at h; cases h; exact h2
    · intro h
      rcases isNode_cases hn with ⟨_, h1⟩ | ⟨nm', h1, h2⟩
      · exact h1
      · rw [h1] at h; cases h

/-- The system with introspection is well-formed. -/
theorem intro_goodSys (hgood : GoodSys U env.sys) (hU : IntroNames U) (hg : env.sys.graphs[gi]? = some g)
    (hi : Introspected base g g') : GoodSys U (introEnv base dumps s env gi g g').sys := by
  have hcase : ∀ {j : Nat} {g1 : Graph} (_ : (introEnv base dumps s env gi g g').sys.graphs[j]? = some g1) {gn : GNode} (_ : IsNode g1 gn)
      {x : String} {i : GItem} (_ : gn.get x = some i),
      (∃ g0 gn0, OldNode env gi j g1 gn g0 gn0 ∧ gn0.get x = some i) ∨ (∃ nm, i = typenameField base g nm) ∨
      (j = gi ∧ g1 = g' ∧ ∃ t ∈ introItems base, t.name = gn.name ∧ (gn.name.isSome → gn = t) ∧ i ∈ t.fields ∧ i.name = x) := by
    intro j g1 hj gn hn x i hx
    by_cases ht : x = "__typename"
    · subst ht
      rcases typename_field hg hgood hi hj hn hx with h | h
      · exact .inl h
      · exact .inr (.inl h)
    · rcases item_cases hg hi hj hn hx ht with h | h
      · exact .inl h
      · exact .inr (.inr h)
  refine ⟨hgood.this, ?_, ?_, ?_⟩
  · intro j g1 hj
    by_cases he : j = gi
    · subst he
      rw [introEnv_graph hg] at hj
      cases hj
      cases hr : g'.node rootName with
      | none => rfl
      | some t =>
        rcases hi.node hr with ⟨t0, h, _⟩ | ⟨_, _, h⟩
        · rw [hgood.nodes _ _ hg] at h; cases h
        · exact absurd h rootName_not
    · rw [introEnv_other he] at hj
      exact hgood.nodes j g1 hj
  · intro j g1 hj gn hn x l hx
    rcases hcase hj hn hx with ⟨g0, gn0, ho, h⟩ | ⟨nm, h⟩ | ⟨rfl, rfl, t, ht, hnm, hgt, hmem, rfl⟩
    · obtain ⟨⟨t, h1⟩, h2⟩ := hgood.links j g0 ho.graph gn0 ho.isNode x l h
      obtain ⟨t', h3, _⟩ := ho.nodes _ _ h1
      refine ⟨⟨t', h3⟩, fun r hr => ?_⟩
      obtain ⟨h4, h5⟩ := h2 r hr
      exact ⟨h4, itemOk_mono ho.nodes ho.get _ h5⟩
    · simp [typenameField] at h
    · obtain ⟨⟨t2, h1, h2⟩, h3⟩ := introLink_ok ht hmem
      refine ⟨⟨t2, hi.node_intro h1 h2⟩, fun r hr => ?_⟩
      obtain ⟨h4, f, h5, h6⟩ := h3 r hr
      have hu : U r none := by
        rcases h4 with rfl | rfl
        · exact hU.id
        · exact hU.name
      have hsome : gn.name.isSome := by
        cases hnn : gn.name with
        | some _ => rfl
        | none =>
          rw [hnn] at hnm
          simp only [introItems, List.mem_cons, List.not_mem_nil, or_false] at ht
          rcases ht with rfl | rfl | rfl | rfl | rfl | rfl | rfl
          all_goals first | (cases hnm; done) | skip
          rw [introRoot_requires hmem] at hr
          cases hr
      refine ⟨?_, ?_⟩
      · rcases h4 with rfl | rfl <;> decide
      · simp only [ItemOk]
        refine ⟨hu, f, ?_, ?_⟩
        · rw [hgt hsome]; exact h5
        · intro op hop
          rw [h6] at hop
          cases hop
  · intro j g1 hj gn hn x f hx sg reqs p hf
    rcases hcase hj hn hx with ⟨g0, gn0, ho, h⟩ | ⟨nm, h⟩ | ⟨rfl, rfl, t, ht, hnm, hgt, hmem, rfl⟩
    · obtain ⟨h1, s0, g2, t, h2, h3, h4, h5, h6, h7⟩ := hgood.subs j g0 ho.graph gn0 ho.isNode x f h sg reqs p hf
      refine ⟨ho.name ▸ h1, ?_⟩
      by_cases he : s0.graph = gi
      · rw [he, hg] at h4
        cases h4
        refine ⟨s0, g', withTypename base g t, h2, h3, ?_, hi.node_old h5, ?_, h7.1, h7.2.1, ?_⟩
        · rw [he]; exact introEnv_graph hg
        · cases hr : g'.root.get THIS with
          | none => rfl
          | some i =>
            rcases hi.get_root.1 hr with h | ⟨_, h, _⟩ | ⟨h, h'⟩
            · rw [h6] at h; cases h
            · exact absurd h (by decide)
            · simp only [introRoot, List.mem_cons, List.not_mem_nil, or_false] at h
              rcases h with rfl | rfl <;> simp [iLink, GItem.name, THIS] at h'
        · have hnodes : ∀ m t, g.node m = some t → ∃ t', g'.node m = some t' ∧ ∀ y i, t.get y = some i → t'.get y = some i :=
            fun m t ht => ⟨_, hi.node_old ht, fun y i h => (hi.get_old ht).2 (.inl h)⟩
          intro i hmem
          have := h7.2.2 i hmem
          by_cases hth : i.name = THIS
          · rw [if_pos hth] at this ⊢
            obtain ⟨q, hq1, hq2⟩ := this
            exact ⟨q, hq1, nodeOk_mono hnodes (fun y i h => (hi.get_old h5).2 (.inl h)) q hq2⟩
          · rw [if_neg hth] at this ⊢
            exact itemOk_mono hnodes (fun y i h => hi.get_root.2 (.inl h)) i this
      · exact ⟨s0, g2, t, h2, h3, by rw [introEnv_other he]; exact h4, h5, h6, h7⟩
    · simp only [typenameField, GItem.field.injEq] at h
      rw [h] at hf
      cases hf
    · obtain ⟨k, hk⟩ := introField_plain ht hmem
      rw [hk] at hf
      cases hf


/-! ### The semantics of the original graphs -/

section
variable (hb : Telemetry.Below env.sys base)
include hb

theorem oldField {j : Nat} {g0 : Graph} (hj : env.sys.graphs[j]? = some g0) {gn : GNode} (hn : IsNode g0 gn)
    {x : String} {gf : GField} (hx : gn.get x = some (.field gf)) {f : PFunc} (hf : gf.func = .plain f) :
    f.id < base := by
  obtain ⟨n, h1, _, h3⟩ := isNode_mem hn hx
  exact hb.fields g0 (List.mem_of_getElem? hj) n h1 gf h3 f hf

theorem oldLink {j : Nat} {g0 : Graph} (hj : env.sys.graphs[j]? = some g0) {gn : GNode} (hn : IsNode g0 gn)
    {x : String} {gl : GLink} (hx : gn.get x = some (.link gl)) : gl.func.id < base := by
  obtain ⟨n, h1, _, h3⟩ := isNode_mem hn hx
  exact hb.links g0 (List.mem_of_getElem? hj) n h1 gl h3

theorem semField_same {j : Nat} {g0 : Graph} (hj : env.sys.graphs[j]? = some g0) {gn gn' : GNode} (hn : IsNode g0 gn)
    (hname : gn.name = gn'.name) {x : String} {gf : GField} (hx : gn.get x = some (.field gf)) (sub : SubSem) (o : Opts) (i : Val) :
    semField (introData dumps s base gi D) sub gn' gf o i = semField D sub gn gf o i := by
  unfold semField
  cases hf : gf.func with
  | plain f => simp only [introData, if_pos (oldField hb hj hn hx hf), hname]
  | checked sg reqs p => rfl

theorem semName_same {j : Nat} {g0 : Graph} (hj : env.sys.graphs[j]? = some g0) {gn gn' : GNode} (hn : IsNode g0 gn)
    (hname : gn.name = gn'.name) {x : String} {gf : GField} (hx : gn.get x = some (.field gf))
    (hx' : gn'.get x = some (.field gf)) (sub : SubSem) (o : Opts) (i : Val) :
    semName (introData dumps s base gi D) sub gn' i x o = semName D sub gn i x o := by
  simp only [semName, hx, hx']
  exact semField_same hb hj hn hname hx sub o i

/-- names in one and the same graph, known or not -/
theorem semName_self {j : Nat} {g0 : Graph} (hj : env.sys.graphs[j]? = some g0) {gn : GNode} (hn : IsNode g0 gn)
    (x : String) (sub : SubSem) (o : Opts) (i : Val) :
    semName (introData dumps s base gi D) sub gn i x o = semName D sub gn i x o := by
  cases hx : gn.get x with
  | none => simp only [semName, hx]
  | some it =>
    cases it with
    | field gf => exact semName_same hb hj hn rfl hx hx sub o i
    | link gl => simp only [semName, hx]

theorem semLink_self {j : Nat} {g0 : Graph} (hj : env.sys.graphs[j]? = some g0) {gn : GNode} (hn : IsNode g0 gn)
    {x : String} {gl : GLink} (hx : gn.get x = some (.link gl)) (sub : SubSem) (o : Opts) (i : Val) :
    semLink (introData dumps s base gi D) sub gn i gl o = semLink D sub gn i gl o := by
  unfold semLink
  simp only [introData, if_pos (oldLink hb hj hn hx)]
  congr 1
  cases gl.requires with
  | none => rfl
  | some r => simp only [Option.map_some]; exact congrArg some (semName_self hb hj hn r sub none i)

mutual
theorem semItem_self {j : Nat} {g0 : Graph} (hj : env.sys.graphs[j]? = some g0) (sub : SubSem) : {gn : GNode} → IsNode g0 gn → (i : Val) →
    (q : QItem) → semItem (introData dumps s base gi D) sub g0 gn i q = semItem D sub g0 gn i q
  | gn, hn, i, .field n o a => by
      simp only [semItem]
      exact semName_self hb hj hn n sub o i
  | gn, hn, i, .link n q o a => by
      simp only [semItem]
      cases hx : gn.get n with
      | none => exact semName_self hb hj hn n sub o i
      | some it =>
        cases it with
        | field gf => exact semName_self hb hj hn n sub o i
        | link gl =>
          simp only
          cases ht : g0.node gl.node with
          | none => rfl
          | some t =>
            have ih := fun v => semNode_self hj sub (gn := t) (.inr ⟨_, ht⟩) v q
            simp only [semLink_self hb hj hn hx sub o i, ih]
theorem semNode_self {j : Nat} {g0 : Graph} (hj : env.sys.graphs[j]? = some g0) (sub : SubSem) : {gn : GNode} → IsNode g0 gn → (i : Val) →
    (q : QNode) → semNode (introData dumps s base gi D) sub g0 gn i q = semNode D sub g0 gn i q
  | gn, hn, i, .mk fs ord => by
      simp only [semNode]
      rw [semItems_self hj sub hn i fs]
theorem semItems_self {j : Nat} {g0 : Graph} (hj : env.sys.graphs[j]? = some g0) (sub : SubSem) : {gn : GNode} → IsNode g0 gn → (i : Val) →
    (q : List QItem) → semItems (introData dumps s base gi D) sub g0 gn i q = semItems D sub g0 gn i q
  | gn, hn, i, [] => rfl
  | gn, hn, i, x :: r => by
      simp only [semItems]
      rw [semItem_self hj sub hn i x, semItems_self hj sub hn i r]
end

/-- The meaning of expressions does not change: sub-graphs do not use the graph with introspection. -/
theorem semSub_same (hsub : ∀ x ∈ env.sys.subs, x.graph ≠ gi) (j : Nat) :
    semSub (introEnv base dumps s env gi g g').sys (introData dumps s base gi D) j = semSub env.sys D j := by
  induction j using Nat.strongRecOn with
  | ind j ih =>
    funext sg reqs p opts ident
    rw [semSub, semSub]
    have hss : (introEnv base dumps s env gi g g').sys.subs = env.sys.subs := rfl
    rw [hss]
    cases hs : env.sys.subs[sg]? with
    | none => rfl
    | some s0 =>
      simp only
      by_cases hlt : s0.graph < j
      · rw [dif_pos hlt, dif_pos hlt, introEnv_other (hsub s0 (List.mem_of_getElem? hs))]
        cases hg0 : env.sys.graphs[s0.graph]? with
        | none => rfl
        | some g0 =>
          simp only
          cases ht : g0.node s0.node with
          | none => rfl
          | some t =>
            cases hr : dget reqs.fieldsMap THIS with
            | none => rfl
            | some it =>
              cases it with
              | field n o a => rfl
              | link n q o a =>
                simp only [ih _ hlt]
                rw [semNode_self hb hg0 _ (.inr ⟨_, ht⟩), semNode_self hb hg0 _ (.inl rfl)]
                rfl
      · rw [dif_neg hlt, dif_neg hlt]

end


/-! ### The functions of the introspection graph -/

theorem table_get (k : IFun) : table[table.idxOf k]? = some k := by cases k <;> rfl

theorem func_not_lt (k : IFun) : ¬ (k.func base).id < base := by
  have : (k.func base).id = base + table.idxOf k := rfl
  omega

theorem func_sub (k : IFun) : (k.func base).id - base = table.idxOf k := by
  have : (k.func base).id = base + table.idxOf k := rfl
  omega

theorem func_inj {k k' : IFun} (h : k.func base = k'.func base) : k = k' := by
  have : table.idxOf k = table.idxOf k' := by
    have := congrArg PFunc.id h
    simp only [IFun.func] at this
    omega
  have h2 := table_get k
  rw [this, table_get k'] at h2
  cases h2
  rfl

theorem call_intro (k : IFun) (n : Nat) (args : List Arg) :
    (introEnv base dumps s env gi g g').world.call n (k.func base).id args = callI dumps s k args := by
  simp only [introEnv, introWorld, if_neg (func_not_lt k), func_sub, table_get]

theorem link_intro (k : IFun) (r : Option Val) (o : Opts) :
    (introData dumps s base gi D).link (k.func base) r o = introLink s o k (requiredIdent k r) := by
  simp only [introData, if_neg (func_not_lt k), func_sub, table_get]

theorem introObj_ident {nm : String} {v : Val} (h : IntroObj s nm v) (hn : nm ≠ "__Schema") :
    Ident.ofVal v = some (identOf v) := by
  have key : ∀ x : Ident, Ident.ofVal x.val = some (identOf x.val) := fun x => by
    rw [identOf_val, Ident.ofVal_val]
  cases h with
  | @type t _ => exact key (.type t)
  | field _ => exact key _
  | arg _ => exact key _
  | inputField _ _ => exact key _
  | directiveArg _ => exact key _
  | directive _ => exact key _
  | schema => exact absurd rfl hn

theorem field_intro (k : IFun) {n : String} {o : Opts} {nm : String} {v : Val} (h : IntroObj s nm v) (hn : nm ≠ "__Schema") :
    (introData dumps s base gi D).field (k.func base) n o (some v) = introField dumps s (identOf v) n := by
  simp only [introData, if_neg (func_not_lt k), Option.bind_some, introObj_ident h hn]

theorem introField_id {nm : String} {v : Val} (h : IntroObj s nm v) (hn : nm = "__Type" ∨ nm = "__Field" ∨ nm = "__InputValue") :
    introField dumps s (identOf v) "id" = v := by
  cases h with
  | @type t _ => rw [identOf_type]; rfl
  | field _ => rw [identOf_val]; rfl
  | arg _ => rw [identOf_val]; rfl
  | inputField _ _ => rw [identOf_val]; rfl
  | directiveArg _ => rw [identOf_val]; rfl
  | directive _ => simp at hn
  | schema => simp at hn

theorem tid_val_tagged (t : TId) : ∃ c v, t.val = .tagged c v := by cases t <;> exact ⟨_, _, rfl⟩

theorem optStr_noRef (o : Option String) : (optStr o).refLike = false := by cases o <;> rfl

theorem introField_noRef (x : Ident) (n : String) : (introField dumps s x n).refLike = false := by
  unfold introField
  split
  all_goals first | rfl | exact optStr_noRef _ | skip
  · rename_i t
    obtain ⟨c, v, h⟩ := tid_val_tagged t
    rw [h]; rfl
  · rename_i t
    cases t <;> rfl
  · rename_i t
    cases t with
    | object n => exact optStr_noRef _
    | _ => rfl
  · rename_i n f a
    cases argOf s n f a with
    | none => rfl
    | some o =>
      simp only [Option.map_some, Option.getD_some, defaultOf]
      split
      · rfl
      · split <;> rfl

/-- the fields of the nodes of the introspection graph -/
theorem intro_fields {t : GNode} (ht : t ∈ introItems base) {x : String} {gf : GField}
    (hx : t.get x = some (.field gf)) {f : PFunc} (hf : gf.func = .plain f) :
    (t.name = some "__Type" ∧ x ∈ ["id", "kind", "name", "description"] ∧ f = IFun.typeInfo.func base) ∨
    (t.name = some "__Field" ∧ x ∈ ["id", "name", "description", "isDeprecated", "deprecationReason"] ∧
      f = IFun.fieldInfo.func base) ∨
    (t.name = some "__InputValue" ∧ x ∈ ["id", "name", "description", "defaultValue"] ∧ f = IFun.inputInfo.func base) ∨
    (t.name = some "__Directive" ∧ x ∈ ["name", "description", "locations"] ∧ f = IFun.directiveInfo.func base) ∨
    t.name = some "__EnumValue" := by
  have hm := get_mem hx
  have hn := get_name hx
  simp only [introItems, List.mem_cons, List.not_mem_nil, or_false] at ht
  rcases ht with rfl | rfl | rfl | rfl | rfl | rfl | rfl <;>
    simp only [typeNode, fieldNode, inputNode, directiveNode, enumNode, schemaNode, introRoot, iField, iLink,
      List.mem_cons, List.not_mem_nil, or_false, GItem.field.injEq, reduceCtorEq, false_or] at hm
  · refine .inl ⟨rfl, ?_⟩
    rcases hm with rfl | rfl | rfl | rfl <;> cases hf <;> simp only [GItem.name] at hn <;> subst hn <;> simp
  · refine .inr (.inl ⟨rfl, ?_⟩)
    rcases hm with rfl | rfl | rfl | rfl | rfl <;> cases hf <;> simp only [GItem.name] at hn <;> subst hn <;> simp
  · refine .inr (.inr (.inl ⟨rfl, ?_⟩))
    rcases hm with rfl | rfl | rfl | rfl <;> cases hf <;> simp only [GItem.name] at hn <;> subst hn <;> simp
  · refine .inr (.inr (.inr (.inl ⟨rfl, ?_⟩)))
    rcases hm with rfl | rfl | rfl <;> cases hf <;> simp only [GItem.name] at hn <;> subst hn <;> simp
  · exact .inr (.inr (.inr (.inr rfl)))

theorem introRows_seq {qfs : List QItem} {ids : List Val} {nm : String} {f : PFunc} {k : IFun} (hk : f = k.func base)
    (hnm : nm ≠ "__Schema") (hids : ∀ i ∈ ids, IntroObj s nm i) :
    ∃ rows, (introRows dumps s qfs ids).asSeq = some rows ∧ List.Forall₂ (fun i row =>
      Val.asSeq row = some (qfs.map fun q => (introData dumps s base gi D).field f q.name q.options (some i))) ids rows := by
  refine ⟨_, rfl, ?_⟩
  rw [List.forall₂_map_right_iff, List.forall₂_same]
  intro v hv
  subst hk
  simp only [field_intro k (hids v hv) hnm]
  rfl

theorem isSome_dhas {n : String} : dhas s.nodesMap n = (objectNode s n).isSome := by
  unfold dhas
  rw [nodesMap_get]


theorem introData_obj_old {j : Nat} {nm : String} {v : Val} (h : ¬ (j = gi ∧ nm ∈ introNames)) :
    (introData dumps s base gi D).obj j nm v ↔ D.obj j nm v := by
  simp only [introData, if_neg h]

theorem introData_obj_new {nm : String} {v : Val} (h : nm ∈ introNames) :
    (introData dumps s base gi D).obj gi nm v ↔ IntroObj s nm v := by
  unfold introData
  show (if gi = gi ∧ nm ∈ introNames then IntroObj s nm v else D.obj gi nm v) ↔ _
  rw [if_pos ⟨rfl, h⟩]

theorem intro_name {t : GNode} (ht : t ∈ introItems base) {nm : String} (h : t.name = some nm) : nm ∈ introNames := by
  rw [← introNames_eq (base := base)]
  exact List.mem_filterMap.2 ⟨t, ht, h⟩

/-- the values of links of introspection objects: they are introspection objects -/
theorem value_type {v : Val} (h : ∃ t : TId, TypeOk s t ∧ v = t.val) : IntroObj s "__Type" v := by
  obtain ⟨t, h1, rfl⟩ := h
  exact .type h1

theorem reported_typeOk {input : Bool} {t : Ty} (h : OkTy (if input then IsRecord s else IsObject s) t) :
    ∃ x : TId, TypeOk s x ∧ reportedType s input t = x.val := by
  obtain ⟨x, h1, h2, h3⟩ := reportedType_ok h
  exact ⟨x, h3, h2⟩

theorem fieldsOf_at {n f : String} (h : f ∈ fieldsOf s n) : ∃ v, fieldAt s n f = some v := by
  unfold fieldsOf at h
  unfold fieldAt
  cases ho : objectNode s n with
  | some node =>
    rw [ho] at h
    simp only [List.mem_filter] at h
    obtain ⟨h1, h2⟩ := h
    simp only
    rw [if_pos h2]
    have : (node.get f).isSome := by
      unfold GNode.get GNode.fieldsMap
      obtain ⟨i, hi, rfl⟩ := List.mem_map.1 h1
      exact dget_isSome_iff.2 ((mem_keys_dmk _ _).2 (List.mem_map.2 ⟨_, List.mem_map_of_mem hi, rfl⟩))
    obtain ⟨i, hi⟩ := Option.isSome_iff_exists.1 this
    exact ⟨itemView i, by rw [hi]; rfl⟩
  | none =>
    rw [ho] at h
    simp only at h ⊢
    cases hr : recordType s n with
    | none => rw [hr] at h; cases h
    | some fs =>
      rw [hr] at h
      simp only [Option.getD_some] at h
      have := dget_isSome_iff.2 h
      obtain ⟨t, ht⟩ := Option.isSome_iff_exists.1 this
      exact ⟨{ ty := t }, by simp [ht]⟩

theorem args_at {n f : String} {v : FieldView} (h : fieldAt s n f = some v) {a : GOption} (ha : a ∈ v.args) :
    ∃ o, argOf s n f a.name = some o := by
  unfold argOf
  rw [h, Option.bind_some]
  exact Option.isSome_iff_exists.1 (dget_isSome_iff.2 ((mem_keys_dmk _ _).2 (List.mem_map.2 ⟨_, List.mem_map_of_mem ha, rfl⟩)))

theorem record_at {n k : String} {fs : List (String × Ty)} (hr : recordType s n = some fs) {t : Ty} (h : (k, t) ∈ fs) :
    ∃ t', dget fs k = some t' :=
  Option.isSome_iff_exists.1 (dget_isSome_iff.2 (List.mem_map_of_mem (f := Prod.fst) h))

/-- only `__type` has options which matter -/
theorem introLink_opts {k : IFun} (h : k ≠ .type) {o : Opts} {x : Option Ident} :
    introLink s o k x = introLink s none k x := by
  cases k <;> first
    | exact absurd rfl h
    | (rcases x with _ | x
       · rfl
       · cases x <;> first
          | rfl
          | (rename_i t; cases t <;> rfl))

/-- The functions of the program with introspection follow the loading protocol. -/
theorem intro_conforms (hgood : GoodSys U env.sys) (hU : IntroNames U) (hconf : Conforms env D U)
    (hb : Telemetry.Below env.sys base) (hsub : ∀ x ∈ env.sys.subs, x.graph ≠ gi)
    (hs : GoodSchema dumps s) (hd : TypesDict s) (hg : env.sys.graphs[gi]? = some g) (hi : Introspected base g g') :
    Conforms (introEnv base dumps s env gi g g') (introData dumps s base gi D) U := by
  have hss := fun j => semSub_same (D := D) (dumps := dumps) (s := s) (g := g) (g' := g') hb hsub j
  have hreq : ∀ {j : Nat} {g1 g0 : Graph} {gn gn0 : GNode} (ho : OldNode env gi j g1 gn g0 gn0) {x : String} {gl : GLink}
      (hx : gn0.get x = some (.link gl)) {r : String} (hr : gl.requires = some r) (sub : SubSem) (i : Val),
      semName (introData dumps s base gi D) sub gn i r none = semName D sub gn0 i r none := by
    intro j g1 g0 gn gn0 ho x gl hx r hr sub i
    have := ((hgood.links j g0 ho.graph gn0 ho.isNode x gl hx).2 r hr).2
    simp only [ItemOk] at this
    obtain ⟨_, gf, h1, _⟩ := this
    exact semName_same hb ho.graph ho.isNode ho.name h1 (ho.get _ _ h1) sub none i
  refine ⟨⟨?_, ?_, ?_, ?_, ?_, ?_, ?_⟩, ⟨hconf.noRefsProc, ?_, ?_⟩⟩
  · -- fields of the root
    intro n j g1 f qfs hj hne hq
    have hold : ∀ q ∈ qfs, f.id < base ∧ ∃ g0, env.sys.graphs[j]? = some g0 ∧ ∃ gf, g0.root.get q.name = some (.field gf) ∧ gf.func = .plain f := by
      intro q hqm
      obtain ⟨hu, gf, h1, h2⟩ := hq q hqm
      rcases item_cases hg hi hj (.inl rfl) h1 (not_typename_get hU hu) with ⟨g0, gn0, ho, h3⟩ | ⟨rfl, rfl, t, ht, hnm, _, hm, _⟩
      · have := ho.root rfl
        subst this
        exact ⟨oldField hb ho.graph ho.isNode h3 h2, g0, ho.graph, gf, h3, h2⟩
      · exfalso
        rw [root_name] at hnm
        simp only [introItems, List.mem_cons, List.not_mem_nil, or_false] at ht
        rcases ht with rfl | rfl | rfl | rfl | rfl | rfl | rfl <;> first | (cases hnm; done) | skip
        simp [introRoot, iLink] at hm
    obtain ⟨q0, hq0⟩ := List.exists_mem_of_ne_nil qfs hne
    obtain ⟨hlt, g0, hg0, _⟩ := hold q0 hq0
    obtain ⟨r, h1, h2⟩ := hconf.fieldsRoot n j g0 f qfs hg0 hne fun q hqm => by
      obtain ⟨_, g2, hg2, h3⟩ := hold q hqm
      rw [hg0] at hg2
      cases hg2
      exact ⟨(hq q hqm).1, h3⟩
    refine ⟨r, ?_, ?_⟩
    · simp only [introEnv]
      rw [introWorld_old hlt, h1]
    · simp only [introData, if_pos hlt]
      exact h2
  · -- fields of nodes
    intro n j g1 nm gn f qfs ids hj hgn hne hq hidne hids
    have hname := (node_mem hgn).2
    by_cases hin : j = gi ∧ nm ∈ introNames
    · obtain ⟨rfl, hin⟩ := hin
      rw [introEnv_graph hg] at hj
      cases hj
      have ht : gn ∈ introItems base := by
        rcases hi.node hgn with ⟨t, h1, _⟩ | ⟨h1, _⟩
        · exact absurd hin (hi.notIntro (node_mem h1).1 (node_mem h1).2)
        · exact h1
      have hids : ∀ i ∈ ids, IntroObj s nm i := fun i h => (introData_obj_new hin).1 (hids i h)
      have hq2 := fun q hqm => intro_fields ht (hq q hqm).2.choose_spec.1 (hq q hqm).2.choose_spec.2
      obtain ⟨q0, hq0⟩ := List.exists_mem_of_ne_nil qfs hne
      obtain ⟨i0, hi0⟩ := List.exists_mem_of_ne_nil ids hidne
      have hex : ∃ k : IFun, f = k.func base ∧ nm ≠ "__Schema" ∧
          callI dumps s k [.fields qfs, .ids ids] = .ok (introRows dumps s qfs ids) := by
        rcases hq2 q0 hq0 with ⟨e, _, h2⟩ | ⟨e, _, h2⟩ | ⟨e, _, h2⟩ | ⟨e, _, h2⟩ | e <;> rw [hname] at e <;> cases e
        · refine ⟨_, h2, by decide, typeInfo_ok (fun q hqm => ?_) fun v hv => ?_⟩
          · rcases hq2 q hqm with ⟨_, h, _⟩ | ⟨e, _⟩ | ⟨e, _⟩ | ⟨e, _⟩ | e
            · exact h
            all_goals (simp [hname] at e)
          · have hv := hids v hv
            generalize hnm : "__Type" = nm at hv
            cases hv with
            | @type t ht => exact ⟨t, rfl⟩
            | _ => simp at hnm
        · refine ⟨_, h2, by decide, fieldInfo_ok (fun q hqm => ?_) fun v hv => ?_⟩
          · rcases hq2 q hqm with ⟨e, _⟩ | ⟨_, h, _⟩ | ⟨e, _⟩ | ⟨e, _⟩ | e
            · simp [hname] at e
            · exact h
            all_goals (simp [hname] at e)
          · have hv := hids v hv
            generalize hnm : "__Field" = nm at hv
            cases hv with
            | @field n f w h => exact ⟨n, f, w, h, rfl⟩
            | _ => simp at hnm
        · refine ⟨_, h2, by decide, inputInfo_ok hs (fun q hqm => ?_) hids⟩
          rcases hq2 q hqm with ⟨e, _⟩ | ⟨e, _⟩ | ⟨_, h, _⟩ | ⟨e, _⟩ | e
          · simp [hname] at e
          · simp [hname] at e
          · exact h
          all_goals (simp [hname] at e)
        · refine ⟨_, h2, by decide, directiveInfo_ok (fun q hqm => ?_) fun v hv => ?_⟩
          · rcases hq2 q hqm with ⟨e, _⟩ | ⟨e, _⟩ | ⟨e, _⟩ | ⟨_, h, _⟩ | e
            · simp [hname] at e
            · simp [hname] at e
            · simp [hname] at e
            · exact h
            · simp [hname] at e
          · have hv := hids v hv
            generalize hnm : "__Directive" = nm at hv
            cases hv with
            | @directive n h => exact ⟨n, h, rfl⟩
            | _ => simp at hnm
        · have hv := hids i0 hi0
          generalize hnm : "__EnumValue" = nm at hv
          cases hv <;> simp at hnm
      obtain ⟨k, hk, hns, hcall⟩ := hex
      obtain ⟨rows, h1, h2⟩ := introRows_seq (D := D) (gi := j) (dumps := dumps) (qfs := qfs) hk hns hids
      refine ⟨_, rows, ?_, h1, h2⟩
      subst hk
      rw [show withCtx (k.func base) [Arg.fields qfs, .ids ids] = [Arg.fields qfs, .ids ids] from rfl, call_intro, hcall]
    · have hold : ∀ q ∈ qfs, f.id < base ∧ ∃ g0 gn0, OldNode env gi j g1 gn g0 gn0 ∧ ∃ gf, gn0.get q.name = some (.field gf) ∧ gf.func = .plain f := by
        intro q hqm
        obtain ⟨hu, gf, h1, h2⟩ := hq q hqm
        rcases item_cases hg hi hj (.inr ⟨_, hgn⟩) h1 (not_typename_get hU hu) with ⟨g0, gn0, ho, h3⟩ | ⟨rfl, rfl, t, ht, hnm, _, hm, _⟩
        · exact ⟨oldField hb ho.graph ho.isNode h3 h2, g0, gn0, ho, gf, h3, h2⟩
        · exact absurd ⟨rfl, intro_name ht (hnm.trans hname)⟩ hin
      obtain ⟨q0, hq0⟩ := List.exists_mem_of_ne_nil qfs hne
      obtain ⟨hlt, g0, gn0, ho, _⟩ := hold q0 hq0
      obtain ⟨r, rows, h1, h2, h3⟩ := hconf.fieldsNode n j g0 nm gn0 f qfs ids ho.graph (ho.node nm hname) hne (fun q hqm => by
        obtain ⟨_, g2, gn2, ho2, h3⟩ := hold q hqm
        have e := ho.graph.symm.trans ho2.graph
        cases e
        have e := (ho.node nm hname).symm.trans (ho2.node nm hname)
        cases e
        exact ⟨(hq q hqm).1, h3⟩) hidne fun i hi => (introData_obj_old hin).1 (hids i hi)
      refine ⟨r, rows, ?_, h2, ?_⟩
      · simp only [introEnv]
        rw [introWorld_old hlt, h1]
      · simp only [introData, if_pos hlt]
        exact h3
  · -- links without requirements
    intro n j g1 gn nm gl o hj hn hx hu hr
    rcases item_cases hg hi hj hn hx (not_typename_get hU hu) with ⟨g0, gn0, ho, h3⟩ | ⟨rfl, rfl, t, ht, hnm, _, hm, hname⟩
    · have hlt := oldLink hb ho.graph ho.isNode h3
      simp only [introEnv]
      rw [introWorld_old hlt, hconf.linkPlain n j g0 gn0 nm gl o ho.graph ho.isNode h3 hu hr]
      simp only [introData, if_pos hlt]
    · simp only [introItems, List.mem_cons, List.not_mem_nil, or_false] at ht
      rcases ht with rfl | rfl | rfl | rfl | rfl | rfl | rfl <;>
        simp only [typeNode, fieldNode, inputNode, directiveNode, enumNode, schemaNode, introRoot, iField, iLink,
          List.mem_cons, List.not_mem_nil, or_false, GItem.link.injEq, reduceCtorEq, false_or] at hm
      · rcases hm with rfl | rfl | rfl | rfl | rfl | rfl <;> cases hr
      · rcases hm with rfl | rfl <;> cases hr
      · subst hm; cases hr
      · subst hm; cases hr
      · rcases hm with rfl | rfl | rfl | rfl | rfl <;>
          simp only [link_intro] <;> exact call_intro _ n _
      · rcases hm with rfl | rfl
        · simp only [link_intro]
          exact call_intro _ n _
        · have hnm2 : nm = "__type" := hname.symm
          subst hnm2
          obtain ⟨x, hxo⟩ := hU.type o hu
          simp only [link_intro]
          refine (call_intro _ n _).trans ?_
          show typeLink s o = _
          simp only [typeLink, hxo, isSome_dhas, declOpts, List.isEmpty_cons, Bool.false_eq_true, if_false, introLink]
  · -- links of the root with requirements
    intro n j g1 nm gl o r v hj hx hu hr hv
    rcases item_cases hg hi hj (.inl rfl) hx (not_typename_get hU hu) with ⟨g0, gn0, ho, h3⟩ | ⟨rfl, rfl, t, ht, hnm, _, hm, hname⟩
    · have := ho.root rfl
      subst this
      have hlt := oldLink hb ho.graph ho.isNode h3
      have hv' : v = semName D (semSub env.sys D j) g0.root rootIdent r none := by
        rw [hv, hss j]
        exact hreq ho h3 hr _ _
      simp only [introEnv]
      rw [introWorld_old hlt, hconf.linkRoot n j g0 nm gl o r v ho.graph h3 hu hr hv']
      simp only [introData, if_pos hlt]
    · exfalso
      rw [root_name] at hnm
      simp only [introItems, List.mem_cons, List.not_mem_nil, or_false] at ht
      rcases ht with rfl | rfl | rfl | rfl | rfl | rfl | rfl <;> first | (cases hnm; done) | skip
      rw [introRoot_requires hm] at hr
      cases hr
  · -- links of nodes with requirements
    intro n j g1 nn gn nm gl o r ids vs hj hgn hx hu hr hidne hids hvs
    have hname := (node_mem hgn).2
    rcases item_cases hg hi hj (.inr ⟨_, hgn⟩) hx (not_typename_get hU hu) with ⟨g0, gn0, ho, h3⟩ | ⟨rfl, rfl, t, ht, hnm, hgt, hm, hname'⟩
    · have hlt := oldLink hb ho.graph ho.isNode h3
      have hvs' : vs = ids.map (fun i => semName D (semSub env.sys D j) gn0 i r none) := by
        rw [hvs, hss j]
        exact List.map_congr_left fun i _ => hreq ho h3 hr _ _
      obtain ⟨res, h1, h2⟩ := hconf.linkNode n j g0 nn gn0 nm gl o r ids vs ho.graph (ho.node nn hname) h3 hu hr hidne
        (fun i hi => (introData_obj_old (ho.notIntro nn hname)).1 (hids i hi)) hvs'
      refine ⟨res, ?_, ?_⟩
      · simp only [introEnv]
        rw [introWorld_old hlt, h1]
      · simp only [introData, if_pos hlt]
        exact h2
    · have := hgt (by rw [hname]; rfl)
      subst this
      have hids : ∀ i ∈ ids, IntroObj s nn i := fun i h => (introData_obj_new (intro_name ht hname)).1 (hids i h)
      have hvid : ∀ f, gn.get "id" = some (.field f) → (∃ k : IFun, f.func = .plain (k.func base)) → f.name = "id" →
          (nn = "__Type" ∨ nn = "__Field" ∨ nn = "__InputValue") → r = "id" → vs = ids := by
        rintro f hf ⟨k, hk⟩ hfn hnn rfl
        rw [hvs]
        conv => rhs; rw [← List.map_id ids]
        refine List.map_congr_left fun i him => ?_
        simp only [semName, hf, semField, hk, hname, Option.map_some, hfn]
        rw [field_intro k (hids i him) (by rcases hnn with rfl | rfl | rfl <;> decide)]
        exact introField_id (hids i him) hnn
      have hdone : ∀ (k : IFun) (args : List Arg), gl.func = k.func base → k ≠ .directiveArgs → k ≠ .type → nn ≠ "__Schema" → vs = ids →
          callI dumps s k (withCtx gl.func (.val (.list vs) :: optArgs gl o)) = .ok (introValues s k ids) →
          ∃ res, (introEnv base dumps s env j g g1).world.call n gl.func.id (withCtx gl.func (.val (.list vs) :: optArgs gl o)) = .ok res ∧
            res.asSeq = some (vs.map fun v => (introData dumps s base j D).link gl.func (some v) (declOpts gl o)) := by
        intro k args hk hnd hnt hns hvi hcall
        refine ⟨introValues s k ids, ?_, ?_⟩
        · rw [← hcall, hk, call_intro]
        · subst hvi
          unfold introValues
          have : ∀ l : List Val, (Val.list l).asSeq = some l := fun _ => rfl
          rw [this]
          congr 1
          refine List.map_congr_left fun v hv => ?_
          rw [hk, link_intro]
          have hri : requiredIdent k (some v) = some (identOf v) := by
            rw [← introObj_ident (hids v hv) hns]
            unfold requiredIdent
            rw [Option.bind_some]
            split
            · exact absurd rfl hnd
            · rfl
          rw [hri]
          exact (introLink_opts hnt).symm
      simp only [introItems, List.mem_cons, List.not_mem_nil, or_false] at ht
      rcases ht with rfl | rfl | rfl | rfl | rfl | rfl | rfl <;> cases hname <;>
        simp only [typeNode, fieldNode, inputNode, directiveNode, enumNode, schemaNode, introRoot, iField, iLink,
          List.mem_cons, List.not_mem_nil, or_false, GItem.link.injEq, reduceCtorEq, false_or] at hm
      · rcases hm with rfl | rfl | rfl | rfl | rfl | rfl <;> cases hr <;>
          have hv := hvid _ rfl ⟨_, rfl⟩ rfl (.inl rfl) rfl <;> subst hv
        · exact hdone .fields [] rfl (by decide) (by decide) (by decide) rfl (typeFields_ok hs hids)
        · exact hdone .interfaces [] rfl (by decide) (by decide) (by decide) rfl rfl
        · exact hdone .possibleTypes [] rfl (by decide) (by decide) (by decide) rfl rfl
        · exact hdone .enumValues [] rfl (by decide) (by decide) (by decide) rfl rfl
        · exact hdone .inputFields [] rfl (by decide) (by decide) (by decide) rfl (inputFields_ok hids)
        · exact hdone .ofType [] rfl (by decide) (by decide) (by decide) rfl (ofType_ok hids)
      · rcases hm with rfl | rfl <;> cases hr <;>
          have hv := hvid _ rfl ⟨_, rfl⟩ rfl (.inr (.inl rfl)) rfl <;> subst hv
        · exact hdone .args [] rfl (by decide) (by decide) (by decide) rfl (fieldArgs_ok hids)
        · exact hdone .fieldType [] rfl (by decide) (by decide) (by decide) rfl (fieldType_ok hs hids)
      · subst hm
        cases hr
        have hv := hvid _ rfl ⟨_, rfl⟩ rfl (.inr (.inr rfl)) rfl
        subst hv
        exact hdone .inputType [] rfl (by decide) (by decide) (by decide) rfl (inputType_ok hs hids)
      · subst hm
        cases hr
        have hv : vs = ids.map fun i => introField dumps s (identOf i) "name" := by
          rw [hvs]
          refine List.map_congr_left fun i him => ?_
          exact field_intro (D := D) .directiveInfo (hids i him) (by decide)
        have hname : ∀ v ∈ vs, ∃ n, v = .str n := by
          intro v hvm
          rw [hv] at hvm
          obtain ⟨i, him, rfl⟩ := List.mem_map.1 hvm
          have := hids i him
          generalize hnm : "__Directive" = nm at this
          cases this with
          | @directive n h => exact ⟨n, by rw [identOf_val]; rfl⟩
          | _ => simp at hnm
        refine ⟨_, call_intro .directiveArgs n _, ?_⟩
        show (Val.list (vs.map _)).asSeq = _
        have : ∀ l : List Val, (Val.list l).asSeq = some l := fun _ => rfl
        rw [this]
        congr 1
        refine List.map_congr_left fun v hvm => ?_
        obtain ⟨x, rfl⟩ := hname v hvm
        rw [link_intro]
        rfl
      · rcases hm with rfl | rfl | rfl | rfl | rfl <;> cases hr
  · -- values of links
    intro j g1 gn nm gl o i v hj hn hx hu hid hv
    rcases item_cases hg hi hj hn hx (not_typename_get hU hu) with ⟨g0, gn0, ho, h3⟩ | ⟨rfl, rfl, t, ht, hnm, hgt, hm, hname'⟩
    · have hlt := oldLink hb ho.graph ho.isNode h3
      have hv' : v = semLink D (semSub env.sys D j) gn0 i gl o := by
        rw [hv, hss j]
        unfold semLink
        simp only [introData, if_pos hlt]
        congr 1
        cases hr : gl.requires with
        | none => rfl
        | some r => simp only [Option.map_some]; exact congrArg some (hreq ho h3 hr _ _)
      have hid' : IdentOk D j gn0 i := by
        unfold IdentOk at hid ⊢
        rw [ho.name]
        cases hgn : gn.name with
        | none => rw [hgn] at hid; exact hid
        | some nm =>
          rw [hgn] at hid
          exact (introData_obj_old (ho.notIntro nm hgn)).1 hid
      obtain ⟨h4, h5, h6⟩ := hconf.linkValue j g0 gn0 nm gl o i v ho.graph ho.isNode h3 hu hid' hv'
      refine ⟨h4, h5, fun t ht => ?_⟩
      refine (introData_obj_old ?_).2 (h6 t ht)
      rintro ⟨rfl, hin⟩
      obtain ⟨⟨t, h7⟩, _⟩ := hgood.links j g0 ho.graph gn0 ho.isNode nm gl h3
      have e := ho.graph.symm.trans hg
      cases e
      exact hi.notIntro (node_mem h7).1 (node_mem h7).2 hin
    · have hid' : ∀ nn, gn.name = some nn → IntroObj s nn i := by
        intro nn hnn
        unfold IdentOk at hid
        rw [hnn] at hid
        exact (introData_obj_new (intro_name ht (hnm.trans hnn))).1 hid
      have hobj : ∀ nn v, nn ∈ introNames → IntroObj s nn v → (introData dumps s base j D).obj j nn v :=
        fun nn v h h' => (introData_obj_new h).2 h'
      have hone : ∀ nn v, IntroObj s nn v → v ≠ .nothing := by
        intro nn v h
        cases h with
        | @type t _ => obtain ⟨c, x, e⟩ := tid_val_tagged t; rw [e]; intro h; cases h
        | _ => intro h; cases h
      have hri : ∀ (k : IFun) nn, k ≠ .directiveArgs → nn ≠ "__Schema" → IntroObj s nn i →
          requiredIdent k (some i) = some (identOf i) := by
        intro k nn hnd hns h
        rw [← introObj_ident h hns]
        unfold requiredIdent
        rw [Option.bind_some]
        split
        · exact absurd rfl hnd
        · rfl
      have hmany : ∀ (l : List Val) nn, nn ∈ introNames → (∀ v ∈ l, IntroObj s nn v) →
          ValueShape .many (.list l) ∧ (LinkType.many = .one → Val.list l ≠ .nothing) ∧
            ∀ t ∈ targets .many (.list l), (introData dumps s base j D).obj j nn t :=
        fun l nn h1 h2 => ⟨⟨l, rfl⟩, fun e => (by cases e), fun t ht => hobj nn t h1 (h2 t ht)⟩
      have hsingle : ∀ (x : Val) nn, nn ∈ introNames → IntroObj s nn x →
          ValueShape .one x ∧ (LinkType.one = .one → x ≠ .nothing) ∧
            ∀ t ∈ targets .one x, (introData dumps s base j D).obj j nn t :=
        fun x nn h1 h2 => ⟨trivial, fun _ => hone nn x h2, fun t ht => by
          rw [show t = x from List.mem_singleton.1 ht]; exact hobj nn x h1 h2⟩
      have hmaybe : ∀ (x : Val) nn, nn ∈ introNames → (x ≠ .nothing → IntroObj s nn x) →
          ValueShape .maybe x ∧ (LinkType.maybe = .one → x ≠ .nothing) ∧
            ∀ t ∈ targets .maybe x, (introData dumps s base j D).obj j nn t := by
        refine fun x nn h1 h2 => ⟨trivial, fun e => (by cases e), fun t ht => ?_⟩
        unfold targets at ht
        simp only at ht
        by_cases hx : x = .nothing
        · rw [if_pos hx] at ht; cases ht
        · rw [if_neg hx] at ht
          rw [show t = x from List.mem_singleton.1 ht]
          exact hobj nn x h1 (h2 hx)
      unfold semLink at hv
      simp only [introItems, List.mem_cons, List.not_mem_nil, or_false] at ht
      rcases ht with rfl | rfl | rfl | rfl | rfl | rfl | rfl <;>
        simp only [typeNode, fieldNode, inputNode, directiveNode, enumNode, schemaNode, introRoot, iField, iLink,
          List.mem_cons, List.not_mem_nil, or_false, GItem.link.injEq, reduceCtorEq, false_or] at hm
      · have ho := hid' _ hnm.symm
        have hgn := hgt (by rw [← hnm]; rfl)
        have hidv : semName (introData dumps s base j D) (semSub (introEnv base dumps s env j g g1).sys (introData dumps s base j D) j) gn i "id" none = i := by
          subst hgn
          exact (field_intro (D := D) .typeInfo ho (by decide)).trans (introField_id ho (.inl rfl))
        generalize hnm2 : "__Type" = nn at ho
        cases ho with
        | @type t ht =>
          have hri := fun k hk => hri k "__Type" hk (by decide) (.type ht)
          rw [identOf_type] at hri
          rcases hm with rfl | rfl | rfl | rfl | rfl | rfl <;> simp only [Option.map_some, hidv, link_intro] at hv <;>
            rw [hri _ (by decide)] at hv <;> rw [hv]
          · cases ht with
            | @object n h =>
              refine hmany _ "__Field" (by decide) fun v hv => ?_
              obtain ⟨f, hf, rfl⟩ := List.mem_map.1 hv
              obtain ⟨w, hw⟩ := fieldsOf_at hf
              exact .field hw
            | _ => exact hmany [] "__Field" (by decide) fun v hv => (by cases hv)
          · exact hmany [] "__Type" (by decide) fun v hv => (by cases hv)
          · exact hmany [] "__Type" (by decide) fun v hv => (by cases hv)
          · exact hmany [] "__EnumValue" (by decide) fun v hv => (by cases hv)
          · cases ht with
            | @inputObject n h =>
              obtain ⟨fs, hfs⟩ := Option.isSome_iff_exists.1 h
              simp only [introLink, hfs, Option.getD_some]
              refine hmany _ "__InputValue" (by decide) fun v hv => ?_
              obtain ⟨⟨k, t⟩, hk, rfl⟩ := List.mem_map.1 hv
              obtain ⟨t', ht'⟩ := record_at hfs hk
              exact .inputField hfs ht'
            | _ => exact hmany [] "__InputValue" (by decide) fun v hv => (by cases hv)
          · cases ht with
            | list h => exact hmaybe _ "__Type" (by decide) fun _ => .type h
            | nonNull h => exact hmaybe _ "__Type" (by decide) fun _ => .type h
            | _ => exact hmaybe .nothing "__Type" (by decide) fun h => absurd rfl h
        | _ => simp at hnm2
      · have ho := hid' _ hnm.symm
        have hgn := hgt (by rw [← hnm]; rfl)
        have hidv : semName (introData dumps s base j D) (semSub (introEnv base dumps s env j g g1).sys (introData dumps s base j D) j) gn i "id" none = i := by
          subst hgn
          exact (field_intro (D := D) .fieldInfo ho (by decide)).trans (introField_id ho (.inr (.inl rfl)))
        generalize hnm2 : "__Field" = nn at ho
        cases ho with
        | @field n f w hw =>
          have hri := fun k hk => hri k "__Field" hk (by decide) (.field hw)
          rw [identOf_val] at hri
          rcases hm with rfl | rfl <;> simp only [Option.map_some, hidv, link_intro] at hv <;>
            rw [hri _ (by decide)] at hv <;> simp only [introLink, hw, Option.map_some, Option.getD_some] at hv <;> rw [hv]
          · refine hmany _ "__InputValue" (by decide) fun v hv => ?_
            obtain ⟨a, ha, rfl⟩ := List.mem_map.1 hv
            obtain ⟨o, ho⟩ := args_at hw ha
            exact .arg ho
          · exact hsingle _ "__Type" (by decide) (value_type (reported_typeOk (input := false) (hs.types n f w hw)))
        | _ => simp at hnm2
      · have ho := hid' _ hnm.symm
        have hgn := hgt (by rw [← hnm]; rfl)
        have hidv : semName (introData dumps s base j D) (semSub (introEnv base dumps s env j g g1).sys (introData dumps s base j D) j) gn i "id" none = i := by
          subst hgn
          exact (field_intro (D := D) .inputInfo ho (by decide)).trans (introField_id ho (.inr (.inr rfl)))
        have hri := hri .inputType "__InputValue" (by decide) (by decide) ho
        subst hm
        simp only [Option.map_some, hidv, link_intro] at hv
        rw [hri] at hv
        rw [hv]
        refine hsingle _ "__Type" (by decide) ?_
        generalize hnm2 : "__InputValue" = nn at ho
        cases ho with
        | @arg n f a o h =>
          obtain ⟨_, _, w, h3, h4⟩ := argOf_cases h
          obtain ⟨t, ht, hok, _⟩ := hs.args n f w h3 o h4
          rw [identOf_val]
          simp only [introLink, h, Option.bind_some, ht, Option.map_some, Option.getD_some]
          exact value_type (reported_typeOk (input := true) hok)
        | @inputField n k fs t h h' =>
          rw [identOf_val]
          simp only [introLink, h, Option.bind_some, h', Option.map_some, Option.getD_some]
          exact value_type (reported_typeOk (input := true) (hs.inputs n fs h k t h'))
        | directiveArg _ =>
          rw [identOf_val]
          exact .type (.nonNull (.scalar (by simp)))
        | _ => simp at hnm2
      · have ho := hid' _ hnm.symm
        have hgn := hgt (by rw [← hnm]; rfl)
        have hidv : semName (introData dumps s base j D) (semSub (introEnv base dumps s env j g g1).sys (introData dumps s base j D) j) gn i "name" none =
            introField dumps s (identOf i) "name" := by
          subst hgn
          exact field_intro (D := D) .directiveInfo ho (by decide)
        subst hm
        simp only [Option.map_some, hidv, link_intro] at hv
        generalize hnm2 : "__Directive" = nn at ho
        cases ho with
        | @directive n hn =>
          rw [identOf_val] at hv
          rw [hv]
          refine hmany [(Ident.directiveArg n).val] "__InputValue" (by decide) fun v hv => ?_
          rw [List.mem_singleton.1 hv]
          exact .directiveArg hn
        | _ => simp at hnm2
      · rcases hm with rfl | rfl | rfl | rfl | rfl <;> simp only [Option.map_none, link_intro] at hv <;> rw [hv]
        · refine hmany _ "__Type" (by decide) fun v hv => ?_
          obtain ⟨t, ht, rfl⟩ := List.mem_map.1 hv
          exact .type (c44_listed_ok hd ht)
        · exact hsingle _ "__Type" (by decide) (.type (.object (.inl (by simp [objectNode]))))
        · refine hmaybe _ "__Type" (by decide) fun hne => ?_
          simp only [introLink] at hne ⊢
          by_cases hm : s.mutation.isSome
          · rw [if_pos hm]
            refine .type (.object (.inl ?_))
            unfold objectNode
            rw [if_pos ⟨rfl, hm⟩]
            simpa using hm
          · rw [if_neg hm] at hne
            exact absurd rfl hne
        · exact hmaybe .nothing "__Type" (by decide) fun h => absurd rfl h
        · refine hmany [(Ident.directive "skip").val, (Ident.directive "include").val] "__Directive" (by decide) fun v hv => ?_
          simp only [List.mem_cons, List.not_mem_nil, or_false] at hv
          rcases hv with rfl | rfl
          · exact .directive (.inl rfl)
          · exact .directive (.inr rfl)
      · rcases hm with rfl | rfl <;> simp only [Option.map_none, link_intro] at hv <;> rw [hv]
        · exact hsingle .none "__Schema" (by decide) .schema
        · refine hmaybe _ "__Type" (by decide) fun hne => ?_
          simp only [introLink] at hne ⊢
          split at hne
          · rename_i n hn
            by_cases h : (objectNode s n).isSome
            · rw [if_pos h]
              exact .type (.object (.inl h))
            · rw [if_neg h] at hne
              exact absurd rfl hne
          · exact absurd rfl hne
  · -- no references
    intro f n o i
    simp only [introData]
    split
    · exact hconf.noRefs f n o i
    · split
      · exact introField_noRef _ _
      · rfl
  · -- objects of sub-graphs
    intro j g1 nn gn n gf sg reqs p s0 i hj hgn hx hf hsg hobj
    have hname := (node_mem hgn).2
    have hcase : ∃ g0 gn0, OldNode env gi j g1 gn g0 gn0 ∧ gn0.get n = some (.field gf) := by
      by_cases ht : n = "__typename"
      · subst ht
        rcases typename_field hg hgood hi hj (.inr ⟨_, hgn⟩) hx with h | ⟨nm, h⟩
        · exact h
        · simp only [typenameField, GItem.field.injEq] at h
          rw [h] at hf; cases hf
      · rcases item_cases hg hi hj (.inr ⟨_, hgn⟩) hx ht with h | ⟨rfl, rfl, t, ht, hnm, hgt, hm, hname'⟩
        · exact h
        · obtain ⟨k, hk⟩ := introField_plain ht hm
          rw [hk] at hf; cases hf
    obtain ⟨g0, gn0, ho, h3⟩ := hcase
    have hsg : env.sys.subs[sg]? = some s0 := hsg
    have h := hconf.subObj j g0 nn gn0 n gf sg reqs p s0 i ho.graph (ho.node nn hname) h3 hf hsg
      ((introData_obj_old (ho.notIntro nn hname)).1 hobj)
    refine (introData_obj_old ?_).2 h
    rintro ⟨h, _⟩
    exact hsub s0 (List.mem_of_getElem? hsg) h
  · -- expressions
    intro j g1 nn gn n o gf sg reqs p s0 g2 t q i q1 r1 hj hgn hx hf hu ho hsg hobj hg2 ht2 hthis h1 h2 h3 h4 h5' h6
    have hname := (node_mem hgn).2
    have hcase : ∃ g0 gn0, OldNode env gi j g1 gn g0 gn0 ∧ gn0.get n = some (.field gf) := by
      by_cases ht : n = "__typename"
      · subst ht
        rcases typename_field hg hgood hi hj (.inr ⟨_, hgn⟩) hx with h | ⟨nm, h⟩
        · exact h
        · simp only [typenameField, GItem.field.injEq] at h
          rw [h] at hf; cases hf
      · rcases item_cases hg hi hj (.inr ⟨_, hgn⟩) hx ht with h | ⟨rfl, rfl, t, ht, hnm, hgt, hm, hname'⟩
        · exact h
        · obtain ⟨k, hk⟩ := introField_plain ht hm
          rw [hk] at hf; cases hf
    obtain ⟨g0, gn0, hold, h5⟩ := hcase
    have hsg : env.sys.subs[sg]? = some s0 := hsg
    have hsne := hsub s0 (List.mem_of_getElem? hsg)
    rw [introEnv_other hsne] at hg2
    simp only [hss]
    rw [semNode_self hb hg2 _ (.inr ⟨_, ht2⟩), semNode_self hb hg2 _ (.inl rfl), semNode_self hb hg2 _ (.inr ⟨_, ht2⟩),
      semNode_self hb hg2 _ (.inl rfl)]
    exact hconf.proc j g0 nn gn0 n o gf sg reqs p s0 g2 t q i q1 r1 hold.graph (hold.node nn hname) h5 hf hu ho hsg
      ((introData_obj_old (hold.notIntro nn hname)).1 hobj) hg2 ht2 hthis h1 h2 h3 h4 h5' h6

/-- options which the functions of the program can not tell apart can not be told apart by introspection -/
theorem intro_faithful {H : PyHash} (h : Faithful H D U) : Faithful H (introData dumps s base gi D) U := by
  intro n o n' o' hu hu' he
  obtain ⟨h1, h2, h3, h4⟩ := h n o n' o' hu hu' he
  refine ⟨h1, ?_, ?_, h4⟩
  · intro f n i
    simp only [introData]
    split
    · exact h2 f n i
    · rfl
  · intro f r
    simp only [introData]
    split
    · exact h3 f r
    · cases table[f.id - base]? with
      | none => rfl
      | some k =>
        simp only
        by_cases hk : k = .type
        · subst hk
          simp only [introLink, h4 "name"]
        · rw [introLink_opts hk, introLink_opts hk (o := o')]

section
variable (hgood : GoodSys U env.sys) (hH : Faithful env.H D U) (hconf : Conforms env D U)
  (hb : Telemetry.Below env.sys base) (hsub : ∀ x ∈ env.sys.subs, x.graph ≠ gi) (hU : IntroNames U)
  (hs : GoodSchema dumps s) (hd : TypesDict s) (hg : env.sys.graphs[gi]? = some g) (hi : introspect base g = .ok g')
  {choose : Nat → List Nat → List Nat} (hch : ValidChoice choose)
include hgood hH hconf hb hsub hU hs hd hg hi hch

/-- C44: every query of a graph with introspection, with parts about the schema at any depth and with any
aliases, succeeds and gives the value which the schema prescribes: the reference semantics with the data
`introData`, which is written in terms of the schema. -/
theorem c44_result_partial {q q' : QNode} (ho : initOptions g' q = .ok q') (hq : NodeOk U g' g'.root q') {fuel inner : Nat}
    (hf : costQuery (introEnv base dumps s env gi g g').sys 1 0 gi q < fuel)
    (hin : 1 + costQuery (introEnv base dumps s env gi g g').sys 0 1 gi q < inner) :
    ∃ idx, execute (introEnv base dumps s env gi g g') choose inner fuel gi q = .ok (idx, q') ∧
      readNode env.H idx rootName rootIdent q' =
        .ok (semQuery (introEnv base dumps s env gi g g').sys (introData dumps s base gi D) gi q') :=
  c06_result (env := introEnv base dumps s env gi g g') (intro_goodSys hgood hU hg (introspected hi)) (intro_faithful hH)
    (intro_conforms hgood hU hconf hb hsub hs hd hg (introspected hi)) hch (introEnv_graph hg) ho hq hf hin

/-- the same with no bound on the number of rounds -/
theorem c44_loop_partial {q q' : QNode} (ho : initOptions g' q = .ok q') (hq : NodeOk U g' g'.root q') :
    ∃ st n st' wf, startQuery (introEnv base dumps s env gi g g') gi q = .ok st ∧
      Loops (introEnv base dumps s env gi g g') choose 0 st n (.ok st') ∧ st'.wfs[0]? = some wf ∧ wf.query = q' ∧
      readNode env.H wf.index rootName rootIdent q' =
        .ok (semQuery (introEnv base dumps s env gi g g').sys (introData dumps s base gi D) gi q') :=
  c06_loop (env := introEnv base dumps s env gi g g') (intro_goodSys hgood hU hg (introspected hi)) (intro_faithful hH)
    (intro_conforms hgood hU hconf hb hsub hs hd hg (introspected hi)) hch (introEnv_graph hg) ho hq

end

/-! ### What the semantics says about the schema -/

section
variable (hi : introspect base g = .ok g')

theorem graph_semQuery (hg : env.sys.graphs[gi]? = some g) {D' : Data} {q : QNode} :
    semQuery (introEnv base dumps s env gi g g').sys D' gi q =
      semNode D' (semSub (introEnv base dumps s env gi g g').sys D' gi) g' g'.root rootIdent q := by
  simp only [semQuery, introEnv_graph hg]

include hi

/-- C44: `__schema` of any query is the schema object -/
theorem c44_schema {sub : SubSem} {q : QNode} {o : Opts} {a : Option String} :
    semItem (introData dumps s base gi D) sub g' g'.root rootIdent (.link "__schema" q o a) =
      semNode (introData dumps s base gi D) sub g' (schemaNode base) .none q := by
  have hi := introspected hi
  have h1 : g'.root.get "__schema" = some (iLink base "__schema" .one "__Schema" .schema none) :=
    hi.get_root.2 (.inr (.inr ⟨by simp [introRoot], rfl⟩))
  have h2 : g'.node "__Schema" = some (schemaNode base) := hi.node_intro (by simp [introItems]) rfl
  simp only [semItem, h1, iLink, h2, semLink, Option.map_none, link_intro]
  rfl

/-- C44: `types` of the schema are all types of the schema, in order -/
theorem c44_types {sub : SubSem} {q : QNode} {o : Opts} {a : Option String} :
    semItem (introData dumps s base gi D) sub g' (schemaNode base) .none (.link "types" q o a) =
      .list ((allTypes s).map fun t => semNode (introData dumps s base gi D) sub g' (typeNode base) t.val q) := by
  have hi := introspected hi
  have h1 : (schemaNode base).get "types" = some (iLink base "types" .many "__Type" .types none) := rfl
  have h2 : g'.node "__Type" = some (typeNode base) := hi.node_intro (by simp [introItems]) rfl
  simp only [semItem, h1, iLink, h2, semLink, Option.map_none, link_intro]
  show Val.list ((targets .many (Val.list ((allTypes s).map TId.val))).map _) = _
  simp only [targets, show ∀ l : List Val, (Val.list l).asSeq = some l from fun _ => rfl, Option.getD_some, List.map_map]
  rfl

/-- C44: `__type(name: n)` finds exactly the object types which have a node -/
theorem c44_type {sub : SubSem} {q : QNode} {n : String} {a : Option String} :
    semItem (introData dumps s base gi D) sub g' g'.root rootIdent (.link "__type" q (some [("name", .str n)]) a) =
      if (objectNode s n).isSome then semNode (introData dumps s base gi D) sub g' (typeNode base) (TId.object n).val q
      else .none := by
  have hi := introspected hi
  have h1 : g'.root.get "__type" = some (iLink base "__type" .maybe "__Type" .type none [{ name := "name", ty := some .string }]) :=
    hi.get_root.2 (.inr (.inr ⟨by simp [introRoot], rfl⟩))
  have h2 : g'.node "__Type" = some (typeNode base) := hi.node_intro (by simp [introItems]) rfl
  simp only [semItem, h1, iLink, h2, semLink, Option.map_none, link_intro]
  simp only [declOpts, List.isEmpty_cons, Bool.false_eq_true, if_false, introLink, dget_cons, if_true, Option.getD_some]
  by_cases h : (objectNode s n).isSome
  · rw [if_pos h, if_pos h, if_neg (by intro h; cases h)]
  · rw [if_neg h, if_neg h, if_pos rfl]

omit hi in
/-- C44: the fields of a type object -/
theorem c44_typeField {sub : SubSem} {t : TId} {n : String} (hn : n ∈ ["id", "kind", "name", "description"]) {o : Opts} {a : Option String} :
    semItem (introData dumps s base gi D) sub g' (typeNode base) t.val (.field n o a) = introField dumps s (.type t) n := by
  have key : ∀ (nm : String) (ty : Option Ty), (typeNode base).get nm = some (iField base nm ty .typeInfo) →
      semItem (introData dumps s base gi D) sub g' (typeNode base) t.val (.field nm o a) = introField dumps s (.type t) nm := by
    intro nm ty hget
    simp only [semItem, semName, hget, iField, semField]
    rw [show (typeNode base).name = some "__Type" from rfl, Option.map_some]
    simp only [introData, if_neg (func_not_lt _), Option.bind_some, Ident.ofVal_type]
  simp only [List.mem_cons, List.not_mem_nil, or_false] at hn
  rcases hn with rfl | rfl | rfl | rfl
  · exact key _ _ rfl
  · exact key _ _ rfl
  · exact key _ _ rfl
  · exact key _ _ rfl

/-- C44: `fields` of an object type: the public fields and links of the node (or of the record), in order -/
theorem c44_fields {sub : SubSem} {n : String} {q : QNode} {o : Opts} {a : Option String} :
    semItem (introData dumps s base gi D) sub g' (typeNode base) (TId.object n).val (.link "fields" q o a) =
      .list ((fieldsOf s n).map fun f => semNode (introData dumps s base gi D) sub g' (fieldNode base) (Ident.field n f).val q) := by
  have hi := introspected hi
  have h1 : (typeNode base).get "fields" = some (iLink base "fields" .many "__Field" .fields (some "id") [includeDeprecated]) := rfl
  have h2 : g'.node "__Field" = some (fieldNode base) := hi.node_intro (by simp [introItems]) rfl
  have h3 : semName (introData dumps s base gi D) sub (typeNode base) (TId.object n).val "id" none = (TId.object n).val := by
    have := c44_typeField (D := D) (g' := g') (base := base) (gi := gi) (dumps := dumps) (s := s) (sub := sub) (t := .object n) (n := "id") (by simp) (o := none) (a := none)
    simp only [semItem] at this
    exact this
  simp only [semItem, h1, iLink, h2, semLink, Option.map_some, h3, link_intro]
  rw [introLink_opts (by decide)]
  show Val.list ((targets .many (Val.list ((fieldsOf s n).map fun f => (Ident.field n f).val))).map _) = _
  simp only [targets, show ∀ l : List Val, (Val.list l).asSeq = some l from fun _ => rfl, Option.getD_some, List.map_map]
  rfl

/-- C44: `type` of a field: the GraphQL type of its hiku type (see C43) -/
theorem c44_fieldType (hs : GoodSchema dumps s) {sub : SubSem} {n f : String} {v : FieldView} (hv : fieldAt s n f = some v)
    {q : QNode} {o : Opts} {a : Option String} :
    ∃ t : TId, typeIdent s.dataTypes false v.ty = .ok t ∧
      semItem (introData dumps s base gi D) sub g' (fieldNode base) (Ident.field n f).val (.link "type" q o a) =
        semNode (introData dumps s base gi D) sub g' (typeNode base) t.val q := by
  have hi := introspected hi
  obtain ⟨t, ht, hr, _⟩ := reportedType_ok (input := false) (hs.types n f v hv)
  refine ⟨t, ht, ?_⟩
  have h1 : (fieldNode base).get "type" = some (iLink base "type" .one "__Type" .fieldType (some "id")) := rfl
  have h2 : g'.node "__Type" = some (typeNode base) := hi.node_intro (by simp [introItems]) rfl
  have h3 : semName (introData dumps s base gi D) sub (fieldNode base) (Ident.field n f).val "id" none = (Ident.field n f).val := by
    have hget : (fieldNode base).get "id" = some (iField base "id" none .fieldInfo) := rfl
    simp only [semName, hget, iField, semField]
    rw [show (fieldNode base).name = some "__Field" from rfl, Option.map_some]
    simp only [introData, if_neg (func_not_lt _), Option.bind_some, Ident.ofVal_val]
    rfl
  simp only [semItem, h1, iLink, h2, semLink, Option.map_some, h3, link_intro]
  have h5 : requiredIdent .fieldType (some (Ident.field n f).val) = some (.field n f) := by
    simp only [requiredIdent, Option.bind_some, Ident.ofVal_val]
  rw [h5]
  simp only [introLink, hv, Option.map_some, Option.getD_some, hr]

omit hi in
theorem fieldNode_id {sub : SubSem} {n f : String} :
    semName (introData dumps s base gi D) sub (fieldNode base) (Ident.field n f).val "id" none = (Ident.field n f).val := by
  have hget : (fieldNode base).get "id" = some (iField base "id" none .fieldInfo) := rfl
  simp only [semName, hget, iField, semField]
  rw [show (fieldNode base).name = some "__Field" from rfl, Option.map_some]
  simp only [introData, if_neg (func_not_lt _), Option.bind_some, Ident.ofVal_val]
  rfl

omit hi in
theorem typeNode_id {sub : SubSem} {t : TId} :
    semName (introData dumps s base gi D) sub (typeNode base) t.val "id" none = t.val := by
  have := c44_typeField (D := D) (g' := ({ items := [] } : Graph)) (base := base) (gi := gi) (dumps := dumps) (s := s) (sub := sub) (t := t) (n := "id") (by simp) (o := none) (a := none)
  simp only [semItem] at this
  exact this

omit hi in
/-- C44: the fields of an argument: its name, its description and its default value (`null` if it is required,
otherwise the JSON text) -/
theorem c44_argField {sub : SubSem} {n f x nm : String} (hn : nm ∈ ["id", "name", "description", "defaultValue"])
    {o : Opts} {a : Option String} :
    semItem (introData dumps s base gi D) sub g' (inputNode base) (Ident.arg n f x).val (.field nm o a) =
      introField dumps s (.arg n f x) nm := by
  have key : ∀ (nm : String) (ty : Option Ty), (inputNode base).get nm = some (iField base nm ty .inputInfo) →
      semItem (introData dumps s base gi D) sub g' (inputNode base) (Ident.arg n f x).val (.field nm o a) =
        introField dumps s (.arg n f x) nm := by
    intro nm ty hget
    simp only [semItem, semName, hget, iField, semField]
    rw [show (inputNode base).name = some "__InputValue" from rfl, Option.map_some]
    simp only [introData, if_neg (func_not_lt _), Option.bind_some, Ident.ofVal_val]
  simp only [List.mem_cons, List.not_mem_nil, or_false] at hn
  rcases hn with rfl | rfl | rfl | rfl
  · exact key _ _ rfl
  · exact key _ _ rfl
  · exact key _ _ rfl
  · exact key _ _ rfl

/-- C44: `args` of a field: the declared options of the field or link, in order -/
theorem c44_args {sub : SubSem} {n f : String} {v : FieldView} (hv : fieldAt s n f = some v)
    {q : QNode} {o : Opts} {a : Option String} :
    semItem (introData dumps s base gi D) sub g' (fieldNode base) (Ident.field n f).val (.link "args" q o a) =
      .list (v.args.map fun x => semNode (introData dumps s base gi D) sub g' (inputNode base) (Ident.arg n f x.name).val q) := by
  have hi := introspected hi
  have h1 : (fieldNode base).get "args" = some (iLink base "args" .many "__InputValue" .args (some "id")) := rfl
  have h2 : g'.node "__InputValue" = some (inputNode base) := hi.node_intro (by simp [introItems]) rfl
  simp only [semItem, h1, iLink, h2, semLink, Option.map_some, fieldNode_id, link_intro]
  have h5 : requiredIdent .args (some (Ident.field n f).val) = some (.field n f) := by
    simp only [requiredIdent, Option.bind_some, Ident.ofVal_val]
  rw [h5]
  simp only [introLink, hv, Option.map_some, Option.getD_some]
  simp only [targets, show ∀ l : List Val, (Val.list l).asSeq = some l from fun _ => rfl, Option.getD_some, List.map_map]
  rfl

/-- C44: `type` of an argument: the GraphQL input type of the declared type of the option (see C43) -/
theorem c44_argType (hs : GoodSchema dumps s) {sub : SubSem} {n f : String} {v : FieldView} (hv : fieldAt s n f = some v)
    {x : GOption} (hx : x ∈ v.args) (hd : (v.args.map GOption.name).Nodup) {q : QNode} {o : Opts} {a : Option String} :
    ∃ (ty : Ty) (t : TId), x.ty = some ty ∧ typeIdent s.dataTypes true ty = .ok t ∧
      semItem (introData dumps s base gi D) sub g' (inputNode base) (Ident.arg n f x.name).val (.link "type" q o a) =
        semNode (introData dumps s base gi D) sub g' (typeNode base) t.val q := by
  have hi := introspected hi
  obtain ⟨ty, hty, hok, _⟩ := hs.args n f v hv x hx
  obtain ⟨t, ht, hr, _⟩ := reportedType_ok (input := true) (by simpa using hok)
  refine ⟨ty, t, hty, ht, ?_⟩
  have ha : argOf s n f x.name = some x := by
    simp only [argOf, hv, Option.bind_some]
    have hd' : ((v.args.map fun o => (o.name, o)).map (·.1)).Nodup := by
      rw [List.map_map]; exact hd
    rw [dget_dmk_nodup _ hd']
    apply dget_of_mem_nodup hd'
    exact List.mem_map.2 ⟨x, hx, rfl⟩
  have h1 : (inputNode base).get "type" = some (iLink base "type" .one "__Type" .inputType (some "id")) := rfl
  have h2 : g'.node "__Type" = some (typeNode base) := hi.node_intro (by simp [introItems]) rfl
  have h3 : semName (introData dumps s base gi D) sub (inputNode base) (Ident.arg n f x.name).val "id" none = (Ident.arg n f x.name).val := by
    have := c44_argField (D := D) (g' := g') (base := base) (gi := gi) (dumps := dumps) (s := s) (sub := sub) (n := n) (f := f) (x := x.name) (nm := "id") (by simp) (o := none) (a := none)
    simp only [semItem] at this
    exact this
  simp only [semItem, h1, iLink, h2, semLink, Option.map_some, h3, link_intro]
  have h5 : requiredIdent .inputType (some (Ident.arg n f x.name).val) = some (.arg n f x.name) := by
    simp only [requiredIdent, Option.bind_some, Ident.ofVal_val]
  rw [h5]
  simp only [introLink, ha, hty, Option.bind_some, Option.map_some, Option.getD_some, hr]

/-- C44: `inputFields` of an input type: the fields of the record, in order -/
theorem c44_inputFields {sub : SubSem} {n : String} {fs : List (String × Ty)} (hr : recordType s n = some fs)
    {q : QNode} {o : Opts} {a : Option String} :
    semItem (introData dumps s base gi D) sub g' (typeNode base) (TId.inputObject n).val (.link "inputFields" q o a) =
      .list (fs.map fun f => semNode (introData dumps s base gi D) sub g' (inputNode base) (Ident.inputField n f.1).val q) := by
  have hi := introspected hi
  have h1 : (typeNode base).get "inputFields" = some (iLink base "inputFields" .many "__InputValue" .inputFields (some "id")) := rfl
  have h2 : g'.node "__InputValue" = some (inputNode base) := hi.node_intro (by simp [introItems]) rfl
  simp only [semItem, h1, iLink, h2, semLink, Option.map_some, typeNode_id, link_intro]
  have h5 : requiredIdent .inputFields (some (TId.inputObject n).val) = some (.type (.inputObject n)) := by
    simp only [requiredIdent, Option.bind_some, Ident.ofVal_type]
  rw [h5]
  simp only [introLink, hr, Option.getD_some]
  simp only [targets, show ∀ l : List Val, (Val.list l).asSeq = some l from fun _ => rfl, Option.getD_some, List.map_map]
  rfl

/-- C44: `ofType` of a list or a non-null type: the type inside -/
theorem c44_ofType {sub : SubSem} {t : TId} {q : QNode} {o : Opts} {a : Option String} :
    semItem (introData dumps s base gi D) sub g' (typeNode base) (TId.list t).val (.link "ofType" q o a) =
      semNode (introData dumps s base gi D) sub g' (typeNode base) t.val q ∧
    semItem (introData dumps s base gi D) sub g' (typeNode base) (TId.nonNull t).val (.link "ofType" q o a) =
      semNode (introData dumps s base gi D) sub g' (typeNode base) t.val q := by
  have hi := introspected hi
  have h1 : (typeNode base).get "ofType" = some (iLink base "ofType" .maybe "__Type" .ofType (some "id")) := rfl
  have h2 : g'.node "__Type" = some (typeNode base) := hi.node_intro (by simp [introItems]) rfl
  have h6 : t.val ≠ .nothing := by cases t <;> (intro h; cases h)
  constructor
  all_goals
    simp only [semItem, h1, iLink, h2, semLink, Option.map_some, typeNode_id, link_intro]
    simp only [requiredIdent, Option.bind_some, Ident.ofVal_type, introLink, if_neg h6]

end

end Hiku.Intro
