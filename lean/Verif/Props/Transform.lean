import Verif.Spec.Transform
import Verif.Props.ValidateGraph
import Verif.Proofs.Basic

/-! # C46: transformers of graphs -/

namespace Hiku.Transform

theorem visitOption_eq (o : GOption) : visitOption o = o := rfl

theorem map_visitOption (l : List GOption) : l.map visitOption = l := by
  induction l with
  | nil => rfl
  | cons o r ih => rw [List.map_cons, ih, visitOption_eq]

theorem baseField_eq (f : GField) : baseField f = f := by
  unfold baseField
  rw [map_visitOption]

theorem baseLink_eq (l : GLink) : baseLink l = .ok l := by
  obtain ⟨n, te, nd, fn, rq, os, ds⟩ := l
  cases te <;> simp only [baseLink, GLink.ty, getTypeEnum, map_visitOption]

section
variable {σ : Type} {h : Hooks σ}

/-- the traversal with a transformer which only replaces functions -/
theorem visitItems_same (ho : OnlyFunctions h) (nm : Option String) (l : List GItem) : ∀ s, ∃ l' s',
    visitItems h nm l s = .ok (l', s') ∧ List.Forall₂ SameButFunc l l' := by
  induction l with
  | nil => exact fun s => ⟨[], s, rfl, .nil⟩
  | cons i r ih =>
    intro s
    cases i with
    | field f =>
      obtain ⟨l', s', h1, h2⟩ := ih (h.field nm f s).2
      simp only [visitItems, baseField_eq, h1, ok_bind']
      exact ⟨_, _, rfl, .cons (ho.field nm f s) h2⟩
    | link l =>
      obtain ⟨l', s', h1, h2⟩ := ih (h.link nm l s).2
      simp only [visitItems, baseLink_eq, h1, ok_bind']
      exact ⟨_, _, rfl, .cons (ho.link nm l s) h2⟩

theorem visitNodes_same (ho : OnlyFunctions h) (l : List GNode) (hd : ∀ n ∈ l, n.name = none → n.description = none) :
    ∀ s, ∃ l' s', visitNodes h l s = .ok (l', s') ∧
      List.Forall₂ (fun n n' : GNode => n'.name = n.name ∧ n'.description = n.description ∧
        List.Forall₂ SameButFunc n.fields n'.fields) l l' := by
  induction l with
  | nil => exact fun s => ⟨[], s, rfl, .nil⟩
  | cons n r ih =>
    intro s
    obtain ⟨fs, s1, h1, h2⟩ := visitItems_same ho n.name n.fields s
    obtain ⟨l', s', h3, h4⟩ := ih (fun m hm => hd m (List.mem_cons_of_mem _ hm)) s1
    simp only [visitNodes, visitNode, h1, h3, ok_bind', ho.more, List.append_nil]
    refine ⟨_, _, rfl, .cons ⟨rfl, ?_, h2⟩ h4⟩
    cases hn : n.name with
    | none => simp [hd n List.mem_cons_self hn]
    | some x => simp

end

/-! ### Validation depends on names, not on functions -/

theorem SameButFunc.name {i i' : GItem} (h : SameButFunc i i') : i'.name = i.name := by
  cases h with
  | field h => exact h
  | link h => exact h

theorem rawNames_eq {fs : List GItem} : rawNames (fs.map rawItem) = fs.map GItem.name := by
  induction fs with
  | nil => rfl
  | cons i r ih => rw [List.map_cons, List.map_cons, ← ih]; rfl

theorem same_names {fs fs' : List GItem} (h : List.Forall₂ SameButFunc fs fs') :
    fs'.map GItem.name = fs.map GItem.name := by
  induction h with
  | nil => rfl
  | cons h1 _ ih => rw [List.map_cons, List.map_cons, h1.name, ih]

theorem gvItem_same {i i' : GItem} (h : SameButFunc i i') (names : List String) (label : String) (own : List String) :
    gvItem names label own (rawItem i') = gvItem names label own (rawItem i) := by
  cases h with
  | field => rfl
  | link h1 h2 h3 h4 h5 h6 => simp only [gvItem, rawItem, h1, h3, h4]

theorem noOther (fs : List GItem) : (fs.map rawItem).any RawField.isOther = false := by
  induction fs with
  | nil => rfl
  | cons i r ih => simp only [List.map_cons, List.any_cons, ih]; rfl

theorem gvNode_same {fs fs' : List GItem} (h : List.Forall₂ SameButFunc fs fs') (names : List String) (label : String) :
    gvNode names label (fs'.map rawItem) = gvNode names label (fs.map rawItem) := by
  unfold gvNode
  rw [noOther, noOther, rawNames_eq, rawNames_eq, same_names h]
  have : (fs'.map rawItem).flatMap (gvItem names label (fs.map GItem.name)) =
      (fs.map rawItem).flatMap (gvItem names label (fs.map GItem.name)) := by
    generalize fs.map GItem.name = own
    induction h with
    | nil => rfl
    | cons h1 _ ih => simp only [List.map_cons, List.flatMap_cons, gvItem_same h1, ih]
  rw [this]

def SameNodes (l l' : List GNode) : Prop :=
  List.Forall₂ (fun n n' : GNode => n'.name = n.name ∧ n'.description = n.description ∧
    List.Forall₂ SameButFunc n.fields n'.fields) l l'

theorem forall2_append' {α β : Type} {R : α → β → Prop} {l m : List α} {l' m' : List β} (h : List.Forall₂ R l l')
    (h' : List.Forall₂ R m m') : List.Forall₂ R (l ++ m) (l' ++ m') := by
  induction h with
  | nil => exact h'
  | cons h1 _ ih => exact .cons h1 ih

theorem rawNodeNames_eq (l : List GNode) : rawNodeNames (l.map rawNode) = l.filterMap GNode.name := by
  induction l with
  | nil => rfl
  | cons n r ih =>
    simp only [rawNodeNames, List.map_cons, List.filterMap_cons, rawNode] at ih ⊢
    rw [ih]

theorem rawRoot_eq (l : List GNode) : rawRoot (l.map rawNode) =
    ((l.filter fun n => n.name.isNone).flatMap GNode.fields).map rawItem := by
  induction l with
  | nil => rfl
  | cons n r ih =>
    unfold rawRoot at ih ⊢
    simp only [List.map_cons, List.flatMap_cons, ih, rawNode, List.filter_cons]
    cases hn : n.name with
    | none => simp
    | some x => simp

theorem noOtherNodes (l : List GNode) : (l.map rawNode).any RawNode.isOther = false := by
  induction l with
  | nil => rfl
  | cons i r ih => simp only [List.map_cons, List.any_cons, ih]; rfl

theorem graphErrors_same {l l' : List GNode} (h : SameNodes l l') :
    graphErrors (l'.map rawNode) = graphErrors (l.map rawNode) := by
  unfold graphErrors
  rw [noOtherNodes, noOtherNodes, rawNodeNames_eq, rawNodeNames_eq, rawRoot_eq, rawRoot_eq]
  have h1 : l'.filterMap GNode.name = l.filterMap GNode.name := by
    induction h with
    | nil => rfl
    | cons h1 _ ih => simp only [List.filterMap_cons, h1.1, ih]
  have h2 : List.Forall₂ SameButFunc ((l.filter fun n => n.name.isNone).flatMap GNode.fields)
      ((l'.filter fun n => n.name.isNone).flatMap GNode.fields) := by
    clear h1
    induction h with
    | nil => exact .nil
    | @cons n n' r r' h1 _ ih =>
      simp only [List.filter_cons, h1.1]
      cases hn : n.name with
      | none => simpa using forall2_append' h1.2.2 ih
      | some x => simpa using ih
  rw [h1, gvNode_same h2]
  generalize l.filterMap GNode.name = names
  congr 1
  congr 1
  congr 1
  clear h1 h2
  induction h with
  | nil => rfl
  | @cons n n' r r' h1 _ ih =>
    simp only [List.map_cons, List.flatMap_cons, ih, rawNode, h1.1]
    cases hn : n.name with
    | none => rfl
    | some x => simp only [gvNode_same h1.2.2]

theorem buildGraph_eq {items : List GNode} {types : List (String × Ty)} {g : Graph} (h : buildGraph items types = .ok g) :
    g = { items := items, dataTypes := types } ∧ graphErrors (items.map rawNode) = [] := by
  unfold buildGraph at h
  split at h
  · cases h
    exact ⟨rfl, by rename_i h; simpa using h⟩
  · cases h

/-! ### C46 -/

/-- C46: a transformer which only replaces functions never fails on a graph, and keeps the data types, the
nodes, the fields, the links with all their properties and their order; the result is a graph again (other
transformers can be applied to it). -/
theorem c46_only_functions {σ : Type} {h : Hooks σ} (ho : OnlyFunctions h) {g : Graph} (hg : Built g) (s : σ) :
    ∃ g' s', visitGraph h g s = .ok (g', s') ∧ SameGraph g g' ∧ Built g' := by
  obtain ⟨hg, hd⟩ := hg
  obtain ⟨l', s', h1, h2⟩ := visitNodes_same ho g.items hd s
  have he : graphErrors (l'.map rawNode) = [] := by
    rw [graphErrors_same h2]
    exact (buildGraph_eq hg).2
  have hb : buildGraph l' g.dataTypes = .ok { items := l', dataTypes := g.dataTypes } := by
    unfold buildGraph; rw [he]; rfl
  simp only [visitGraph, h1, ok_bind', ho.items, List.append_nil, hb]
  refine ⟨_, _, rfl, ⟨rfl, h2⟩, hb, ?_⟩
  have : ∀ {l l' : List GNode}, SameNodes l l' → (∀ n ∈ l, n.name = none → n.description = none) →
      ∀ n ∈ l', n.name = none → n.description = none := by
    intro l l' h
    induction h with
    | nil => exact fun _ _ h => (by cases h)
    | @cons n0 n' r r' k1 _ ih =>
      intro hd n hn he
      rcases List.mem_cons.1 hn with rfl | hn
      · rw [k1.2.1]
        rw [k1.1] at he
        exact hd _ List.mem_cons_self he
      · exact ih (fun m hm => hd m (List.mem_cons_of_mem _ hm)) n hn he
  exact this h2 hd

/-- C46: the base transformer returns an equal graph. -/
theorem c46_identity {g : Graph} (hg : Built g) : baseVisit g = .ok g := by
  have hitems : ∀ nm (l : List GItem), visitItems ({} : Hooks Unit) nm l () = .ok (l, ()) := by
    intro nm l
    induction l with
    | nil => rfl
    | cons i r ih =>
      cases i with
      | field f => simp only [visitItems, baseField_eq, ih, ok_bind']
      | link l => simp only [visitItems, baseLink_eq, ih, ok_bind']
  have hnodes : ∀ l : List GNode, (∀ n ∈ l, n.name = none → n.description = none) →
      visitNodes ({} : Hooks Unit) l () = .ok (l, ()) := by
    intro l
    induction l with
    | nil => exact fun _ => rfl
    | cons n r ih =>
      intro hd
      simp only [visitNodes, visitNode, hitems, ih fun m hm => hd m (List.mem_cons_of_mem _ hm), ok_bind',
        List.append_nil]
      congr 3
      obtain ⟨nm, fs, ds⟩ := n
      have := hd _ List.mem_cons_self
      simp only at this ⊢
      cases nm with
      | none => simp [this rfl]
      | some x => simp
  unfold baseVisit visitGraph
  rw [hnodes _ hg.2]
  simp only [ok_bind', List.append_nil, hg.1]

/-- C46: applying the transformers of two lists one list after the other is applying the whole list. -/
theorem c46_apply_append (g : Graph) (a b : List (Graph → Except Err Graph)) :
    apply g (a ++ b) = (do let g' ← apply g a; apply g' b) := by
  unfold apply
  rw [List.foldlM_append]

/-- C46: transformers are applied from left to right. -/
theorem c46_apply_cons (g : Graph) (t : Graph → Except Err Graph) (ts : List (Graph → Except Err Graph)) :
    apply g (t :: ts) = (do let g' ← t g; apply g' ts) ∧ apply g [] = .ok g := ⟨rfl, rfl⟩

/-- C46: the base transformer can be inserted at any place. -/
theorem c46_apply_identity {g g' : Graph} (a b : List (Graph → Except Err Graph)) (h : apply g a = .ok g')
    (hb : Built g') : apply g (a ++ baseVisit :: b) = apply g (a ++ b) := by
  rw [c46_apply_append, c46_apply_append, h]
  simp only [ok_bind', (c46_apply_cons g' baseVisit b).1, c46_identity hb]

end Hiku.Transform
