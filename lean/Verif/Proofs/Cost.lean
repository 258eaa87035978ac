import Verif.Spec.Cost
import Verif.Proofs.Merge
import Verif.Proofs.Basic

/-! Costs: merging queries does not increase them. -/

namespace Hiku

theorem sum_map_le {α : Type} {l : List α} {f g : α → Nat} (h : ∀ x ∈ l, f x ≤ g x) :
    (l.map f).sum ≤ (l.map g).sum := by
  induction l with
  | nil => simp
  | cons x r ih =>
    simp only [List.map_cons, List.sum_cons]
    have := h x (by simp)
    have := ih fun y hy => h y (by simp [hy])
    omega

theorem sum_filter_add {α : Type} (l : List α) (p : α → Bool) (f : α → Nat) :
    ((l.filter p).map f).sum + ((l.filter fun x => !p x).map f).sum = (l.map f).sum := by
  induction l with
  | nil => simp
  | cons x r ih =>
    cases h : p x <;> simp [h] <;> omega

/-- groups with distinct keys are disjoint -/
theorem sum_groups_le {α κ : Type} [DecidableEq κ] (key : α → κ) (f : α → Nat) :
    ∀ (ks : List κ) (l : List α), ks.Nodup →
      (ks.map fun k => ((l.filter fun x => key x = k).map f).sum).sum ≤ (l.map f).sum := by
  intro ks
  induction ks with
  | nil => simp
  | cons k ks ih =>
    intro l hn
    rw [List.nodup_cons] at hn
    have h1 := sum_filter_add l (fun x => decide (key x = k)) f
    have h2 := ih (l.filter fun x => !decide (key x = k)) hn.2
    have h3 : (ks.map fun k' => ((l.filter fun x => key x = k').map f).sum) =
        ks.map fun k' => (((l.filter fun x => !decide (key x = k)).filter fun x => key x = k').map f).sum := by
      apply List.map_congr_left
      intro k' hk'
      rw [List.filter_filter]
      congr 2
      apply List.filter_congr
      intro x _
      have : k' ≠ k := fun e => hn.1 (e ▸ hk')
      by_cases e : key x = k'
      · simp [e, this]
      · simp [e]
    simp only [List.map_cons, List.sum_cons]
    rw [h3]
    omega

theorem sum_dedup_le {α κ : Type} [DecidableEq κ] (key : α → κ) (f : α → Nat) (l : List α)
    (s : List κ) : ((dedupBy key s l).map f).sum ≤ (l.map f).sum := by
  induction l generalizing s with
  | nil => simp [dedupBy]
  | cons x r ih =>
    simp only [dedupBy]
    split
    · have := ih s; simp; omega
    · have := ih (key x :: s); simp; omega

/-- the node of a link -/
def QItem.sel : QItem → QNode
  | .field .. => .mk [] false
  | .link _ q _ _ => q

theorem nodesOf_eq (H : PyHash) (k : MKey) (l : List QItem) :
    nodesOf H k l = ((linkItems l).filter fun i => itemKey H i = k).map QItem.sel := by
  induction l with
  | nil => rfl
  | cons x r ih =>
    cases x with
    | field n o a =>
      simp [nodesOf, linkItems, QItem.isLink] at ih ⊢
      exact ih
    | link n q o a =>
      simp only [nodesOf, linkItems, QItem.isLink, List.filterMap_cons, List.filter_cons,
        if_true] at ih ⊢
      by_cases e : (n, optionsHash H o, a) = k
      · have e' : itemKey H (.link n q o a) = k := e
        rw [if_pos e, if_pos (by simpa using e'), List.map_cons, ← ih]; rfl
      · have e' : ¬ itemKey H (.link n q o a) = k := e
        rw [if_neg e, if_neg (by simpa using e'), ← ih]

/-- a cost which depends on the names of items only, and on selections through `C` -/
structure Compositional (c : QItem → Nat) (φ ψ : String → Nat) (C : String → QNode → Nat) : Prop where
  field : ∀ n o a, c (.field n o a) = φ n
  link : ∀ n q o a, c (.link n q o a) = ψ n + C n q

theorem merge_sum_le (H : PyHash) {c : QItem → Nat} {φ ψ : String → Nat} {C : String → QNode → Nat}
    (hc : Compositional c φ ψ C) (nodes : List QNode)
    (ih : ∀ i ∈ linkItems (nodes.flatMap QNode.fields), ∀ n,
      C n (merge H (nodesOf H (itemKey H i) (nodes.flatMap QNode.fields))) ≤
        ((nodesOf H (itemKey H i) (nodes.flatMap QNode.fields)).map (C n)).sum) :
    ((merge H nodes).fields.map c).sum ≤ (nodes.map fun q => (q.fields.map c).sum).sum := by
  have hflat : (nodes.map fun q => (q.fields.map c).sum).sum =
      ((nodes.flatMap QNode.fields).map c).sum := by
    clear ih
    induction nodes with
    | nil => rfl
    | cons q r ih => simp [ih]
  rw [hflat, merge_closed]
  revert ih
  generalize nodes.flatMap QNode.fields = l
  intro ih
  have e1 : (QNode.mk (dedupBy (itemKey H) [] (fieldItems l) ++
      (dedupBy (itemKey H) [] (linkItems l)).map fun i => .link i.name
        (merge H (nodesOf H (itemKey H i) l)) i.options i.alias_) (nodes.any QNode.ordered)).fields =
      dedupBy (itemKey H) [] (fieldItems l) ++
      (dedupBy (itemKey H) [] (linkItems l)).map fun i => .link i.name
        (merge H (nodesOf H (itemKey H i) l)) i.options i.alias_ := rfl
  rw [e1, List.map_append, List.sum_append]
  have h1 := sum_dedup_le (itemKey H) c (fieldItems l) []
  have h2 : ((fieldItems l).map c).sum + ((linkItems l).map c).sum = (l.map c).sum := by
    have := sum_filter_add l (fun i => i.isLink) c
    simp only [fieldItems, linkItems]; omega
  have h3 : (((dedupBy (itemKey H) [] (linkItems l)).map fun i => QItem.link i.name
        (merge H (nodesOf H (itemKey H i) l)) i.options i.alias_).map c).sum ≤
      ((linkItems l).map c).sum := by
    have g1 := sum_groups_le (itemKey H) c
      ((dedupBy (itemKey H) [] (linkItems l)).map (itemKey H)) (linkItems l) (nodup_dedupBy _ _ _)
    refine Nat.le_trans ?_ g1
    rw [List.map_map, List.map_map]
    apply sum_map_le
    intro i hi
    have hil := mem_of_mem_dedupBy _ hi
    simp only [Function.comp, hc.link]
    have hl : ∀ x ∈ (linkItems l).filter (fun x => decide (itemKey H x = itemKey H i)),
        c x = ψ i.name + C i.name x.sel := by
      intro x hx
      obtain ⟨hx1, hx2⟩ := List.mem_filter.1 hx
      have hk : itemKey H x = itemKey H i := by simpa using hx2
      have hn : x.name = i.name := by
        have := congrArg Prod.fst hk
        cases x <;> cases i <;> simpa [itemKey, QItem.name] using this
      have := (List.mem_filter.1 hx1).2
      cases x with
      | field => simp [QItem.isLink] at this
      | link n q o a => rw [hc.link]; simp [QItem.name] at hn; rw [hn]; rfl
    have hne : i ∈ (linkItems l).filter (fun x => decide (itemKey H x = itemKey H i)) :=
      List.mem_filter.2 ⟨hil, by simp⟩
    have := ih i hil i.name
    rw [nodesOf_eq, List.map_map] at this
    refine Nat.le_trans (Nat.add_le_add_left (by rw [nodesOf_eq]; exact this) _) ?_
    have hsum : (((linkItems l).filter (fun x => decide (itemKey H x = itemKey H i))).map c).sum =
        (((linkItems l).filter (fun x => decide (itemKey H x = itemKey H i))).map
          fun x => ψ i.name + C i.name x.sel).sum := by
      congr 1; exact List.map_congr_left hl
    rw [hsum]
    revert hne
    generalize (linkItems l).filter (fun x => decide (itemKey H x = itemKey H i)) = xs
    intro hne
    have gen : ∀ xs : List QItem, xs.length * ψ i.name +
        (xs.map (C i.name ∘ QItem.sel)).sum =
        (xs.map fun x => ψ i.name + C i.name x.sel).sum := by
      intro xs
      induction xs with
      | nil => simp
      | cons x r ih => simp [Function.comp_def, Nat.succ_mul] at ih ⊢; omega
    rw [← gen]
    have : 1 ≤ xs.length := List.length_pos_of_mem hne
    have := Nat.mul_le_mul_right (ψ i.name) this
    omega
  omega

section
variable (a b : Nat) (sc : Nat → QNode → Nat)

theorem costItems_eq (g : Graph) (gn : GNode) (l : List QItem) :
    costItems a b sc g gn l = (l.map (costItem a b sc g gn)).sum := by
  induction l with
  | nil => simp [costItems]
  | cons x r ih => simp [costItems, ih]

theorem costNode_eq (g : Graph) (gn : GNode) (q : QNode) :
    costNode a b sc g gn q = (q.fields.map (costItem a b sc g gn)).sum := by
  obtain ⟨fs, ord⟩ := q
  simp only [costNode]
  exact costItems_eq a b sc g gn fs

/-- the cost of the selection of the item called `n` -/
def selCost (g : Graph) (gn : GNode) (n : String) (q : QNode) : Nat :=
  match gn.get n with
  | some (.link gl) => (match g.node gl.node with
      | some t => costNode a b sc g t q
      | none => 0)
  | _ => 0

/-- the cost of the item called `n` queried as a link, without its selection -/
def headCost (gn : GNode) (n : String) : Nat :=
  match gn.get n with
  | some (.link gl) => costReq a b sc gn gl + a
  | some (.field gf) => costField a b sc gf
  | none => 0

theorem costItem_comp (g : Graph) (gn : GNode) :
    Compositional (costItem a b sc g gn) (costName a b sc gn) (headCost a b sc gn)
      (selCost a b sc g gn) := by
  constructor
  · intro n o al; simp [costItem]
  · intro n q o al
    simp only [costItem, headCost, selCost]
    cases gn.get n with
    | none => rfl
    | some gi =>
      cases gi with
      | field gf => simp
      | link gl => cases hh : g.node gl.node <;> simp [hh]

theorem costNode_merge (H : PyHash) (g : Graph) (nodes : List QNode) :
    ∀ gn, costNode a b sc g gn (merge H nodes) ≤ (nodes.map (costNode a b sc g gn)).sum := by
  induction nodes using merge_induction' H with
  | h nodes ih =>
    intro gn
    rw [costNode_eq]
    have : nodes.map (costNode a b sc g gn) =
        nodes.map fun q => (q.fields.map (costItem a b sc g gn)).sum :=
      List.map_congr_left fun q _ => costNode_eq ..
    rw [this]
    apply merge_sum_le H (costItem_comp a b sc g gn)
    intro i hi n
    have zero : ∀ l : List QNode, (l.map fun _ => (0 : Nat)).sum = 0 := by
      intro l; induction l with
      | nil => rfl
      | cons _ _ ih => simp [ih]
    cases hg : gn.get n with
    | none => simp [selCost, hg]
    | some gi =>
      cases gi with
      | field gf => simp [selCost, hg]
      | link gl =>
        cases ht : g.node gl.node with
        | none => simp [selCost, hg, ht]
        | some t =>
          have e : selCost a b sc g gn n = costNode a b sc g t := by
            funext q; simp [selCost, hg, ht]
          rw [e]; exact ih i hi t

theorem costThis_merge (H : PyHash) (g : Graph) (node : String) (nodes : List QNode) :
    ((merge H nodes).fields.map (costThis a b sc g node)).sum ≤
      (nodes.map fun q => (q.fields.map (costThis a b sc g node)).sum).sum := by
  apply merge_sum_le H (φ := fun n => if n = THIS then 0 else costName a b sc g.root n)
    (ψ := fun n => if n = THIS then 0 else headCost a b sc g.root n)
    (C := fun n q => if n = THIS then (match g.node node with
        | some t => costNode a b sc g t q
        | none => 0) else selCost a b sc g g.root n q)
  · constructor
    · intro n o al
      simp only [costThis]
      split
      · rfl
      · exact (costItem_comp a b sc g g.root).field ..
    · intro n q o al
      simp only [costThis]
      split
      · cases g.node node <;> simp
      · exact (costItem_comp a b sc g g.root).link ..
  · intro i hi n
    have h := costNode_merge a b sc H g
      (nodesOf H (itemKey H i) (nodes.flatMap QNode.fields))
    by_cases e : n = THIS
    · simp only [if_pos e]
      cases g.node node with
      | none => simp
      | some t => simpa using h t
    · simp only [if_neg e, selCost]
      cases g.root.get n with
      | none => simp
      | some gi =>
        cases gi with
        | field gf => simp
        | link gl =>
          cases ht : g.node gl.node with
          | none => simp [ht]
          | some t => simpa [ht] using h t

end

end Hiku
