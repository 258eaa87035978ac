import Verif.Spec.Protobuf
import Verif.Proofs.Basic
import Verif.Props.Merge

/-! # C30: queries survive export to and reading from protobuf -/

namespace Hiku

variable {C : PbCodec}

theorem pbOptions_ok {o o' : Opts} (h : PbOpts C o o') : ∃ s, pbOptions C o = .ok s ∧ s.map C.toDict = o' := by
  cases h with
  | none => exact ⟨none, rfl, rfl⟩
  | some h => exact ⟨some _, by simp [pbOptions, h], rfl⟩

mutual
theorem pbItem_ok {i i' : QItem} : PbItemView C i i' → ∃ m, pbExportItem C i = .ok m ∧ pbReadItem C m = .ok i'
  | .field (n := n) hn ho => by
    obtain ⟨s, h1, h2⟩ := pbOptions_ok ho
    exact ⟨.field n s, by simp [pbExportItem, h1], by simp [pbReadItem, hn, h2]⟩
  | .link (n := n) hn ho hq => by
    obtain ⟨s, h1, h2⟩ := pbOptions_ok ho
    obtain ⟨m, h3, h4⟩ := pbNode_ok hq
    exact ⟨.link n m s, by simp [pbExportItem, h1, h3], by simp [pbReadItem, hn, h2, h4]⟩
theorem pbNode_ok {q q' : QNode} : PbView C q q' → ∃ m, pbExport C q = .ok m ∧ pbTransform C m = .ok q'
  | .mk h => by
    obtain ⟨m, h1, h2⟩ := pbItems_ok h
    exact ⟨.mk m, by simp [pbExport, h1], by simp [pbTransform, h2]⟩
theorem pbItems_ok {fs fs' : List QItem} : PbItemsView C fs fs' → ∃ m, pbExportItems C fs = .ok m ∧ pbReadItems C m = .ok fs'
  | .nil => ⟨[], rfl, rfl⟩
  | .cons h hr => by
    obtain ⟨m, h1, h2⟩ := pbItem_ok h
    obtain ⟨ms, h3, h4⟩ := pbItems_ok hr
    exact ⟨m :: ms, by simp [pbExportItems, h1, h3], by simp [pbReadItems, h2, h4]⟩
end

/-- C30: every query with non-empty names and options which `ParseDict` accepts is exported, and the message is read as
the merged query with the same names and nesting, the converted options and without aliases. -/
theorem c30_view (H : PyHash) {q q' : QNode} (h : PbView C q q') :
    ∃ m, pbExport C q = .ok m ∧ pbRead C H m = .ok (merge H [q']) := by
  obtain ⟨m, h1, h2⟩ := pbNode_ok h
  exact ⟨m, h1, by simp [pbRead, h2]⟩

mutual
theorem pbItemSafe_view : (i : QItem) → PbItemSafe C i → PbItemView C i i
  | .field n o a, h => by
    simp only [PbItemSafe] at h
    obtain ⟨h1, rfl, h2⟩ := h
    exact .field h1 h2
  | .link n q o a, h => by
    simp only [PbItemSafe] at h
    obtain ⟨h1, rfl, h2, h3⟩ := h
    exact .link h1 h2 (pbSafe_view q h3)
theorem pbSafe_view : (q : QNode) → PbSafe C q → PbView C q q
  | .mk fs ord, h => by
    simp only [PbSafe] at h
    obtain ⟨rfl, h⟩ := h
    exact .mk (pbItemsSafe_view fs h)
theorem pbItemsSafe_view : (fs : List QItem) → PbItemsSafe C fs → PbItemsView C fs fs
  | [], _ => .nil
  | i :: r, h => by
    simp only [PbItemsSafe] at h
    exact .cons (pbItemSafe_view i h.1) (pbItemsSafe_view r h.2)
end

/-- C30, for queries without aliases and `ordered` nodes, with non-empty names, whose options survive the conversion
to `Struct` and back (`PbSafe`): `transform(export(q))` is `merge([q])`.  Missing from the full statement, because it is
false there (`c30_alias`, `c30_ordered`, `c30_malformed`): aliases, mutations, empty names. -/
theorem c30_partial (H : PyHash) {q : QNode} (h : PbSafe C q) :
    ∃ m, pbExport C q = .ok m ∧ pbRead C H m = .ok (merge H [q]) :=
  c30_view H (pbSafe_view q h)

mutual
theorem pbReadItem_wf : (m : PbItem C.S) → (m.WellFormed → ∃ i, pbReadItem C m = .ok i) ∧ (¬ m.WellFormed → pbReadItem C m = .error .typeError)
  | .empty => ⟨fun h => h.elim, fun _ => rfl⟩
  | .field n s => by
    refine ⟨fun h => ⟨_, by rw [pbReadItem, if_neg h]⟩, fun h => ?_⟩
    have : n = "" := by simpa [PbItem.WellFormed] using h
    simp [pbReadItem, this]
  | .link n m s => by
    obtain ⟨h1, h2⟩ := pbTransform_wf m
    by_cases hn : n = ""
    · refine ⟨fun h => ?_, fun _ => by simp [pbReadItem, hn]⟩
      simp only [PbItem.WellFormed] at h
      exact absurd hn h.1
    · refine ⟨fun h => ?_, fun h => ?_⟩
      · simp only [PbItem.WellFormed] at h
        obtain ⟨q, hq⟩ := h1 h.2
        exact ⟨_, by simp [pbReadItem, hn, hq]; rfl⟩
      · simp only [PbItem.WellFormed, not_and] at h
        simp [pbReadItem, hn, h2 (h hn)]
theorem pbTransform_wf : (m : PbNode C.S) → (m.WellFormed → ∃ q, pbTransform C m = .ok q) ∧ (¬ m.WellFormed → pbTransform C m = .error .typeError)
  | .mk items => by
    obtain ⟨h1, h2⟩ := pbReadItems_wf items
    simp only [PbNode.WellFormed]
    refine ⟨fun h => ?_, fun h => by simp [pbTransform, h2 h]⟩
    obtain ⟨r, hr⟩ := h1 h
    exact ⟨_, by simp [pbTransform, hr]; rfl⟩
theorem pbReadItems_wf : (items : List (PbItem C.S)) → (PbWellFormed items → ∃ r, pbReadItems C items = .ok r) ∧
    (¬ PbWellFormed items → pbReadItems C items = .error .typeError)
  | [] => ⟨fun _ => ⟨[], rfl⟩, fun h => absurd trivial h⟩
  | i :: r => by
    obtain ⟨h1, h2⟩ := pbReadItem_wf i
    obtain ⟨h3, h4⟩ := pbReadItems_wf r
    simp only [PbWellFormed]
    by_cases hi : i.WellFormed
    · obtain ⟨a, ha⟩ := h1 hi
      refine ⟨fun h => ?_, fun h => ?_⟩
      · obtain ⟨b, hb⟩ := h3 h.2
        exact ⟨_, by simp [pbReadItems, ha, hb]; rfl⟩
      · simp [pbReadItems, ha, h4 fun hr => h ⟨hi, hr⟩]
    · exact ⟨fun h => absurd h.1 hi, fun _ => by simp [pbReadItems, h2 hi]⟩
end

/-- C30: a message is read exactly when every item, at any depth, is a field or a link with a name; otherwise `read`
raises TypeError. -/
theorem c30_malformed (C : PbCodec) (H : PyHash) (m : PbNode C.S) :
    (m.WellFormed → ∃ q, pbRead C H m = .ok q) ∧ (¬ m.WellFormed → pbRead C H m = .error .typeError) := by
  obtain ⟨h1, h2⟩ := pbTransform_wf m
  refine ⟨fun h => ?_, fun h => by simp [pbRead, h2 h]⟩
  obtain ⟨q, hq⟩ := h1 h
  exact ⟨_, by simp [pbRead, hq]; rfl⟩

/-! ### The assumptions can be met, and counterexamples -/

/-- strings only: other options raise TypeError -/
def exCodec : PbCodec where
  S := List (String × String)
  parse o := o.mapM fun kv => match kv.2 with | .str s => .ok (kv.1, s) | _ => .error .typeError
  toDict s := s.map fun kv => (kv.1, .str kv.2)

def exPb : QNode :=
  .mk [.field "a" none none, .field "a" (some []) none,
    .link "c" (.mk [.link "e" (.mk [.field "g" none none] false) (some [("k", .str "v")]) none] false) none none,
    .link "c" (.mk [.field "a" none none] false) none none] false

theorem exPb_safe : PbSafe exCodec exPb := by
  have h1 : PbOpts exCodec (some []) (some []) := .some (C := exCodec) (o := []) (s := ([] : List (String × String))) rfl
  have h2 : PbOpts exCodec (some [("k", .str "v")]) (some [("k", .str "v")]) :=
    .some (C := exCodec) (o := [("k", .str "v")]) (s := ([("k", "v")] : List (String × String))) rfl
  simp only [exPb, PbSafe, PbItemsSafe, PbItemSafe, and_true, true_and]
  exact ⟨⟨by decide, .none⟩, ⟨by decide, h1⟩, ⟨by decide, .none, by decide, h2, by decide, .none⟩, by decide, .none, by decide, .none⟩

example : ∃ m, pbExport exCodec exPb = .ok m ∧ pbRead exCodec exHash m = .ok (merge exHash [exPb]) := c30_partial _ exPb_safe

/-- an alias is lost -/
theorem c30_alias (H : PyHash) : ∃ m, pbExport C (.mk [.field "a" none (some "b")] false) = .ok m ∧
    pbRead C H m = .ok (.mk [.field "a" none none] false) := ⟨_, rfl, rfl⟩

/-- the query of a mutation is read as an unordered one -/
theorem c30_ordered (H : PyHash) : ∃ m, pbExport C (.mk [.field "a" none none] true) = .ok m ∧
    pbRead C H m = .ok (.mk [.field "a" none none] false) := ⟨_, rfl, rfl⟩

/-- a query with an empty name is exported, but its message cannot be read -/
theorem c30_empty_name (H : PyHash) : ∃ m, pbExport C (.mk [.field "" none none] false) = .ok m ∧
    pbRead C H m = .error .typeError := ⟨_, rfl, rfl⟩

/-- a message with a nested empty item -/
example (H : PyHash) : pbRead exCodec H (.mk [.field "a" none, .link "b" (.mk [.empty]) none]) = .error .typeError :=
  (c30_malformed exCodec H _).2 fun h => by
    simp [PbNode.WellFormed, PbWellFormed, PbItem.WellFormed] at h

end Hiku
