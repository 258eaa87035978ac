import Verif.Props.MetaSchema
import Verif.Props.IntrospectExample

/-! The hypotheses of C68 hold for the example program. -/

namespace Hiku.MetaSchema
open Hiku.Intro Hiku.Telemetry

/-- `{ __type(name: "Track") { kind name fields { name type { kind ofType { name } } } } }` -/
def exMeta : QNode := .mk [
  .link "__type" (.mk [.field "kind" none none, .field "name" none none, .link "fields" exFieldQ none (some "f")] false)
    (some [("name", .str "Track")]) none] false

theorem exArgs : ArgsOk [] none := ⟨fun kv h => (by cases h), fun a h => (by cases h)⟩
theorem exArgs1 : ArgsOk [.boolean "includeDeprecated"] none := by
  refine ⟨fun kv h => (by cases h), ?_⟩
  intro a h
  simp only [List.mem_cons, List.not_mem_nil, or_false] at h
  subst h
  intro v h
  cases h

theorem exNoDup {fs : List QItem} (h : (fs.map QItem.resultKey).Nodup) :
    ∀ i j, [i, j].Sublist fs → i.resultKey = j.resultKey → SameItem i j := by
  intro i j hs hk
  exfalso
  have := (hs.map QItem.resultKey).nodup h
  simp [hk] at this

theorem exMeta_selects : Selects .query exMeta := by
  have hleaf : ∀ (t : MetaType) (f : MetaField) (a : Option String), f ∈ metaFields t → f.args = [] → f.out ∈ leaves →
      SelectsItem t (.field f.name none a) := by
    intro t f a hf ha hl
    rw [SelectsItem]
    exact ⟨f, hf, rfl, ha ▸ exArgs, hl⟩
  have h3 : Selects .type (.mk [.field "name" none none] false) := by
    rw [Selects]
    exact ⟨⟨hleaf .type { name := "name", out := .string } none (by decide) rfl (by decide), trivial⟩, exNoDup (by decide)⟩
  have h2 : Selects .type exTypeQ := by
    rw [exTypeQ, Selects]
    refine ⟨⟨hleaf .type { name := "kind", out := .kind } none (by decide) rfl (by decide), ?_, trivial⟩, exNoDup (by decide)⟩
    rw [SelectsItem]
    exact ⟨{ name := "ofType", out := .object .type }, by decide, rfl, exArgs, .type, by decide, h3⟩
  have h1 : Selects .field exFieldQ := by
    rw [exFieldQ, Selects]
    refine ⟨⟨hleaf .field { name := "name", out := .requiredString } none (by decide) rfl (by decide), ?_, trivial⟩, exNoDup (by decide)⟩
    rw [SelectsItem]
    exact ⟨{ name := "type", out := .requiredObject .type }, by decide, rfl, exArgs, .type, by decide, h2⟩
  rw [exMeta, Selects]
  refine ⟨⟨?_, trivial⟩, exNoDup (by decide)⟩
  rw [SelectsItem]
  refine ⟨{ name := "__type", out := .object .type, args := [.requiredString "name"] }, by decide, rfl, ?_, .type, by decide, ?_⟩
  · refine ⟨?_, ?_⟩
    · intro kv h
      simp only [Option.getD_some, List.mem_cons, List.not_mem_nil, or_false] at h
      subst h
      exact .inl (by decide)
    · intro a h
      simp only [List.mem_cons, List.not_mem_nil, or_false] at h
      subst h
      exact ⟨"Track", rfl⟩
  · rw [Selects]
    refine ⟨⟨hleaf .type { name := "kind", out := .kind } none (by decide) rfl (by decide),
      hleaf .type { name := "name", out := .string } none (by decide) rfl (by decide), ?_, trivial⟩, exNoDup (by decide)⟩
    rw [SelectsItem]
    exact ⟨{ name := "fields", out := .list .field, args := [.boolean "includeDeprecated"] }, by decide, rfl, exArgs1, .field,
      by decide, h1⟩

theorem exMeta_keys : UniqueKeys exMeta := by
  simp [exMeta, exFieldQ, exTypeQ, UniqueKeys, UniqueKeysItems, QItem.resultKey, QItem.name, QItem.alias_]

/-- the query with the default of `includeDeprecated` -/
def exMeta' : QNode := .mk [
  .link "__type" (.mk [.field "kind" none none, .field "name" none none,
      .link "fields" exFieldQ (some [("includeDeprecated", .bool false)]) (some "f")] false)
    (some [("name", .str "Track")]) none] false

mutual
/-- names and options in a query -/
def pairsOf : QNode → List (String × Opts)
  | .mk fs _ => pairsOfAll fs
def pairsOfAll : List QItem → List (String × Opts)
  | [] => []
  | .field n o _ :: r => (n, o) :: pairsOfAll r
  | .link n q o _ :: r => (n, o) :: (pairsOf q ++ pairsOfAll r)
end

theorem pairsOf_mem {fs : List QItem} {i : QItem} (h : i ∈ fs) : (i.name, i.options) ∈ pairsOfAll fs ∧
    ∀ n q o a, i = .link n q o a → ∀ x ∈ pairsOf q, x ∈ pairsOfAll fs := by
  induction fs with
  | nil => cases h
  | cons j r ih =>
    rcases List.mem_cons.1 h with rfl | h
    · cases i with
      | field n o a => exact ⟨by simp [pairsOfAll, QItem.name, QItem.options], fun _ _ _ _ e => by cases e⟩
      | link n q o a =>
        refine ⟨by simp [pairsOfAll, QItem.name, QItem.options], fun _ _ _ _ e x hx => ?_⟩
        cases e
        simp only [pairsOfAll, List.mem_cons, List.mem_append]
        exact .inr (.inl hx)
    · obtain ⟨h1, h2⟩ := ih h
      cases j with
      | field n o a => exact ⟨List.mem_cons_of_mem _ h1, fun _ _ _ _ e x hx => List.mem_cons_of_mem _ (h2 _ _ _ _ e x hx)⟩
      | link n q o a =>
        exact ⟨List.mem_cons_of_mem _ (List.mem_append_right _ h1),
          fun _ _ _ _ e x hx => List.mem_cons_of_mem _ (List.mem_append_right _ (h2 _ _ _ _ e x hx))⟩

theorem pairsOf_at {g : Graph} {gn : GNode} {q : QNode} {p : List Nat} {node : GNode} {i : QItem}
    (h : ItemAt g gn q p node i) : (i.name, i.options) ∈ pairsOf q := by
  induction h with
  | @here _ q k i hk =>
    obtain ⟨fs, ord⟩ := q
    exact (pairsOf_mem (List.mem_of_getElem? hk)).1
  | @inLink _ q k n q' o a _ _ _ _ _ hk _ _ _ ih =>
    obtain ⟨fs, ord⟩ := q
    exact (pairsOf_mem (List.mem_of_getElem? hk)).2 _ _ _ _ rfl _ ih

/-- all hypotheses of C68 hold: the query is executed, one future per round, and answered -/
theorem exMeta_served : ∃ st n st' wf v, startQuery (introEnv 6 exDumps exSchema exEnv 1 exHigh exGraph') 1 exMeta = .ok st ∧
    Loops (introEnv 6 exDumps exSchema exEnv 1 exHigh exGraph') (fun _ l => l.take 1) 0 st n (.ok st') ∧
    st'.wfs[0]? = some wf ∧ wf.query = exMeta' ∧
    readNode exEnv.H wf.index rootName rootIdent exMeta' = .ok v ∧ Answers .query exMeta v := by
  obtain ⟨q', h1, h2⟩ := c68_served (gi := 1) (exGoodU fun n h => exUI_none (by simp [THIS] at h ⊢; tauto)) exFaithfulI exConformsU exBelow
    (by intro x hx; simp [exEnv] at hx; subst hx; decide) exNames exGoodSchema Intro.exTypes rfl exIntro validChoice_first
    exMeta_selects exMeta_keys
  have : initOptions exGraph' exMeta = .ok exMeta' := rfl
  rw [this] at h1
  cases h1
  apply h2
  intro p node i hi
  have h3 := pairsOf_at hi
  have h4 : ∀ x ∈ pairsOf exMeta', x ∈ exPairs := by
    intro x hx
    simp only [exMeta', exFieldQ, exTypeQ, pairsOf, pairsOfAll, List.mem_cons, List.mem_append, List.not_mem_nil, or_false] at hx
    rcases hx with rfl | rfl | rfl | rfl | rfl | rfl | rfl | rfl | rfl <;> simp [exPairs]
  exact h4 _ h3

end Hiku.MetaSchema
