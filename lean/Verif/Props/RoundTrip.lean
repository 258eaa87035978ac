import Verif.Props.Simple
import Verif.Props.Protobuf
import Verif.Props.ExportGraphql
import Mathlib.Data.List.Forall2

/-! # C29, C30, C31, exactly when they hold

The readers return merged queries.  For a merged query (`merge H [q] = q`) the theorems of this file say exactly when
exporting and reading gives the query back. -/

namespace Hiku.RoundTrip
open Hiku

mutual
/-- the same items at the same places, whatever their names, options and aliases -/
def SameItem : QItem → QItem → Prop
  | .field .., .field .. => True
  | .link _ q _ _, .link _ q' _ _ => SameShape q q'
  | _, _ => False
def SameShape : QNode → QNode → Prop
  | .mk fs _, .mk fs' _ => SameItems fs fs'
def SameItems : List QItem → List QItem → Prop
  | [], [] => True
  | i :: r, i' :: r' => SameItem i i' ∧ SameItems r r'
  | _, _ => False
end

theorem SameItem.isLink {i i' : QItem} (h : SameItem i i') : i.isLink = i'.isLink := by
  cases i <;> cases i' <;> simp [SameItem, QItem.isLink] at h ⊢

theorem SameItems.forall₂ : {l l' : List QItem} → SameItems l l' → List.Forall₂ SameItem l l'
  | [], [], _ => .nil
  | [], _ :: _, h => by simp [SameItems] at h
  | _ :: _, [], h => by simp [SameItems] at h
  | _ :: _, _ :: _, h => by
    simp only [SameItems] at h
    exact .cons h.1 (SameItems.forall₂ h.2)

theorem filter_length {p : QItem → Bool} (hp : ∀ i i' : QItem, i.isLink = i'.isLink → p i = p i') {l l' : List QItem}
    (h : List.Forall₂ SameItem l l') : (l.filter p).length = (l'.filter p).length := by
  induction h with
  | nil => rfl
  | cons h _ ih =>
    rw [List.filter_cons, List.filter_cons, hp _ _ h.isLink]
    split <;> simp [ih]

theorem dedupBy_sublist {α κ : Type} [DecidableEq κ] (f : α → κ) (s : List κ) (l : List α) : (dedupBy f s l).Sublist l := by
  induction l generalizing s with
  | nil => exact .slnil
  | cons x r ih =>
    simp only [dedupBy]
    split
    · exact .cons _ (ih _)
    · exact .cons₂ _ (ih _)

theorem nodesOf_single (H : PyHash) {l : List QItem} (hn : ((linkItems l).map (itemKey H)).Nodup) {n : String} {q : QNode} {o : Opts}
    {a : Option String} (hi : QItem.link n q o a ∈ l) : nodesOf H (n, optionsHash H o, a) l = [q] := by
  induction l with
  | nil => cases hi
  | cons x r ih =>
    have e2 : nodesOf H (n, optionsHash H o, a) (x :: r) = nodesOf H (n, optionsHash H o, a) [x] ++ nodesOf H (n, optionsHash H o, a) r :=
      nodesOf_append H _ [x] r
    rw [e2]
    cases x with
    | field n' o' a' =>
      have hi' : QItem.link n q o a ∈ r := by simpa using hi
      rw [ih (by simpa [linkItems, QItem.isLink] using hn) hi']
      simp [nodesOf]
    | link n' q' o' a' =>
      have e : linkItems (QItem.link n' q' o' a' :: r) = QItem.link n' q' o' a' :: linkItems r := rfl
      rw [e, List.map_cons, List.nodup_cons] at hn
      rcases List.mem_cons.1 hi with h | h
      · cases h
        have : nodesOf H (n, optionsHash H o, a) r = [] := by
          rw [List.eq_nil_iff_forall_not_mem]
          intro q1 h1
          obtain ⟨n1, o1, a1, h2, h3⟩ := mem_nodesOf.1 h1
          refine hn.1 (List.mem_map.2 ⟨_, mem_linkItems.2 ⟨h2, rfl⟩, ?_⟩)
          simpa [itemKey] using h3
        rw [this]
        simp [nodesOf]
      · rw [ih hn.2 h]
        have : (n', optionsHash H o', a') ≠ (n, optionsHash H o, a) := by
          intro h1
          refine hn.1 (List.mem_map.2 ⟨_, mem_linkItems.2 ⟨h, rfl⟩, ?_⟩)
          simpa [itemKey] using h1.symm
        have e3 : nodesOf H (n, optionsHash H o, a) [QItem.link n' q' o' a'] = [] := by
          unfold nodesOf
          simp only [List.filterMap_cons, if_neg this, List.filterMap_nil]
        rw [e3]; rfl

theorem split_items {l l' : List QItem} (h : List.Forall₂ SameItem l l') (hl : l = fieldItems l ++ linkItems l) :
    l' = fieldItems l' ++ linkItems l' := by
  induction h with
  | nil => rfl
  | @cons i i' r r' h1 h2 ih =>
    cases i' with
    | field =>
      have hi : i.isLink = false := h1.isLink
      have : r = fieldItems r ++ linkItems r := by
        have e : fieldItems (i :: r) ++ linkItems (i :: r) = i :: (fieldItems r ++ linkItems r) := by
          simp [fieldItems, linkItems, hi]
        rw [e] at hl
        exact (List.cons.inj hl).2
      have := ih this
      conv => lhs; rw [this]
      rfl
    | link n q o a =>
      have hi : i.isLink = true := h1.isLink
      have hf : fieldItems r = [] := by
        have e : fieldItems (i :: r) ++ linkItems (i :: r) = fieldItems r ++ i :: linkItems r := by
          simp [fieldItems, linkItems, hi]
        rw [e] at hl
        cases hfr : fieldItems r with
        | nil => rfl
        | cons x xs =>
          rw [hfr] at hl
          have hx : x ∈ fieldItems r := by rw [hfr]; simp
          have := (mem_fieldItems.1 hx).2
          have e1 : i = x := (List.cons.inj hl).1
          rw [← e1, hi] at this
          cases this
      have hf' : fieldItems r' = [] := by
        have := filter_length (p := fun i => !i.isLink) (fun _ _ h => by simp [h]) h2
        unfold fieldItems at hf
        rw [hf] at this
        exact List.eq_nil_of_length_eq_zero this.symm
      have hall : ∀ x ∈ r', x.isLink = true := by
        intro x hx
        cases hxl : x.isLink with
        | true => rfl
        | false =>
          have : x ∈ fieldItems r' := mem_fieldItems.2 ⟨hx, hxl⟩
          rw [hf'] at this; cases this
      have e1 : linkItems r' = r' := List.filter_eq_self.2 hall
      have e2 : fieldItems (QItem.link n q o a :: r') = fieldItems r' := rfl
      have e3 : linkItems (QItem.link n q o a :: r') = QItem.link n q o a :: linkItems r' := rfl
      rw [e2, e3, hf', e1]; rfl

mutual
/-- merging a query changes nothing, or changes the shape -/
theorem merge_shape (H : PyHash) : (q' : QNode) → SameShape (merge H [q']) q' → merge H [q'] = q'
  | .mk fs' ord', hs => by
    have hx := merge_closed H [.mk fs' ord']
    simp only [List.flatMap_cons, List.flatMap_nil, List.append_nil, QNode.fields_mk, List.any_cons, QNode.ordered_mk,
      List.any_nil, Bool.or_false] at hx
    rw [hx] at hs ⊢
    simp only [SameShape] at hs
    have hs := hs.forall₂
    generalize hg : (fun i : QItem => QItem.link i.name (merge H (nodesOf H (itemKey H i) fs')) i.options i.alias_) = g at hs ⊢
    have hgl : ∀ i, (g i).isLink = true := by intro i; rw [← hg]; rfl
    have hp := partition_items (dedupBy (itemKey H) [] (fieldItems fs')) ((dedupBy (itemKey H) [] (linkItems fs')).map g)
      (fun i hi => (mem_fieldItems.1 (mem_of_mem_dedupBy _ hi)).2)
      (fun i hi => by obtain ⟨j, _, rfl⟩ := List.mem_map.1 hi; exact hgl j)
    have hA : dedupBy (itemKey H) [] (fieldItems fs') = fieldItems fs' := by
      refine (dedupBy_sublist _ _ _).eq_of_length ?_
      have := filter_length (p := fun i => !i.isLink) (fun _ _ h => by simp [h]) hs
      change (fieldItems _).length = (fieldItems _).length at this
      rw [hp.1] at this
      exact this
    have hB : dedupBy (itemKey H) [] (linkItems fs') = linkItems fs' := by
      refine (dedupBy_sublist _ _ _).eq_of_length ?_
      have := filter_length (p := fun i => i.isLink) (fun _ _ h => h) hs
      change (linkItems _).length = (linkItems _).length at this
      rw [hp.2, List.length_map] at this
      exact this
    rw [hA, hB] at hp hs
    rw [hA, hB]
    have hfs := split_items hs (by rw [hp.1, hp.2])
    have hn : ((linkItems fs').map (itemKey H)).Nodup := by rw [← hB]; exact nodup_dedupBy _ _ _
    have hmap : (linkItems fs').map g = linkItems fs' := by
      have hs2 : List.Forall₂ SameItem ((linkItems fs').map g) (linkItems fs') := by
        have e : List.Forall₂ SameItem (fieldItems fs' ++ (linkItems fs').map g) (fieldItems fs' ++ linkItems fs') := by
          rw [← hfs]; exact hs
        have := List.forall₂_drop (fieldItems fs').length e
        simpa using this
      rw [List.forall₂_map_left_iff] at hs2
      have hs3 : ∀ i ∈ linkItems fs', SameItem (g i) i := by
        have : ∀ {l : List QItem}, List.Forall₂ (fun i i' => SameItem (g i) i') l l → ∀ i ∈ l, SameItem (g i) i := by
          intro l
          induction l with
          | nil => intro _ i hi; cases hi
          | cons x r ih =>
            intro h i hi
            cases h with
            | cons h1 h2 =>
              rcases List.mem_cons.1 hi with rfl | hi
              · exact h1
              · exact ih h2 i hi
        exact this hs2
      conv => rhs; rw [← List.map_id (linkItems fs')]
      apply List.map_congr_left
      intro i hi
      obtain ⟨hi1, hi2⟩ := mem_linkItems.1 hi
      have := hs3 i hi
      cases i with
      | field => cases hi2
      | link n q o a =>
        rw [← hg] at this ⊢
        have e : nodesOf H (itemKey H (.link n q o a)) fs' = [q] := nodesOf_single H hn hi1
        simp only [e, QItem.name, QItem.options, QItem.alias_, id] at this ⊢
        simp only [SameItem] at this
        rw [merge_shape_items H fs' _ hi1 n q o a rfl this]
    rw [hmap, ← hfs]
theorem merge_shape_items (H : PyHash) : (fs : List QItem) → ∀ i ∈ fs, ∀ n q o a, i = .link n q o a →
    SameShape (merge H [q]) q → merge H [q] = q
  | [], _, hi, _, _, _, _, _, _ => by cases hi
  | .field _ _ _ :: r, i, hi, n, q, o, a, e, h => by
    rcases List.mem_cons.1 hi with h1 | h1
    · subst e; cases h1
    · exact merge_shape_items H r i h1 n q o a e h
  | .link n' q' o' a' :: r, i, hi, n, q, o, a, e, h => by
    by_cases h1 : i = .link n' q' o' a'
    · have : q = q' := by rw [h1] at e; injection e with _ e2; exact e2.symm
      subst this
      exact merge_shape H q h
    · exact merge_shape_items H r i ((List.mem_cons.1 hi).resolve_left h1) n q o a e h
end

theorem merge_eq_of_shape {H : PyHash} {q q' : QNode} (hs : SameShape q q') (h : merge H [q'] = q) : q' = q := by
  subst h
  exact (merge_shape H q' hs).symm

/-! ## GraphQL -/

mutual
theorem gql_sameItem : (i : QItem) → SameItem i (gqlItem i)
  | .field .. => by simp [gqlItem, SameItem]
  | .link n q o a => by simp only [gqlItem, SameItem]; exact gql_sameShape q
theorem gql_sameShape : (q : QNode) → SameShape q (gqlQuery q)
  | .mk fs _ => by simp only [gqlQuery, SameShape]; exact gql_sameItems fs
theorem gql_sameItems : (fs : List QItem) → SameItems fs (gqlItems fs)
  | [] => by simp [gqlItems, SameItems]
  | i :: r => by simp only [gqlItems, SameItems]; exact ⟨gql_sameItem i, gql_sameItems r⟩
end

theorem noEmpty_ne (o : Opts) : noEmpty o ≠ some [] := by
  rcases o with _ | _ | ⟨kv, r⟩ <;> simp [noEmpty]

mutual
theorem tidyItem_gql : (i : QItem) → TidyItem (gqlItem i)
  | .field n o a => by simp only [gqlItem, TidyItem]; exact noEmpty_ne o
  | .link n q o a => by simp only [gqlItem, TidyItem]; exact ⟨noEmpty_ne o, tidyQuery_gql q⟩
theorem tidyQuery_gql : (q : QNode) → TidyQuery (gqlQuery q)
  | .mk fs _ => by simp only [gqlQuery, TidyQuery]; exact ⟨trivial, tidyItems_gql fs⟩
theorem tidyItems_gql : (fs : List QItem) → TidyItems (gqlItems fs)
  | [] => by simp [gqlItems, TidyItems]
  | i :: r => by simp only [gqlItems, TidyItems]; exact ⟨tidyItem_gql i, tidyItems_gql r⟩
end

/-- **C31, exactly when it holds.**  A merged query with JSON options is exported to a document which is read as the query
if and only if it has no `ordered` nodes and no `{}` for options (aliases survive). -/
theorem c31_iff (H : PyHash) {q : QNode} (h : JsonQuery q) (hm : merge H [q] = q) :
    (∃ doc, gqlExport q = .ok doc ∧ ∀ given, readGraphql H doc given none = .ok q) ↔ TidyQuery q := by
  constructor
  · rintro ⟨doc, h1, h2⟩
    obtain ⟨doc', h3, h4⟩ := c31_view H h
    rw [h1] at h3
    cases h3
    have := h2 []
    rw [h4 []] at this
    have e := merge_eq_of_shape (gql_sameShape q) (Except.ok.inj this)
    rw [← e]
    exact tidyQuery_gql q
  · intro ht
    have := c31_partial H h ht
    rwa [hm] at this

/-! ## EDN -/

mutual
theorem view_sameItem : (i : QItem) → SameItem i (viewItem i)
  | .field .. => by simp [viewItem, SameItem]
  | .link n q o a => by simp only [viewItem, SameItem]; exact view_sameShape q
theorem view_sameShape : (q : QNode) → SameShape q (viewQuery q)
  | .mk fs _ => by simp only [viewQuery, SameShape]; exact view_sameItems fs
theorem view_sameItems : (fs : List QItem) → SameItems fs (viewItems fs)
  | [] => by simp [viewItems, SameItems]
  | i :: r => by simp only [viewItems, SameItems]; exact ⟨view_sameItem i, view_sameItems r⟩
end

theorem viewOpts_kept (o : Opts) : viewOpts o = o ↔ KeptOpts o := by
  cases o with
  | none => simp [viewOpts, KeptOpts]
  | some kvs =>
    simp only [viewOpts, KeptOpts, Option.map_some, Option.some.injEq, Option.mem_def, forall_eq']
    induction kvs with
    | nil => simp
    | cons kv r ih =>
      simp only [List.map_cons, List.cons.injEq, ih, List.mem_cons, forall_eq_or_imp]
      exact and_congr_left fun _ => ⟨fun h => (Prod.ext_iff.1 h).2, fun h => Prod.ext rfl h⟩

mutual
theorem viewItem_kept : (i : QItem) → (viewItem i = i ↔ KeptItem i)
  | .field n o a => by
    simp only [viewItem, KeptItem, QItem.field.injEq, true_and, viewOpts_kept]
    exact ⟨fun h => ⟨h.2.symm, h.1⟩, fun h => ⟨h.2, h.1.symm⟩⟩
  | .link n q o a => by
    simp only [viewItem, KeptItem, QItem.link.injEq, true_and, viewOpts_kept, viewQuery_kept q]
    exact ⟨fun h => ⟨h.2.2.symm, h.2.1, h.1⟩, fun h => ⟨h.2.2, h.2.1, h.1.symm⟩⟩
theorem viewQuery_kept : (q : QNode) → (viewQuery q = q ↔ KeptQuery q)
  | .mk fs ord => by
    simp only [viewQuery, KeptQuery, QNode.mk.injEq, viewItems_kept fs]
    exact ⟨fun h => ⟨h.2.symm, h.1⟩, fun h => ⟨h.2, h.1.symm⟩⟩
theorem viewItems_kept : (fs : List QItem) → (viewItems fs = fs ↔ KeptItems fs)
  | [] => by simp [viewItems, KeptItems]
  | i :: r => by simp only [viewItems, KeptItems, List.cons.injEq, viewItem_kept i, viewItems_kept r]
end

/-- **C29, exactly when it holds.**  A merged query which can be exported to EDN text and read from it is read unchanged
if and only if it has no aliases, no `ordered` nodes, and its option values are values which EDN keeps. -/
theorem c29_iff {P : PyText} {th : String → Option (Val → Except Err Val)} (hP : P.Ok) (ascii : Bool) (H : PyHash)
    (pyStr : Val → String) {q : QNode} (h : SimpleQuery P th ascii q) (hm : merge H [q] = q) :
    (∃ v t, exportNode pyStr q = .ok v ∧ dumps ascii v = .ok t ∧ simpleRead P th H t = .ok q) ↔ KeptQuery q := by
  rw [← viewQuery_kept]
  obtain ⟨v, t, h1, h2, h3⟩ := c29_view hP ascii H pyStr h
  constructor
  · rintro ⟨v', t', h4, h5, h6⟩
    rw [h1] at h4; cases h4
    rw [h2] at h5; cases h5
    rw [h3] at h6
    exact merge_eq_of_shape (view_sameShape q) (Except.ok.inj h6)
  · intro e
    rw [e, hm] at h3
    exact ⟨v, t, h1, h2, h3⟩

/-- which option values EDN keeps -/
theorem c29_kept_value (v : Val) (h : Exportable v) : ednView v = v ↔
    v.Scalar ∨ (∃ xs, v = .seq .eset xs ∧ mkSet (ednViews xs) = xs) ∨ v = .map .edict [] := by
  constructor
  · intro e
    cases v with
    | atom a => cases a <;> first | exact .inl trivial | (simp [Exportable] at h)
    | seq k xs =>
      cases k with
      | eset => refine .inr (.inl ⟨xs, rfl, ?_⟩); simpa [ednView] using e
      | _ => first | (simp [ednView] at e; done) | (simp [Exportable] at h; done)
    | map k kvs =>
      cases k with
      | dict => simp [ednView] at e
      | edict =>
        cases kvs with
        | nil => exact .inr (.inr rfl)
        | cons kv r =>
          exfalso
          obtain ⟨k, x⟩ := kv
          simp only [Exportable, ExportableKvs] at h
          obtain ⟨⟨s, rfl⟩, -, hr⟩ := h
          simp only [ednView, ednViewKvs, Val.map.injEq, true_and] at e
          have h1 : (Val.str s, x) ∈ dmk ((Val.kw s, ednView x) :: ednViewKvs r) := by rw [e]; simp
          have h2 : Val.str s ∈ (dmk ((Val.kw s, ednView x) :: ednViewKvs r)).map (·.1) := List.mem_map.2 ⟨_, h1, rfl⟩
          rw [mem_keys_dmk] at h2
          have h3 : ∀ kvs : List (Val × Val), ExportableKvs kvs → Val.str s ∉ (ednViewKvs kvs).map (·.1) := by
            intro kvs
            induction kvs with
            | nil => intro _; simp [ednViewKvs]
            | cons kv r ih =>
              obtain ⟨k, y⟩ := kv
              intro hk
              simp only [ExportableKvs] at hk
              obtain ⟨⟨s', rfl⟩, -, hk⟩ := hk
              simp only [ednViewKvs, List.map_cons, List.mem_cons, not_or]
              exact ⟨by simp, ih hk⟩
          simp only [List.map_cons, List.mem_cons] at h2
          rcases h2 with h2 | h2
          · cases h2
          · exact h3 r hr h2
    | tagged => simp [Exportable] at h
    | ref => simp [Exportable] at h
  · rintro (hs | ⟨xs, rfl, hx⟩ | rfl)
    · cases v with
      | atom a => cases a <;> rfl
      | _ => cases hs
    · simp [ednView, hx]
    · rfl

/-! ## protobuf -/

variable {C : PbCodec}

theorem pbOptions_view {o : Opts} {s : Option C.S} (h : pbOptions C o = .ok s) : PbOpts C o (s.map C.toDict) := by
  cases o with
  | none => cases h; exact .none
  | some kvs =>
    simp only [pbOptions, bind_ok_iff] at h
    obtain ⟨s', h1, h2⟩ := h
    cases h2
    exact .some h1

mutual
theorem pbItem_view : (i : QItem) → ∀ m i', pbExportItem C i = .ok m → pbReadItem C m = .ok i' → PbItemView C i i'
  | .field n o a, m, i', h1, h2 => by
    simp only [pbExportItem, bind_ok_iff] at h1
    obtain ⟨s, h3, h1⟩ := h1
    cases h1
    simp only [pbReadItem] at h2
    split at h2
    · cases h2
    · cases h2
      exact .field (by assumption) (pbOptions_view h3)
  | .link n q o a, m, i', h1, h2 => by
    simp only [pbExportItem, bind_ok_iff] at h1
    obtain ⟨s, h3, m', h4, h1⟩ := h1
    cases h1
    simp only [pbReadItem] at h2
    split at h2
    · cases h2
    · simp only [bind_ok_iff] at h2
      obtain ⟨q', h5, h2⟩ := h2
      cases h2
      exact .link (by assumption) (pbOptions_view h3) (pbNode_view q m' q' h4 h5)
theorem pbNode_view : (q : QNode) → ∀ m q', pbExport C q = .ok m → pbTransform C m = .ok q' → PbView C q q'
  | .mk fs ord, m, q', h1, h2 => by
    simp only [pbExport, bind_ok_iff] at h1
    obtain ⟨ms, h3, h1⟩ := h1
    cases h1
    simp only [pbTransform, bind_ok_iff] at h2
    obtain ⟨fs', h4, h2⟩ := h2
    cases h2
    exact .mk (pbItems_view fs ms fs' h3 h4)
theorem pbItems_view : (fs : List QItem) → ∀ m fs', pbExportItems C fs = .ok m → pbReadItems C m = .ok fs' → PbItemsView C fs fs'
  | [], m, fs', h1, h2 => by
    cases h1
    cases h2
    exact .nil
  | i :: r, m, fs', h1, h2 => by
    simp only [pbExportItems, bind_ok_iff] at h1
    obtain ⟨a, h3, b, h4, h1⟩ := h1
    cases h1
    simp only [pbReadItems, bind_ok_iff] at h2
    obtain ⟨a', h5, b', h6, h2⟩ := h2
    cases h2
    exact .cons (pbItem_view i a a' h3 h5) (pbItems_view r b b' h4 h6)
end

mutual
theorem pbItemView_same {i i' : QItem} : PbItemView C i i' → SameItem i i'
  | .field _ _ => by simp [SameItem]
  | .link _ _ h => by simp only [SameItem]; exact pbView_same h
theorem pbView_same {q q' : QNode} : PbView C q q' → SameShape q q'
  | .mk h => by simp only [SameShape]; exact pbItemsView_same h
theorem pbItemsView_same {fs fs' : List QItem} : PbItemsView C fs fs' → SameItems fs fs'
  | .nil => by simp [SameItems]
  | .cons h hr => by simp only [SameItems]; exact ⟨pbItemView_same h, pbItemsView_same hr⟩
end

mutual
theorem pbItemView_safe : (i : QItem) → PbItemView C i i → PbItemSafe C i
  | .field n o a, h => by
    cases h with
    | field hn ho => simp only [PbItemSafe]; exact ⟨hn, trivial, ho⟩
  | .link n q o a, h => by
    cases h with
    | link hn ho hq => simp only [PbItemSafe]; exact ⟨hn, trivial, ho, pbView_safe q hq⟩
theorem pbView_safe : (q : QNode) → PbView C q q → PbSafe C q
  | .mk fs ord, h => by
    cases h with
    | mk h => simp only [PbSafe]; exact ⟨trivial, pbItemsView_safe fs h⟩
theorem pbItemsView_safe : (fs : List QItem) → PbItemsView C fs fs → PbItemsSafe C fs
  | [], _ => by simp [PbItemsSafe]
  | i :: r, h => by
    cases h with
    | cons h hr => simp only [PbItemsSafe]; exact ⟨pbItemView_safe i h, pbItemsView_safe r hr⟩
end

/-- **C30, exactly when it holds.**  A merged query is exported to a message which is read as the query if and only if it
has no aliases, no `ordered` nodes and no empty names, and its options survive the conversion to `Struct` and back. -/
theorem c30_iff (H : PyHash) {q : QNode} (hm : merge H [q] = q) :
    (∃ m, pbExport C q = .ok m ∧ pbRead C H m = .ok q) ↔ PbSafe C q := by
  constructor
  · rintro ⟨m, h1, h2⟩
    simp only [pbRead, bind_ok_iff] at h2
    obtain ⟨q', h3, h4⟩ := h2
    have hv := pbNode_view q m q' h1 h3
    have e := merge_eq_of_shape (pbView_same hv) (Except.ok.inj h4)
    subst e
    exact pbView_safe q' hv
  · intro hs
    have := c30_partial H hs
    rwa [hm] at this

/-! ### The assumptions can be met, on both sides -/

/-- `{ a, b: c, d { a } }`, written with an alias for `c` when `al` -/
def exRound (al : Bool) : QNode :=
  .mk [.field "a" none none, .field "c" none (if al then some "b" else none),
    .link "d" (.mk [.field "a" none none] false) none none] false

theorem exRound_merged (H : PyHash) (al : Bool) : merge H [exRound al] = exRound al := by cases al <;> rfl

/-- GraphQL keeps the alias -/
example (H : PyHash) : ∃ doc, gqlExport (exRound true) = .ok doc ∧ ∀ given, readGraphql H doc given none = .ok (exRound true) :=
  (c31_iff H (by simp [exRound, JsonQuery, JsonItems, JsonItem, JsonOpts]) (exRound_merged H true)).2
    (by simp [exRound, TidyQuery, TidyItems, TidyItem])

/-- protobuf does not -/
example (H : PyHash) : ¬ ∃ m, pbExport C (exRound true) = .ok m ∧ pbRead C H m = .ok (exRound true) :=
  fun h => by
    have := (c30_iff H (exRound_merged H true)).1 h
    simp [exRound, PbSafe, PbItemsSafe, PbItemSafe] at this

example (H : PyHash) : ∃ m, pbExport C (exRound false) = .ok m ∧ pbRead C H m = .ok (exRound false) :=
  (c30_iff H (exRound_merged H false)).2
    (by simp [exRound, PbSafe, PbItemsSafe, PbItemSafe, PbOpts.none])

/-- EDN does not -/
example (H : PyHash) {P : PyText} (hP : P.Ok) (ascii : Bool) (pyStr : Val → String) :
    ¬ ∃ v t, exportNode pyStr (exRound true) = .ok v ∧ dumps ascii v = .ok t ∧
      simpleRead P (fun _ => none) H t = .ok (exRound true) :=
  fun h => by
    have := (c29_iff hP ascii H pyStr (by
      simp only [exRound, SimpleQuery, SimpleItems, SimpleItem, SimpleOpts, KwSafe]; decide) (exRound_merged H true)).1 h
    simp [exRound, KeptQuery, KeptItems, KeptItem] at this

end Hiku.RoundTrip
