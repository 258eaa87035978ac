import Verif.Spec.QueryText
import Verif.Props.EdnText
import Verif.Props.Merge
import Verif.Props.Protobuf

/-! # C61: the readers of the simple and of the protobuf format are exact -/

namespace Hiku
namespace QueryText

/-! ### Merging the parts first changes nothing -/

/-- merge the node of a link -/
def mergeIn (H : PyHash) : QItem → QItem
  | .field n o a => .field n o a
  | .link n q o a => .link n (merge H [q]) o a

theorem merge_mergeIn (H : PyHash) (l : List QItem) (ord : Bool) :
    merge H [.mk (l.map (mergeIn H)) ord] = merge H [.mk l ord] := by
  have hF : fieldItems (l.map (mergeIn H)) = fieldItems l := by
    induction l with
    | nil => rfl
    | cons i r ih =>
      cases i with
      | field n o a => simp only [fieldItems, List.map_cons, mergeIn, List.filter_cons, QItem.isLink] at ih ⊢; simpa using ih
      | link n q o a => simp only [fieldItems, List.map_cons, mergeIn, List.filter_cons, QItem.isLink] at ih ⊢; simpa using ih
  have hL : (linkItems (l.map (mergeIn H))).map QItem.trip = (linkItems l).map QItem.trip := by
    clear hF
    induction l with
    | nil => rfl
    | cons i r ih =>
      cases i with
      | field n o a => simp only [linkItems, List.map_cons, mergeIn, List.filter_cons, QItem.isLink] at ih ⊢; simpa using ih
      | link n q o a =>
        simp only [linkItems, List.map_cons, mergeIn, List.filter_cons, QItem.isLink] at ih ⊢
        simp only [if_true, List.map_cons, ih]
        rfl
  have hN : ∀ k, merge H (nodesOf H k (l.map (mergeIn H))) = merge H (nodesOf H k l) := by
    intro k
    have e : nodesOf H k (l.map (mergeIn H)) = ((nodesOf H k l).map fun q => [q]).map (merge H) := by
      clear hF hL
      induction l with
      | nil => rfl
      | cons i r ih =>
        rw [List.map_cons, ← List.singleton_append, nodesOf_append, ih, ← List.singleton_append (x := i), nodesOf_append,
          List.map_append, List.map_append]
        congr 1
        cases i with
        | field n o a => rfl
        | link n q o a =>
          simp only [nodesOf, mergeIn, List.filterMap_cons, List.filterMap_nil]
          by_cases h : (n, optionsHash H o, a) = k
          · simp [h]
          · simp [h]
    rw [e, c02_merge_grouping]
    congr 1
    induction nodesOf H k l with
    | nil => rfl
    | cons a r ih => simp [List.flatten_cons, ih]
  rw [merge_trip, merge_trip]
  simp only [List.flatMap_cons, List.flatMap_nil, List.append_nil, QNode.fields_mk, List.any_cons, QNode.ordered_mk]
  rw [hF, hL]
  congr 2
  apply List.map_congr_left
  intro t _
  rw [hN]

/-! ### The simple format -/

theorem kwOpts_ok {kvs : List (Val × Val)} {o : List (String × Val)} :
    kwOpts kvs = .ok o ↔ kvs = o.map fun p => (.kw p.1, p.2) := by
  induction kvs generalizing o with
  | nil => cases o <;> simp [kwOpts]
  | cons kv r ih =>
    obtain ⟨k, v⟩ := kv
    by_cases hk : ∃ s, k = .kw s
    · obtain ⟨s, rfl⟩ := hk
      simp only [kwOpts, bind_ok_iff]
      constructor
      · rintro ⟨b, h1, h2⟩
        cases h2
        rw [ih.1 h1]; rfl
      · intro h
        cases o with
        | nil => simp at h
        | cons p o' =>
          simp only [List.map_cons, List.cons.injEq, Prod.mk.injEq] at h
          obtain ⟨⟨h1, h2⟩, h3⟩ := h
          cases h1
          refine ⟨o', ih.2 h3, ?_⟩
          rw [h2]
    · constructor
      · intro h
        unfold kwOpts at h
        split at h
        · rename_i heq; cases heq
        · rename_i s v' r' heq
          cases heq
          exact absurd ⟨s, rfl⟩ hk
        · simp at h
      · intro h
        cases o with
        | nil => simp at h
        | cons p o' =>
          simp only [List.map_cons, List.cons.injEq, Prod.mk.injEq] at h
          exact absurd ⟨p.1, h.1.1⟩ hk

theorem kwOpts_err {kvs : List (Val × Val)} {e : Err} (h : kwOpts kvs = .error e) : e = .typeError := by
  induction kvs with
  | nil => simp [kwOpts] at h
  | cons kv r ih =>
    unfold kwOpts at h
    split at h
    · simp at h
    · simp only [bind_error_iff] at h
      rcases h with h | ⟨b, _, h⟩
      · rename_i heq; cases heq; exact ih h
      · simp at h
    · simp at h; exact h.symm

theorem simpleOptions_ok {t : List Val} {n : String} {o : List (String × Val)} :
    simpleOptions t = .ok (n, o) ↔ Named (.seq .etup t) n (some o) := by
  constructor
  · intro h
    unfold simpleOptions at h
    split at h
    · simp only [bind_ok_iff] at h
      obtain ⟨o', h1, h2⟩ := h
      rw [kwOpts_ok.1 h1]
      cases h2
      exact .opts
    · simp at h
  · intro h
    cases h with
    | opts =>
      simp only [simpleOptions]
      rw [kwOpts_ok.2 rfl]
      rfl

theorem simpleOptions_err {t : List Val} {e : Err} (h : simpleOptions t = .error e) : e = .typeError := by
  unfold simpleOptions at h
  split at h
  · simp only [bind_error_iff] at h
    rcases h with h | ⟨b, _, h⟩
    · exact kwOpts_err h
    · simp at h
  · simp at h; exact h.symm

theorem opts_read (n : String) (o : List (String × Val)) :
    simpleOptions [.kw n, .map .edict (o.map fun p => (.kw p.1, p.2))] = .ok (n, dmk o) :=
  simpleOptions_ok.2 .opts

variable {H : PyHash}

mutual
/-- reading a node gives the merged query which it writes down -/
theorem node_reads : ∀ {v : Val} {q : QNode}, Node v q → simpleTransform H v = .ok (merge H [q])
  | _, _, .mk h => by
    simp only [simpleTransform, items_reads h, ok_bind']
    rw [merge_mergeIn]
theorem items_reads : ∀ {xs : List Val} {l : List QItem}, Items xs l → simpleExtract H xs = .ok (l.map (mergeIn H))
  | _, _, .nil => by simp [simpleExtract]
  | _, _, .field (v := v) hn hr => by
    have h1 := items_reads hr
    cases hn with
    | bare => simp only [simpleExtract, h1, ok_bind']; rfl
    | opts => simp only [simpleExtract, opts_read, h1, ok_bind']; rfl
  | _, _, .links hl hr => by
    simp only [simpleExtract, links_reads hl, items_reads hr, ok_bind', List.map_append]
theorem links_reads : ∀ {kvs : List (Val × Val)} {l : List QItem}, Links kvs l →
    simpleLinks H kvs = .ok (l.map (mergeIn H))
  | _, _, .nil => by simp [simpleLinks]
  | _, _, .cons hn hv hr => by
    have h0 := node_reads hv
    have h1 := links_reads hr
    cases hn with
    | bare => simp only [simpleLinks, h0, h1, ok_bind']; rfl
    | opts => simp only [simpleLinks, opts_read, h0, h1, ok_bind']; rfl
end

mutual
/-- everything else is a TypeError -/
theorem reads_node : ∀ (v : Val), (∃ q, Node v q) ∨ (simpleTransform H v = .error .typeError ∧ ∀ q, ¬ Node v q)
  | .seq .elist xs => by
    rcases reads_items xs with ⟨l, h⟩ | ⟨h, h'⟩
    · exact .inl ⟨_, .mk h⟩
    · refine .inr ⟨by simp only [simpleTransform, h, error_bind'], ?_⟩
      intro q hq
      cases hq with
      | mk hi => exact h' _ hi
  | .atom _ => .inr ⟨rfl, fun q hq => nomatch hq⟩
  | .seq .list _ => .inr ⟨rfl, fun q hq => nomatch hq⟩
  | .seq .tup _ => .inr ⟨rfl, fun q hq => nomatch hq⟩
  | .seq .set _ => .inr ⟨rfl, fun q hq => nomatch hq⟩
  | .seq .eset _ => .inr ⟨rfl, fun q hq => nomatch hq⟩
  | .seq .etup _ => .inr ⟨rfl, fun q hq => nomatch hq⟩
  | .map _ _ => .inr ⟨rfl, fun q hq => nomatch hq⟩
  | .tagged _ _ => .inr ⟨rfl, fun q hq => nomatch hq⟩
  | .ref _ _ => .inr ⟨rfl, fun q hq => nomatch hq⟩
theorem reads_items : ∀ (xs : List Val), (∃ l, Items xs l) ∨ (simpleExtract H xs = .error .typeError ∧ ∀ l, ¬ Items xs l)
  | [] => .inl ⟨[], .nil⟩
  | v :: r => by
    have hrest := reads_items r
    by_cases hn : ∃ n o, Named v n o
    · obtain ⟨n, o, hn⟩ := hn
      rcases hrest with ⟨l, h⟩ | ⟨h, h'⟩
      · exact .inl ⟨_, .field hn h⟩
      · refine .inr ⟨?_, ?_⟩
        · cases hn with
          | bare => simp only [simpleExtract, h, error_bind']
          | opts =>
            simp only [simpleExtract, opts_read, ok_bind', h, error_bind']
        · intro l hl
          cases hl with
          | field _ hr => exact h' _ hr
          | links _ hr => exact h' _ hr
    · match v, hn with
      | .map .edict kvs, hn =>
        rcases reads_links kvs with ⟨a, ha⟩ | ⟨ha, ha'⟩
        · rcases hrest with ⟨l, h⟩ | ⟨h, h'⟩
          · exact .inl ⟨_, .links ha h⟩
          · refine .inr ⟨by simp only [simpleExtract, links_reads ha, ok_bind', h, error_bind'], ?_⟩
            intro l hl
            cases hl with
            | field hn' hr => exact h' _ hr
            | links _ hr => exact h' _ hr
        · refine .inr ⟨by simp only [simpleExtract, ha, error_bind'], ?_⟩
          intro l hl
          cases hl with
          | field hn' hr => exact hn ⟨_, _, hn'⟩
          | links hk hr => exact ha' _ hk
      | .seq .etup t, hn =>
        have : simpleOptions t = .error .typeError := by
          cases h : simpleOptions t with
          | error e => rw [simpleOptions_err h]
          | ok p => exact absurd ⟨p.1, some p.2, simpleOptions_ok.1 h⟩ hn
        refine .inr ⟨by simp only [simpleExtract, this, error_bind'], ?_⟩
        intro l hl
        cases hl with
        | field hn' hr => exact hn ⟨_, _, hn'⟩
      | .atom a, hn =>
        refine .inr ⟨?_, ?_⟩
        · unfold simpleExtract
          split
          · rename_i heq; cases heq
          · rename_i heq; cases heq
          · rename_i heq; cases heq; exact absurd ⟨_, _, .bare⟩ hn
          · rename_i heq; cases heq
          · rfl
        · intro l hl
          cases hl with
          | field hn' hr => exact hn ⟨_, _, hn'⟩
      | .seq .list _, hn => exact .inr ⟨by simp [simpleExtract], fun l hl => by cases hl with | field hn' hr => exact hn ⟨_, _, hn'⟩⟩
      | .seq .tup _, hn => exact .inr ⟨by simp [simpleExtract], fun l hl => by cases hl with | field hn' hr => exact hn ⟨_, _, hn'⟩⟩
      | .seq .set _, hn => exact .inr ⟨by simp [simpleExtract], fun l hl => by cases hl with | field hn' hr => exact hn ⟨_, _, hn'⟩⟩
      | .seq .eset _, hn => exact .inr ⟨by simp [simpleExtract], fun l hl => by cases hl with | field hn' hr => exact hn ⟨_, _, hn'⟩⟩
      | .seq .elist _, hn => exact .inr ⟨by simp [simpleExtract], fun l hl => by cases hl with | field hn' hr => exact hn ⟨_, _, hn'⟩⟩
      | .map .dict _, hn => exact .inr ⟨by simp [simpleExtract], fun l hl => by cases hl with | field hn' hr => exact hn ⟨_, _, hn'⟩⟩
      | .tagged _ _, hn => exact .inr ⟨by simp [simpleExtract], fun l hl => by cases hl with | field hn' hr => exact hn ⟨_, _, hn'⟩⟩
      | .ref _ _, hn => exact .inr ⟨by simp [simpleExtract], fun l hl => by cases hl with | field hn' hr => exact hn ⟨_, _, hn'⟩⟩
theorem reads_links : ∀ (kvs : List (Val × Val)), (∃ l, Links kvs l) ∨ (simpleLinks H kvs = .error .typeError ∧ ∀ l, ¬ Links kvs l)
  | [] => .inl ⟨[], .nil⟩
  | (k, v) :: r => by
    have hrest := reads_links r
    have hv := reads_node v
    by_cases hn : ∃ n o, Named k n o
    · obtain ⟨n, o, hn⟩ := hn
      rcases hv with ⟨q, hq⟩ | ⟨hq, hq'⟩
      · rcases hrest with ⟨l, h⟩ | ⟨h, h'⟩
        · exact .inl ⟨_, .cons hn hq h⟩
        · refine .inr ⟨?_, ?_⟩
          · have h0 := node_reads (H := H) hq
            cases hn with
            | bare => simp only [simpleLinks, h0, ok_bind', h, error_bind']
            | opts =>
              simp only [simpleLinks, opts_read, h0, ok_bind', h, error_bind']
          · intro l hl
            cases hl with
            | cons _ _ hr => exact h' _ hr
      · refine .inr ⟨?_, ?_⟩
        · cases hn with
          | bare => simp only [simpleLinks, hq, error_bind']
          | opts =>
            simp only [simpleLinks, opts_read, ok_bind', hq, error_bind']
        · intro l hl
          cases hl with
          | cons _ h0 _ => exact hq' _ h0
    · refine .inr ⟨?_, fun l hl => by cases hl with | cons hn' _ _ => exact hn ⟨_, _, hn'⟩⟩
      unfold simpleLinks
      split
      · rename_i heq; cases heq
      · rename_i t v' r' heq
        cases heq
        cases h : simpleOptions t with
        | error e => rw [simpleOptions_err h]; rfl
        | ok p => exact absurd ⟨p.1, some p.2, simpleOptions_ok.1 h⟩ hn
      · rename_i n v' r' heq
        cases heq
        exact absurd ⟨_, _, .bare⟩ hn
      · rfl
end

/-- C61: an EDN text is read as a query if and only if it is the text of a value which writes down a query, and then
the query is the one written down, with duplicates merged; for all texts, with any tag handlers and any `float`. -/
theorem c61_simple {P : PyText} (hP : P.Ok) {th : String → Option (Val → Except Err Val)} {t : List Char} {q : QNode} :
    simpleRead P th H t = .ok q ↔ ∃ v raw, EdnText.Document P th t v ∧ Node v raw ∧ q = merge H [raw] := by
  simp only [simpleRead, bind_ok_iff]
  constructor
  · rintro ⟨v, h1, h2⟩
    rcases reads_node (H := H) v with ⟨raw, h⟩ | ⟨h, _⟩
    · rw [node_reads h] at h2
      cases h2
      exact ⟨v, raw, (EdnText.c60_exact hP).1 h1, h, rfl⟩
    · rw [h] at h2; simp at h2
  · rintro ⟨v, raw, h1, h2, rfl⟩
    exact ⟨v, (EdnText.c60_exact hP).2 h1, node_reads h2⟩

/-- C61: a text which is an EDN value, but not a query, is a TypeError. -/
theorem c61_simple_rejects {P : PyText} (hP : P.Ok) {th : String → Option (Val → Except Err Val)} {t : List Char} {v : Val}
    (h : EdnText.Document P th t v) (hn : ∀ raw, ¬ Node v raw) : simpleRead P th H t = .error .typeError := by
  simp only [simpleRead, (EdnText.c60_exact hP).2 h, ok_bind']
  rcases reads_node (H := H) v with ⟨raw, h⟩ | ⟨h, _⟩
  · exact absurd h (hn raw)
  · exact h

/-- C61: the query which is read asks for a field or link at a path if and only if the text does. -/
theorem c61_simple_requests {P : PyText} (hP : P.Ok) {th : String → Option (Val → Except Err Val)} {t : List Char}
    {q : QNode} (h : simpleRead P th H t = .ok q) :
    ∃ v raw, EdnText.Document P th t v ∧ Node v raw ∧ ∀ p b k, Requests H q p b k ↔ Requests H raw p b k := by
  obtain ⟨v, raw, h1, h2, rfl⟩ := (c61_simple hP).1 h
  refine ⟨v, raw, h1, h2, fun p b k => ?_⟩
  rw [c01_merge_requests]
  simp

/-! ### Protobuf -/

variable {C : PbCodec}

mutual
theorem pbItem_iff : ∀ (i : PbItem C.S) (x : QItem), pbReadItem C i = .ok x ↔ PbItemIs C i x
  | .empty, x => ⟨fun h => by simp [pbReadItem] at h, fun h => nomatch h⟩
  | .field n o, x => by
    simp only [pbReadItem]
    by_cases hn : n = ""
    · rw [if_pos hn]
      exact ⟨fun h => by simp at h, fun h => by cases h with | field h => exact absurd hn h⟩
    · rw [if_neg hn]
      exact ⟨fun h => by cases h; exact .field hn, fun h => by cases h with | field h => rfl⟩
  | .link n m o, x => by
    simp only [pbReadItem]
    by_cases hn : n = ""
    · rw [if_pos hn]
      exact ⟨fun h => by simp at h, fun h => by cases h with | link h _ => exact absurd hn h⟩
    · rw [if_neg hn, bind_ok_iff]
      constructor
      · rintro ⟨q, h1, h2⟩
        cases h2
        exact .link hn ((pbNode_iff m q).1 h1)
      · intro h
        cases h with
        | link h hq => exact ⟨_, (pbNode_iff m _).2 hq, rfl⟩
theorem pbNode_iff : ∀ (m : PbNode C.S) (q : QNode), pbTransform C m = .ok q ↔ PbIs C m q
  | .mk is, q => by
    simp only [pbTransform, bind_ok_iff]
    constructor
    · rintro ⟨l, h1, h2⟩
      cases h2
      exact .mk ((pbItems_iff is l).1 h1)
    · intro h
      cases h with
      | mk h => exact ⟨_, (pbItems_iff is _).2 h, rfl⟩
theorem pbItems_iff : ∀ (is : List (PbItem C.S)) (l : List QItem), pbReadItems C is = .ok l ↔ PbItemsAre C is l
  | [], l => by
    simp only [pbReadItems]
    exact ⟨fun h => by cases h; exact .nil, fun h => by cases h; rfl⟩
  | i :: r, l => by
    simp only [pbReadItems, bind_ok_iff]
    constructor
    · rintro ⟨a, h1, b, h2, h3⟩
      cases h3
      exact .cons ((pbItem_iff i a).1 h1) ((pbItems_iff r b).1 h2)
    · intro h
      cases h with
      | cons h1 h2 => exact ⟨_, (pbItem_iff i _).2 h1, _, (pbItems_iff r _).2 h2, rfl⟩
end

/-- C61: a message is read as a query if and only if it holds one, and then the query is that one, with duplicates
merged; all others are TypeErrors. -/
theorem c61_protobuf (m : PbNode C.S) :
    (∀ q, pbRead C H m = .ok q ↔ ∃ raw, PbIs C m raw ∧ q = merge H [raw]) ∧
    ((∀ raw, ¬ PbIs C m raw) → pbRead C H m = .error .typeError) := by
  constructor
  · intro q
    simp only [pbRead, bind_ok_iff]
    constructor
    · rintro ⟨raw, h1, h2⟩
      cases h2
      exact ⟨raw, (pbNode_iff m raw).1 h1, rfl⟩
    · rintro ⟨raw, h1, rfl⟩
      exact ⟨raw, (pbNode_iff m raw).2 h1, rfl⟩
  · intro h
    obtain ⟨h1, h2⟩ := c30_malformed C H m
    by_cases hw : m.WellFormed
    · obtain ⟨q, hq⟩ := h1 hw
      simp only [pbRead, bind_ok_iff] at hq
      obtain ⟨raw, hr, _⟩ := hq
      exact absurd ((pbNode_iff m raw).1 hr) (h raw)
    · exact h2 hw

/-! ### Examples -/

/-- `[:a {:b [:c] (:d {:x nil}) [:e]} :a]`: a field twice, two links in one map -/
example : Node (.elist [.kw "a", .edict [(.kw "b", .elist [.kw "c"]),
      (.seq .etup [.kw "d", .edict [(.kw "x", .none)]], .elist [.kw "e"])], .kw "a"])
    (.mk [.field "a" none none, .link "b" (.mk [.field "c" none none] false) none none,
      .link "d" (.mk [.field "e" none none] false) (some [("x", .none)]) none, .field "a" none none] false) :=
  .mk (.field .bare (.links (.cons .bare (.mk (.field .bare .nil)) (.cons (.opts (o := [("x", .none)]))
    (.mk (.field .bare .nil)) .nil)) (.field .bare .nil)))

/-- the text of a query -/
example : ∃ q, simpleRead exPyText noTags H "[:a {:b [:c] (:d {:x nil}) [:e]} :a]".toList = .ok q ∧
    Requests H q [("b", none, none)] false ("c", none, none) ∧ ¬ Requests H q [] false ("c", none, none) := by
  have hl : loads exPyText noTags "[:a {:b [:c] (:d {:x nil}) [:e]} :a]".toList =
      .ok (.elist [.kw "a", .edict [(.kw "b", .elist [.kw "c"]),
        (.seq .etup [.kw "d", .edict [(.kw "x", .none)]], .elist [.kw "e"])], .kw "a"]) := by decide +kernel
  have hn : Node (.elist [.kw "a", .edict [(.kw "b", .elist [.kw "c"]),
      (.seq .etup [.kw "d", .edict [(.kw "x", .none)]], .elist [.kw "e"])], .kw "a"])
    (.mk [.field "a" none none, .link "b" (.mk [.field "c" none none] false) none none,
      .link "d" (.mk [.field "e" none none] false) (some [("x", .none)]) none, .field "a" none none] false) :=
    .mk (.field .bare (.links (.cons .bare (.mk (.field .bare .nil)) (.cons (.opts (o := [("x", .none)]))
      (.mk (.field .bare .nil)) .nil)) (.field .bare .nil)))
  refine ⟨_, by rw [simpleRead, hl]; exact node_reads hn, ?_, ?_⟩
  · rw [c01_merge_requests]
    refine ⟨_, List.mem_singleton.2 rfl, ?_⟩
    exact .under (n := "b") (q := .mk [.field "c" none none] false) (o := none) (a := none) (by simp)
      (.field (n := "c") (o := none) (a := none) (by simp))
  · rw [c01_merge_requests]
    rintro ⟨r, hr, h⟩
    rw [List.mem_singleton] at hr
    subst hr
    generalize hk : (("c", none, none) : ItemKey) = k at h
    generalize hp : ([] : List ItemKey) = p at h
    cases h with
    | field hm =>
      have hn := (Prod.mk.inj hk).1
      rw [← hn] at hm
      simp at hm
    | under => simp at hp

end QueryText
end Hiku
