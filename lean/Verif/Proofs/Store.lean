import Verif.Spec.Store
import Verif.Proofs.Dict
import Verif.Proofs.Basic

/-! Storing results in the index. -/

namespace Hiku

/-- cells written by `storeRows` -/
def rowCells (node : String) (names : List String) (l : List (Val × List Val)) : List (Cell × Val) :=
  l.flatMap fun p => (names.zip p.2).map fun x => ((node, p.1, x.1), x.2)

theorem storeRows_eq (idx : Index) (node : String) (names : List String) (l : List (Val × List Val)) :
    storeRows idx node names l = dupdate idx (rowCells node names l) := by
  induction l generalizing idx with
  | nil => rfl
  | cons x r ih =>
    obtain ⟨i, row⟩ := x
    simp only [storeRows, ih, rowCells, List.flatMap_cons, dupdate_append]
    rfl

/-- the last pair with the key `k` decides -/
theorem dget_dupdate_last {κ ν : Type} [DecidableEq κ] {d kvs : List (κ × ν)} {k : κ} {v : ν} {n : Nat}
    (h : kvs[n]? = some (k, v)) (hl : ∀ m v', kvs[m]? = some (k, v') → m ≤ n) :
    dget (dupdate d kvs) k = some v := by
  induction kvs generalizing d n with
  | nil => simp at h
  | cons x r ih =>
    rw [dupdate_cons]
    cases n with
    | zero =>
      simp at h; subst h
      rw [dget_dupdate_notMem]
      · simp
      · intro hm
        obtain ⟨⟨k', v'⟩, hm', e⟩ := List.mem_map.1 hm
        simp at e; subst e
        obtain ⟨m, hm'⟩ := List.mem_iff_getElem?.1 hm'
        have := hl (m + 1) v' hm'
        omega
    | succ n =>
      refine ih (n := n) (by simpa using h) ?_
      intro m v' hm
      have := hl (m + 1) v' (by simpa using hm)
      omega

theorem dget_dupdate_cases {κ ν : Type} [DecidableEq κ] (d kvs : List (κ × ν)) (k : κ) :
    (∃ v, (k, v) ∈ kvs ∧ dget (dupdate d kvs) k = some v) ∨
      ((∀ v, (k, v) ∉ kvs) ∧ dget (dupdate d kvs) k = dget d k) := by
  rw [dget_dupdate]
  cases h : dget kvs.reverse k with
  | some v => left; exact ⟨v, by simpa using dget_mem h, rfl⟩
  | none =>
    right
    refine ⟨?_, by simp⟩
    intro v hm
    rw [dget_eq_none_iff] at h
    exact h (List.mem_map.2 ⟨(k, v), by simpa using hm, rfl⟩)

theorem asSeq_rows {rs : List Val} {rows : List (List Val)} {n : Nat} :
    List.Forall₂ (fun r row => r.asSeq = some row ∧ row.length = n) rs rows ↔
      rs.mapM Val.asSeq = some rows ∧ rows.all (fun r => r.length == n) = true := by
  rw [mapM_some_iff]
  constructor
  · intro h
    refine ⟨h.imp fun _ _ h => h.1, ?_⟩
    induction h with
    | nil => rfl
    | cons h _ ih => simp at ih ⊢; exact ⟨h.2, ih⟩
  · rintro ⟨h1, h2⟩
    induction h1 with
    | nil => exact .nil
    | cons h _ ih => simp at h2 ih; exact .cons ⟨h, h2.1⟩ (ih h2.2)

theorem checkStoreFields_iff {node : GNode} {n : Nat} {ids : Option (List Val)} {result : Val}
    {rows : List (List Val)} (hids : ids.isSome = node.name.isSome) :
    checkStoreFields node n ids result = .ok rows ↔ RowsOf node n ids result rows := by
  unfold checkStoreFields RowsOf
  cases hn : node.name with
  | some nm =>
    cases ids with
    | none => simp [hn] at hids
    | some ids =>
      simp only
      cases hs : result.asSeq with
      | none => simp
      | some rs =>
        simp only [Option.some.injEq, exists_eq_left']
        by_cases hl : rs.length = ids.length
        · simp only [hl, if_true, true_and]
          rw [asSeq_rows]
          cases hm : rs.mapM Val.asSeq with
          | none => simp
          | some rows' =>
            simp only [Option.some.injEq]
            by_cases ha : rows'.all (fun r => r.length == n) = true
            · simp only [ha, if_true]
              constructor
              · intro h; cases h; exact ⟨rfl, ha⟩
              · rintro ⟨rfl, _⟩; rfl
            · simp only [ha]
              constructor
              · intro h; simp at h
              · rintro ⟨rfl, h⟩; exact absurd h ha
        · simp [hl]
  | none =>
    cases ids with
    | some ids => simp [hn] at hids
    | none =>
      simp only
      cases hs : result.asSeq with
      | none => simp
      | some row =>
        simp only [Option.some.injEq, exists_eq_left']
        by_cases hl : row.length = n
        · simp [hl, eq_comm]
        · simp [hl]

theorem checkStoreFields_error {node : GNode} {n : Nat} {ids : Option (List Val)} {result : Val}
    {e : Err} (hids : ids.isSome = node.name.isSome)
    (h : checkStoreFields node n ids result = .error e) : e = .typeError := by
  unfold checkStoreFields at h
  split at h
  · split at h
    · rename_i hn _; simp [hn] at hids
    · split at h
      · simp at h; exact h.symm
      · split at h
        · split at h
          · simp at h; exact h.symm
          · split at h
            · simp at h
            · simp at h; exact h.symm
        · simp at h; exact h.symm
  · split at h
    · simp at h; exact h.symm
    · split at h
      · simp at h
      · simp at h; exact h.symm

/-- what `store_fields` does, in one formula -/
theorem storeFields_ok_iff {H : PyHash} {idx idx' : Index} {node : GNode} {qfs : List QItem}
    {ids : Option (List Val)} {result : Val} (hids : ids.isSome = node.name.isSome) :
    storeFields H idx node qfs ids result = .ok idx' ↔
      ∃ rows, RowsOf node qfs.length ids result rows ∧
        idx' = dupdate idx (rowCells node.indexName (qfs.map (QItem.indexKey H)) ((identsOf ids).zip rows)) := by
  simp only [storeFields, bind_ok_iff]
  apply exists_congr
  intro rows
  rw [checkStoreFields_iff hids]
  apply and_congr_right
  intro hr
  unfold RowsOf at hr
  cases hn : node.name with
  | some nm =>
    cases ids with
    | none => simp [hn] at hids
    | some ids =>
      simp only [storeRows_eq, GNode.indexName, hn, Option.getD, identsOf]
      simp [eq_comm]
  | none =>
    cases ids with
    | some ids => simp [hn] at hids
    | none =>
      simp only [hn] at hr
      obtain ⟨row, _, _, rfl⟩ := hr
      simp only [GNode.indexName, hn, Option.getD, identsOf, List.zip_cons_cons, List.zip_nil_left,
        rowCells, List.flatMap_cons, List.flatMap_nil, List.append_nil, storeRow]
      simp [eq_comm]

theorem storeFields_error {H : PyHash} {idx : Index} {node : GNode} {qfs : List QItem}
    {ids : Option (List Val)} {result : Val} {e : Err} (hids : ids.isSome = node.name.isSome)
    (h : storeFields H idx node qfs ids result = .error e) :
    e = .typeError ∧ ¬ ∃ rows, RowsOf node qfs.length ids result rows := by
  have hno : ¬ ∃ rows, RowsOf node qfs.length ids result rows := by
    rintro ⟨rows, hr⟩
    have := (storeFields_ok_iff (H := H) (idx := idx) (qfs := qfs) (idx' := _) hids).2 ⟨rows, hr, rfl⟩
    rw [h] at this; simp at this
  refine ⟨?_, hno⟩
  simp only [storeFields, bind_error_iff] at h
  rcases h with h | ⟨rows, h, _⟩
  · exact checkStoreFields_error hids h
  · exact absurd ⟨rows, (checkStoreFields_iff hids).1 h⟩ hno

/-! ### Links -/

theorem linkRef_ok_iff {gl : GLink} {v c : Val} :
    linkRef gl v = .ok c ↔ ValueShape gl.typeEnum v ∧ (gl.typeEnum = .one → v ≠ .nothing) ∧
      c = linkCell gl v := by
  unfold linkRef ValueShape linkCell
  cases gl.typeEnum with
  | maybe => by_cases h : v = .nothing <;> simp [h, eq_comm]
  | one => by_cases h : v = .nothing <;> simp [h, eq_comm]
  | many => cases h : v.asSeq <;> simp [eq_comm]

/-- cells written by `storeLinkRows` -/
def linkCells (node : String) (gl : GLink) (key : String) (l : List (Val × Val)) : List (Cell × Val) :=
  l.map fun p => ((node, p.1, key), linkCell gl p.2)

theorem storeLinkRows_ok_iff {idx idx' : Index} {node : String} {gl : GLink} {key : String}
    {l : List (Val × Val)} :
    storeLinkRows idx node gl key l = .ok idx' ↔
      (∀ p ∈ l, ValueShape gl.typeEnum p.2 ∧ (gl.typeEnum = .one → p.2 ≠ .nothing)) ∧
        idx' = dupdate idx (linkCells node gl key l) := by
  induction l generalizing idx with
  | nil => simp [storeLinkRows, linkCells, dupdate, eq_comm]
  | cons x r ih =>
    obtain ⟨i, v⟩ := x
    simp only [storeLinkRows, bind_ok_iff, linkRef_ok_iff, ih, linkCells, List.map_cons, dupdate_cons]
    constructor
    · rintro ⟨c, ⟨h1, h2, rfl⟩, h3, h4⟩
      refine ⟨?_, h4⟩
      intro p hp
      rcases List.mem_cons.1 hp with rfl | hp
      · exact ⟨h1, h2⟩
      · exact h3 p hp
    · rintro ⟨h, h4⟩
      obtain ⟨h1, h2⟩ := h (i, v) (by simp)
      exact ⟨_, ⟨h1, h2, rfl⟩, fun p hp => h p (by simp [hp]), h4⟩

theorem shape_all {rs : List Val} :
    rs.all (fun r => r.asSeq.isSome) = true ↔ ∀ v ∈ rs, ∃ l, v.asSeq = some l := by
  simp [Option.isSome_iff_exists]

/-- `_check_store_links` accepts exactly the results of the right shape -/
theorem checkStoreLinks_iff {node : GNode} {gl : GLink} {ids : Option (List Val)} {result : Val}
    (hids : ids.isSome = node.name.isSome) (hne : ids ≠ some []) :
    checkStoreLinks node gl ids result = .ok () ↔
      ∃ rs, LinkValues node gl ids result rs ∧ ∀ v ∈ rs, ValueShape gl.typeEnum v := by
  unfold checkStoreLinks LinkValues
  cases hn : node.name with
  | some nm =>
    cases ids with
    | none => simp [hn] at hids
    | some ids =>
      by_cases hr : gl.requires.isSome = true
      · simp only [hr, Option.isSome_some, Bool.and_self, if_true]
        cases hs : result.asSeq with
        | none => simp
        | some rs =>
          simp only [Option.some.injEq]
          by_cases hl : rs.length = ids.length
          · simp only [hl, if_true]
            cases ht : gl.typeEnum with
            | one => simp [ValueShape, hl]
            | maybe => simp [ValueShape, hl]
            | many =>
              simp only [ValueShape]
              by_cases ha : rs.all (fun r => r.asSeq.isSome) = true
              · simp only [ha, if_true]
                exact ⟨fun _ => ⟨rs, ⟨rfl, hl⟩, shape_all.1 ha⟩, fun _ => trivial⟩
              · simp only [ha]
                constructor
                · intro h; simp at h
                · rintro ⟨_, ⟨rfl, _⟩, h⟩; exact absurd (shape_all.2 h) ha
          · simp only [hl, if_false]
            constructor
            · intro h; simp at h
            · rintro ⟨_, ⟨rfl, h⟩, _⟩; exact absurd h hl
      · simp only [hr, Bool.and_false]
        have hpos : ids.length ≠ 0 := by
          intro h; exact hne (by rw [List.length_eq_zero_iff.1 h])
        have hmem : ∀ v, v ∈ List.replicate ids.length result ↔ v = result := by
          intro v; rw [List.mem_replicate]; exact ⟨fun h => h.2, fun h => ⟨hpos, h⟩⟩
        cases ht : gl.typeEnum with
        | one => simp [ValueShape]
        | maybe => simp [ValueShape]
        | many =>
          simp only [ValueShape]
          cases hs : result.asSeq with
          | none =>
            simp only [Option.isSome_none]
            constructor
            · intro h; simp at h
            · rintro ⟨rs, he, h⟩
              simp at he
              obtain ⟨l, h⟩ := h result (he ▸ (hmem _).2 rfl)
              rw [hs] at h; simp at h
          | some l =>
            simp only [Option.isSome_some]
            refine ⟨fun _ => ⟨List.replicate ids.length result, by simp, ?_⟩, fun _ => by simp⟩
            intro v hv; rw [(hmem v).1 hv]; exact ⟨l, hs⟩
  | none =>
    cases ids with
    | some ids => simp [hn] at hids
    | none =>
      simp only [Option.isSome_none, Bool.false_and, exists_eq_left, List.mem_singleton, forall_eq]
      cases ht : gl.typeEnum with
      | one => simp [ValueShape]
      | maybe => simp [ValueShape]
      | many => cases hs : result.asSeq <;> simp [ValueShape, hs]

theorem checkStoreLinks_error {node : GNode} {gl : GLink} {ids : Option (List Val)} {result : Val}
    {e : Err} (hids : ids.isSome = node.name.isSome)
    (h : checkStoreLinks node gl ids result = .error e) : e = .typeError := by
  unfold checkStoreLinks at h
  split at h
  · rename_i hc
    split at h
    · simp at hids hc; simp [hids] at hc
    · split at h
      · simp at h; exact h.symm
      · split at h
        · split at h
          · simp at h
          · simp at h
          · split at h
            · simp at h
            · simp at h; exact h.symm
        · simp at h; exact h.symm
  · split at h
    · simp at h
    · simp at h
    · split at h
      · simp at h
      · simp at h; exact h.symm

theorem LinkValues.unique {node : GNode} {gl : GLink} {ids : Option (List Val)} {result : Val}
    {rs rs' : List Val} (h : LinkValues node gl ids result rs) (h' : LinkValues node gl ids result rs') :
    rs = rs' := by
  unfold LinkValues at h h'
  cases hn : node.name with
  | some nm =>
    cases ids with
    | none => simp [hn] at h
    | some ids =>
      simp only [hn] at h h'
      split at h
      · rename_i hr
        rw [if_pos hr] at h'
        simpa using h.1.symm.trans h'.1
      · rename_i hr
        rw [if_neg hr] at h'
        rw [h, h']
  | none =>
    cases ids with
    | some ids => simp [hn] at h
    | none => simp only [hn] at h h'; rw [h, h']

theorem LinkValues.length {node : GNode} {gl : GLink} {ids : Option (List Val)} {result : Val}
    {rs : List Val} (h : LinkValues node gl ids result rs) : rs.length = (identsOf ids).length := by
  unfold LinkValues at h
  split at h
  · split at h
    · exact h.2
    · rw [h]; simp [identsOf]
  · rw [h]; simp [identsOf]
  · exact absurd h (by simp)

/-- what `store_links` does, in one formula -/
theorem storeLinks_ok_iff {H : PyHash} {idx idx' : Index} {node : GNode} {gl : GLink} {ql : QItem}
    {ids : Option (List Val)} {result : Val} (hids : ids.isSome = node.name.isSome)
    (hne : ids ≠ some []) :
    storeLinks H idx node gl ql ids result = .ok idx' ↔
      ∃ rs, LinkValues node gl ids result rs ∧
        (∀ v ∈ rs, ValueShape gl.typeEnum v ∧ (gl.typeEnum = .one → v ≠ .nothing)) ∧
        idx' = dupdate idx (linkCells node.indexName gl (ql.indexKey H) ((identsOf ids).zip rs)) := by
  have key : ∀ rs, LinkValues node gl ids result rs →
      (writeLinks H idx node gl ql ids result = .ok idx' ↔
        (∀ v ∈ rs, ValueShape gl.typeEnum v ∧ (gl.typeEnum = .one → v ≠ .nothing)) ∧
        idx' = dupdate idx (linkCells node.indexName gl (ql.indexKey H) ((identsOf ids).zip rs))) := by
    intro rs hrs
    have hlen := hrs.length
    unfold LinkValues at hrs
    unfold writeLinks
    cases hn : node.name with
    | some nm =>
      cases ids with
      | none => simp [hn] at hids
      | some ids =>
        simp only [hn] at hrs
        have e : (if gl.requires.isNone then List.replicate ids.length result
            else result.asSeq.getD []) = rs := by
          cases hr : gl.requires with
          | none => simp [hr] at hrs; simp [hrs]
          | some r => simp [hr] at hrs; simp [hrs]
        simp only [e, storeLinkRows_ok_iff, GNode.indexName, hn, Option.getD_some, identsOf]
        apply and_congr_left
        intro _
        simp only [identsOf, Option.getD_some] at hlen
        constructor
        · intro h v hv
          obtain ⟨k, hk⟩ := List.mem_iff_getElem?.1 hv
          have hk' := (List.getElem?_eq_some_iff.1 hk).1
          have : (ids[k]'(by omega), v) ∈ ids.zip rs := by
            rw [List.mem_iff_getElem?]
            refine ⟨k, ?_⟩
            rw [List.getElem?_zip_eq_some]
            exact ⟨by simp [hlen ▸ hk'], hk⟩
          exact h _ this
        · intro h p hp
          exact h p.2 (List.of_mem_zip hp).2
    | none =>
      cases ids with
      | some ids => simp [hn] at hids
      | none =>
        simp only [hn] at hrs
        subst hrs
        simp only [bind_ok_iff, linkRef_ok_iff, GNode.indexName, hn, Option.getD_none, identsOf,
          List.zip_cons_cons, List.zip_nil_left, linkCells, List.map_cons, List.map_nil, dupdate_cons,
          dupdate_nil, List.mem_singleton, forall_eq]
        constructor
        · rintro ⟨c, ⟨h1, h2, rfl⟩, h⟩; simp at h; exact ⟨⟨h1, h2⟩, h.symm⟩
        · rintro ⟨⟨h1, h2⟩, h⟩; exact ⟨_, ⟨h1, h2, rfl⟩, by simp [h]⟩
  simp only [storeLinks, bind_ok_iff]
  constructor
  · rintro ⟨u, hc, h⟩
    obtain ⟨rs, h1, h2⟩ := (checkStoreLinks_iff hids hne).1 hc
    obtain ⟨h3, h4⟩ := (key rs h1).1 h
    exact ⟨rs, h1, h3, h4⟩
  · rintro ⟨rs, h1, h2, h3⟩
    exact ⟨(), (checkStoreLinks_iff hids hne).2 ⟨rs, h1, fun v hv => (h2 v hv).1⟩, (key rs h1).2 ⟨h2, h3⟩⟩

/-! ### Identifiers -/

/-- what `link_result_to_ids` does: the targets of all link values, in order -/
theorem linkResultToIds_eq {node : GNode} {gl : GLink} {ids : Option (List Val)} {result : Val}
    {rs : List Val} (hids : ids.isSome = node.name.isSome)
    (h1 : LinkValues node gl ids result rs)
    (h2 : ∀ v ∈ rs, ValueShape gl.typeEnum v ∧ (gl.typeEnum = .one → v ≠ .nothing)) (hrs : rs ≠ []) :
    linkResultToIds (ids.isSome && gl.requires.isSome) gl.typeEnum result =
      .ok (if ids.isSome && gl.requires.isSome then rs.flatMap (targets gl.typeEnum)
           else targets gl.typeEnum result) := by
  have one : ∀ v, ValueShape gl.typeEnum v → (gl.typeEnum = .one → v ≠ .nothing) →
      linkResultToIds false gl.typeEnum v = .ok (targets gl.typeEnum v) := by
    intro v h3 h4
    unfold linkResultToIds targets
    cases ht : gl.typeEnum with
    | one => simp [h4 ht]
    | maybe => simp
    | many =>
      simp [ht, ValueShape] at h3
      obtain ⟨l, hl⟩ := h3
      simp [hl]
  by_cases hc : (ids.isSome && gl.requires.isSome) = true
  · simp only [hc, if_true]
    simp only [Bool.and_eq_true] at hc
    obtain ⟨hc1, hc2⟩ := hc
    obtain ⟨ids', rfl⟩ := Option.isSome_iff_exists.1 hc1
    rw [hids] at hc1
    obtain ⟨nm, hn⟩ := Option.isSome_iff_exists.1 hc1
    unfold LinkValues at h1
    simp only [hn, hc2, if_true] at h1
    unfold linkResultToIds targets
    simp only [if_true, h1.1]
    cases ht : gl.typeEnum with
    | maybe =>
      simp only
      congr 1
      clear h1 h2 hrs
      induction rs with
      | nil => rfl
      | cons x r ih => simp only [decide_not] at ih; by_cases hx : x = .nothing <;> simp [hx, ih]
    | one =>
      have : rs.any (fun x => decide (x = .nothing)) = false := by
        rw [List.any_eq_false]
        intro x hx; simpa using (h2 x hx).2 ht
      simp only [this]
      congr 1
      clear h1 h2 hrs this
      induction rs with
      | nil => rfl
      | cons x r ih => simp [← ih]
    | many =>
      have : rs.mapM Val.asSeq = some (rs.map fun v => v.asSeq.getD []) := by
        rw [mapM_some_iff, List.forall₂_map_right_iff]
        clear h1 hrs
        induction rs with
        | nil => exact .nil
        | cons x r ih =>
          refine .cons ?_ (ih fun v hv => h2 v (by simp [hv]))
          have := (h2 x (by simp)).1
          simp [ht, ValueShape] at this
          obtain ⟨l, hl⟩ := this
          simp [hl]
      simp only [this]
      rw [List.flatMap_def]
  · have hc' : (ids.isSome && gl.requires.isSome) = false := by simpa using hc
    simp only [hc']
    have hmem : result ∈ rs := by
      unfold LinkValues at h1
      cases hn : node.name with
      | some nm =>
        cases ids with
        | none => simp [hn] at hids
        | some ids =>
          simp only [hn] at h1
          simp at hc'
          simp [hc'] at h1
          subst h1
          rw [List.mem_replicate]
          exact ⟨by intro h; rw [h] at hrs; simp at hrs, rfl⟩
      | none =>
        cases ids with
        | some ids => simp [hn] at hids
        | none => simp [hn] at h1; simp [h1]
    obtain ⟨h3, h4⟩ := h2 result hmem
    simpa using one result h3 h4

end Hiku
