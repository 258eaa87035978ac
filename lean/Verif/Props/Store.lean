import Verif.Proofs.Store
import Verif.Model.StoreFx

/-! # C10, C11: storing results of data functions; C09, C13: arguments of data functions (local
part) -/

namespace Hiku

variable {H : PyHash} {idx : Index} {node : GNode} {qfs : List QItem} {ids : Option (List Val)}
  {result : Val} {gl : GLink} {ql : QItem}

theorem storeFieldsFx_eq : fxResult (storeFieldsFx H idx node qfs ids result) =
    storeFields H idx node qfs ids result := by
  unfold storeFieldsFx storeFields fxResult
  cases checkStoreFields node qfs.length ids result with
  | error e => rfl
  | ok rows =>
    cases hn : node.name <;> cases ids with
    | none => first | rfl | (match rows with | [] => rfl | [_] => rfl | _ :: _ :: _ => rfl)
    | some l => rfl

theorem storeLinkRowsFx_eq {n key : String} {l : List (Val × Val)} :
    fxResult (storeLinkRowsFx idx n gl key l) = storeLinkRows idx n gl key l := by
  induction l generalizing idx with
  | nil => rfl
  | cons x r ih =>
    obtain ⟨i, v⟩ := x
    simp only [storeLinkRowsFx, storeLinkRows]
    cases linkRef gl v with
    | error e => rfl
    | ok c => simpa using ih

theorem storeLinksFx_eq : fxResult (storeLinksFx H idx node gl ql ids result) =
    storeLinks H idx node gl ql ids result := by
  unfold storeLinksFx storeLinks writeLinks
  cases checkStoreLinks node gl ids result with
  | error e => rfl
  | ok rows =>
    cases hn : node.name with
    | none => cases linkRef gl result <;> rfl
    | some n => cases ids with
      | none => rfl
      | some l => exact storeLinkRowsFx_eq

/-! ### C10, fields -/

/-- C10: a field function result of a wrong shape is rejected with TypeError and nothing is stored.
(The engine calls `store_fields` without ids exactly on the root node.) -/
theorem c10_fields_reject (hids : ids.isSome = node.name.isSome)
    (h : ¬ ∃ rows, RowsOf node qfs.length ids result rows) :
    storeFieldsFx H idx node qfs ids result = (idx, .error .typeError) := by
  cases hs : storeFields H idx node qfs ids result with
  | ok idx' => obtain ⟨rows, hr, _⟩ := (storeFields_ok_iff hids).1 hs; exact absurd ⟨rows, hr⟩ h
  | error e =>
    obtain ⟨rfl, _⟩ := storeFields_error hids hs
    unfold storeFieldsFx
    cases hc : checkStoreFields node qfs.length ids result with
    | error e => rw [checkStoreFields_error hids hc]
    | ok rows => exact absurd ⟨rows, (checkStoreFields_iff hids).1 hc⟩ h

theorem getElem?_rowCells {n : String} {names : List String} {l : List (Val × List Val)} {c : Cell} {v : Val} :
    (c, v) ∈ rowCells n names l ↔ ∃ (i : Nat) (j : Nat) (ident : Val) (row : List Val) (name : String),
      l[i]? = some (ident, row) ∧ names[j]? = some name ∧ row[j]? = some v ∧ c = (n, ident, name) := by
  simp only [rowCells, List.mem_flatMap, List.mem_map]
  constructor
  · rintro ⟨⟨ident, row⟩, hm, ⟨name, v'⟩, hz, he⟩
    simp at he; obtain ⟨rfl, rfl⟩ := he
    obtain ⟨i, hi⟩ := List.mem_iff_getElem?.1 hm
    obtain ⟨j, hj⟩ := List.mem_iff_getElem?.1 hz
    rw [List.getElem?_zip_eq_some] at hj
    exact ⟨i, j, ident, row, name, hi, hj.1, hj.2, rfl⟩
  · rintro ⟨i, j, ident, row, name, h1, h2, h3, rfl⟩
    refine ⟨(ident, row), List.mem_of_getElem? h1, (name, v), ?_, rfl⟩
    exact List.mem_iff_getElem?.2 ⟨j, List.getElem?_zip_eq_some.2 ⟨h2, h3⟩⟩

theorem RowsOf.lengths {n : Nat} {rows : List (List Val)} (h : RowsOf node n ids result rows) :
    rows.length = (identsOf ids).length ∧ ∀ row ∈ rows, row.length = n := by
  unfold RowsOf at h
  split at h
  · obtain ⟨rs, h1, h2, h3⟩ := h
    refine ⟨by rw [← h3.length_eq, h2]; rfl, ?_⟩
    intro row hr
    clear h2 h1
    induction h3 with
    | nil => simp at hr
    | cons hx _ ih =>
      rcases List.mem_cons.1 hr with rfl | hr
      · exact hx.2
      · exact ih hr
  · obtain ⟨row, _, h2, rfl⟩ := h
    exact ⟨rfl, by simpa using h2⟩
  · exact absurd h (by simp)

/-- the last write to a row decides -/
theorem storeRows_last {n : String} {names : List String} {l : List (Val × List Val)} {i j : Nat}
    {ident : Val} {row : List Val} {name : String} {v : Val} (hi : l[i]? = some (ident, row))
    (hj : names[j]? = some name) (hv : row[j]? = some v)
    (hil : ∀ i' row', l[i']? = some (ident, row') → i' ≤ i)
    (hjl : ∀ j', names[j']? = some name → j' ≤ j) :
    dget (dupdate idx (rowCells n names l)) (n, ident, name) = some v := by
  have hsplit : l = l.take i ++ (ident, row) :: l.drop (i + 1) := by
    have hlt := (List.getElem?_eq_some_iff.1 hi).1
    have hi' := (List.getElem?_eq_some_iff.1 hi).2
    rw [← hi', ← List.drop_eq_getElem_cons hlt, List.take_append_drop]
  have hrest : (n, ident, name) ∉ (rowCells n names (l.drop (i + 1))).map (·.1) := by
    intro hm
    obtain ⟨⟨c, v'⟩, hm, e⟩ := List.mem_map.1 hm
    simp at e; subst e
    obtain ⟨i', j', ident', row', name', h1, h2, h3, h4⟩ := getElem?_rowCells.1 hm
    simp at h4; obtain ⟨rfl, rfl⟩ := h4
    rw [List.getElem?_drop] at h1
    have := hil _ _ h1
    omega
  rw [hsplit]
  have e : rowCells n names (l.take i ++ (ident, row) :: l.drop (i + 1)) =
      rowCells n names (l.take i) ++
        ((names.zip row).map (fun x => ((n, ident, x.1), x.2)) ++ rowCells n names (l.drop (i + 1))) := by
    simp [rowCells]
  rw [e, dupdate_append, dupdate_append, dget_dupdate_notMem _ _ _ hrest]
  apply dget_dupdate_last (n := j)
  · have hz : (names.zip row)[j]? = some (name, v) := List.getElem?_zip_eq_some.2 ⟨hj, hv⟩
    rw [List.getElem?_map, hz]; rfl
  · intro m v' hm
    simp only [List.getElem?_map, Option.map_eq_some_iff] at hm
    obtain ⟨⟨a, b⟩, hm, he⟩ := hm
    rw [List.getElem?_zip_eq_some] at hm
    simp at he
    exact hjl m (by rw [← he.1]; exact hm.1)

/-- C10: a field function result of the right shape is stored so that the value in row `i`, column `j`
belongs to the `i`-th identifier and the `j`-th requested field (for duplicated identifiers or
fields the last one counts); no other cell is changed. -/
theorem c10_fields_store (hids : ids.isSome = node.name.isSome) {rows : List (List Val)}
    (h : RowsOf node qfs.length ids result rows) :
    ∃ idx', storeFieldsFx H idx node qfs ids result = (idx', .ok ()) ∧
      (∀ (i j : Nat) (ident : Val) (row : List Val) (q : QItem) (v : Val),
        (identsOf ids)[i]? = some ident → rows[i]? = some row → qfs[j]? = some q → row[j]? = some v →
        (∀ i', (identsOf ids)[i']? = some ident → i' ≤ i) →
        (∀ (j' : Nat) q', qfs[j']? = some q' → q'.indexKey H = q.indexKey H → j' ≤ j) →
        dget idx' (node.indexName, ident, q.indexKey H) = some v) ∧
      ∀ c : Cell, (∀ q ∈ qfs, ∀ ident ∈ identsOf ids, c ≠ (node.indexName, ident, q.indexKey H)) →
        dget idx' c = dget idx c := by
  have hs := (storeFields_ok_iff (H := H) (idx := idx) (qfs := qfs) hids).2 ⟨rows, h, rfl⟩
  refine ⟨dupdate idx (rowCells node.indexName (qfs.map (QItem.indexKey H)) ((identsOf ids).zip rows)), ?_, ?_, ?_⟩
  rotate_left
  · intro i j ident row q v h1 h2 h3 h4 h5 h6
    refine storeRows_last (idx := idx) (i := i) (j := j) (List.getElem?_zip_eq_some.2 ⟨h1, h2⟩) ?_ h4 ?_ ?_
    · simp [h3]
    · intro i' row' hi'
      exact h5 i' (List.getElem?_zip_eq_some.1 hi').1
    · intro j' hj'
      simp only [List.getElem?_map, Option.map_eq_some_iff] at hj'
      obtain ⟨q', h7, h8⟩ := hj'
      exact h6 j' q' h7 h8
  · intro c hc
    apply dget_dupdate_notMem
    intro hm
    obtain ⟨⟨c', v⟩, hm', e⟩ := List.mem_map.1 hm
    simp only at e; subst e
    obtain ⟨i, j, ident, row, name, h1, h2, h3, rfl⟩ := getElem?_rowCells.1 hm'
    simp only [List.getElem?_map, Option.map_eq_some_iff] at h2
    obtain ⟨q, h2, rfl⟩ := h2
    exact hc q (List.mem_of_getElem? h2) ident
      (List.mem_of_getElem? (List.getElem?_zip_eq_some.1 h1).1) rfl
  · have := storeFieldsFx_eq (H := H) (idx := idx) (node := node) (qfs := qfs) (ids := ids) (result := result)
    rw [hs] at this
    unfold fxResult at this
    split at this
    · rename_i hx
      simp at this
      rw [← this, ← hx]
    · simp at this

/-! ### C10, links -/

/-- C10: a link function result of a wrong shape is rejected with TypeError and nothing is stored. -/
theorem c10_links_reject (hids : ids.isSome = node.name.isSome) (hne : ids ≠ some [])
    (h : ¬ ∃ rs, LinkValues node gl ids result rs ∧ ∀ v ∈ rs, ValueShape gl.typeEnum v) :
    storeLinksFx H idx node gl ql ids result = (idx, .error .typeError) := by
  unfold storeLinksFx
  cases hc : checkStoreLinks node gl ids result with
  | ok u => exact absurd ((checkStoreLinks_iff hids hne).1 hc) h
  | error e => rw [checkStoreLinks_error hids hc]

/-- C10: a link function result of the right shape is stored so that the `i`-th link value belongs to
the `i`-th identifier (for duplicated identifiers the last one counts); no other cell is changed. -/
theorem c10_links_store (hids : ids.isSome = node.name.isSome) (hne : ids ≠ some []) {rs : List Val}
    (h : LinkValues node gl ids result rs)
    (hv : ∀ v ∈ rs, ValueShape gl.typeEnum v ∧ (gl.typeEnum = .one → v ≠ .nothing)) :
    ∃ idx', storeLinksFx H idx node gl ql ids result = (idx', .ok ()) ∧
      (∀ (i : Nat) (ident v : Val), (identsOf ids)[i]? = some ident → rs[i]? = some v →
        (∀ i', (identsOf ids)[i']? = some ident → i' ≤ i) →
        dget idx' (node.indexName, ident, ql.indexKey H) = some (linkCell gl v)) ∧
      ∀ c : Cell, (∀ ident ∈ identsOf ids, c ≠ (node.indexName, ident, ql.indexKey H)) →
        dget idx' c = dget idx c := by
  have hs := (storeLinks_ok_iff (H := H) (idx := idx) (ql := ql) hids hne).2 ⟨rs, h, hv, rfl⟩
  refine ⟨dupdate idx (linkCells node.indexName gl (ql.indexKey H) ((identsOf ids).zip rs)), ?_, ?_, ?_⟩
  rotate_left
  · intro i ident v h1 h2 h3
    apply dget_dupdate_last (n := i)
    · have hz : ((identsOf ids).zip rs)[i]? = some (ident, v) := List.getElem?_zip_eq_some.2 ⟨h1, h2⟩
      simp only [linkCells]
      rw [List.getElem?_map, hz]; rfl
    · intro m v' hm
      simp only [linkCells, List.getElem?_map, Option.map_eq_some_iff] at hm
      obtain ⟨⟨a, b⟩, hm, he⟩ := hm
      rw [List.getElem?_zip_eq_some] at hm
      simp at he
      exact h3 m (by rw [← he.1]; exact hm.1)
  · intro c hc
    apply dget_dupdate_notMem
    intro hm
    obtain ⟨⟨c', v⟩, hm', e⟩ := List.mem_map.1 hm
    simp only at e; subst e
    simp only [linkCells, List.mem_map] at hm'
    obtain ⟨⟨a, b⟩, hm, he⟩ := hm'
    simp at he; obtain ⟨rfl, rfl⟩ := he
    exact hc a (List.of_mem_zip (by assumption : (a, _) ∈ (identsOf ids).zip rs)).1 rfl
  · have := storeLinksFx_eq (H := H) (idx := idx) (node := node) (gl := gl) (ql := ql) (ids := ids) (result := result)
    rw [hs] at this
    unfold fxResult at this
    split at this
    · rename_i hx
      simp at this
      rw [← this, ← hx]
    · simp at this

/-! ### C11 -/

variable {env : Env} {sub : SubCall} {w : Nat} {st st' : St}

/-- C11: what `process_link` does with a link result.  The stored cells are `linkCell` (None for
`Nothing` of an optional link), and the objects loaded next are exactly the targets of the link
values, in order, or nothing at all if there are none. -/
theorem c11_targets (hids : ids.isSome = node.name.isSome) (hne : ids ≠ some []) {rs : List Val}
    (h : LinkValues node gl ids result rs)
    (hv : ∀ v ∈ rs, ValueShape gl.typeEnum v ∧ (gl.typeEnum = .one → v ≠ .nothing))
    {wf : Wf} (hw : st.wfs[w]? = some wf) {g : Graph} (hg : env.sys.graphs[wf.graph]? = some g)
    {target : GNode} (hgn : g.node gl.node = some target) {name : String} {q : QNode}
    {o : Opts} {al : Option String} (next idx' : _)
    (hnext : next = if ids.isSome && gl.requires.isSome then rs.flatMap (targets gl.typeEnum)
      else targets gl.typeEnum result)
    (hidx : idx' = dupdate wf.index
      (((identsOf ids).zip rs).map fun p => ((node.indexName, p.1, indexKey env.H name o), linkCell gl p.2))) :
    (next = [] →
      processLink env sub w node gl (.link name q o al) ids result st = .ok (setIndex w idx' st)) ∧
    (next ≠ [] →
      processLink env sub w node gl (.link name q o al) ids result st =
        processNode env sub w target q (some next) (setIndex w idx' st)) := by
  have hrs : rs ≠ [] := by
    intro e
    have := h.length
    rw [e] at this
    cases ids with
    | none => simp [identsOf] at this
    | some l => exact hne (by simpa [identsOf] using this.symm)
  have hs := (storeLinks_ok_iff (H := env.H) (idx := wf.index) (ql := .link name q o al) hids hne).2
    ⟨rs, h, hv, rfl⟩
  have hi : dupdate wf.index (linkCells node.indexName gl ((QItem.link name q o al).indexKey env.H)
      ((identsOf ids).zip rs)) = idx' := by rw [hidx]; rfl
  rw [hi] at hs
  have ht := linkResultToIds_eq hids h hv hrs
  simp only [processLink, hw, hs, ht, ok_bind', hg, hgn]
  rw [← hnext]
  constructor
  · intro he
    rw [if_pos (by simp [he])]
  · intro he
    rw [if_neg (by simpa using he)]

/-- C11: targets of optional links: the missing objects are left out, and `None` is stored for them -/
theorem c11_maybe (ht : gl.typeEnum = .maybe) (v : Val) :
    (v = .nothing → targets gl.typeEnum v = [] ∧ linkCell gl v = .none) ∧
    (v ≠ .nothing → targets gl.typeEnum v = [v] ∧ linkCell gl v = .ref gl.node v) := by
  simp only [targets, linkCell, ht]
  exact ⟨fun h => by simp [h], fun h => by simp [h]⟩

/-- C11: sequence links load exactly the listed objects, in order -/
theorem c11_many (ht : gl.typeEnum = .many) {v : Val} {l : List Val} (h : v.asSeq = some l) :
    targets gl.typeEnum v = l ∧ linkCell gl v = .list (l.map (.ref gl.node)) := by
  simp [targets, linkCell, ht, h]

/-- C11: a single link which is not optional and returns `Nothing` for some object raises -/
theorem c11_one_raises (hids : ids.isSome = node.name.isSome) (hne : ids ≠ some [])
    (ht : gl.typeEnum = .one) {rs : List Val} (h : LinkValues node gl ids result rs)
    (hn : Val.nothing ∈ rs) :
    ∃ e, processLink env sub w node gl ql ids result st = .error e := by
  unfold processLink
  cases hw : st.wfs[w]? with
  | none => exact ⟨_, rfl⟩
  | some wf =>
    cases hs : storeLinks env.H wf.index node gl ql ids result with
    | error e => exact ⟨e, by simp only [hs]; rfl⟩
    | ok idx' =>
      obtain ⟨rs', h1, h2, _⟩ := (storeLinks_ok_iff hids hne).1 hs
      rw [h.unique h1] at hn
      exact absurd rfl ((h2 _ hn).2 ht)

/-! ### C09 and C13: one call -/

/-- C09 (local part, for arbitrary data functions): when a link function is called, its required field
was stored for every current object, and it gets exactly the stored values, in the order of the
objects (the single value on the root node), followed by the options if the link declares some. -/
theorem c09_call (hids : ids.isSome = node.name.isSome) {o : Obj}
    (h : scheduleLink env w node gl ql ids st = .ok (st', o)) :
    ∃ wf vs, st.wfs[w]? = some wf ∧
      (gl.reqTruthy → List.Forall₂ (fun ident v =>
        dget wf.index (node.indexName, ident, gl.requires.getD "") = some v) (identsOf ids) vs) ∧
      ∃ s, st'.log = st.log ++ [.call s] ∧ s.func = gl.func ∧
        s.args = (if gl.func.passCtx then [Arg.ctx] else []) ++
          (if gl.reqTruthy then [Arg.val (if ids.isSome then .list vs else vs.headD .none)] else []) ++
          (if gl.options.isEmpty then [] else [Arg.opts ql.options]) := by
  unfold scheduleLink at h
  cases hw : st.wfs[w]? with
  | none => simp [hw] at h
  | some wf =>
    simp only [hw, bind_ok_iff] at h
    obtain ⟨reqArgs, hr, ⟨st1, fut⟩, hs, h⟩ := h
    have hlog : ∃ s, st'.log = st.log ++ [.call s] ∧ s.func = gl.func ∧ s.args =
        if gl.func.passCtx then Arg.ctx :: (reqArgs ++ (if gl.options.isEmpty then [] else [Arg.opts ql.options]))
        else reqArgs ++ (if gl.options.isEmpty then [] else [Arg.opts ql.options]) := by
      simp only [submitCall, hw] at hs
      split at hs
      · simp at hs
      split at hs
      · simp at hs
      · simp at hs
        obtain ⟨rfl, rfl⟩ := hs
        have h := (Prod.mk.inj (Except.ok.inj h)).1
        subst h
        exact ⟨_, rfl, rfl, by simp⟩
    have hreq : ∃ vs, reqArgs = (if gl.reqTruthy then [Arg.val (if ids.isSome then .list vs else vs.headD .none)] else []) ∧
        (gl.reqTruthy → List.Forall₂ (fun ident v =>
        dget wf.index (node.indexName, ident, gl.requires.getD "") = some v) (identsOf ids) vs) := by
      by_cases hq : gl.reqTruthy = true
      · simp only [hq, if_true, bind_ok_iff] at hr
        obtain ⟨v, hv, hr⟩ := hr
        simp at hr; subst hr
        unfold linkReqs at hv
        cases hn : node.name with
        | some nm =>
          cases ids with
          | none => simp [hn] at hids
          | some l =>
            simp only [hn, bind_ok_iff] at hv
            obtain ⟨vs, hv, he⟩ := hv
            simp at he; subst he
            refine ⟨vs, by simp [hq], fun _ => ?_⟩
            rw [mapM_ok_iff] at hv
            simp only [identsOf, Option.getD_some, GNode.indexName, hn]
            refine hv.imp ?_
            intro a b hab
            split at hab
            · simp at hab
            · simp at hab; subst hab; assumption
        | none =>
          cases ids with
          | some l => simp [hn] at hids
          | none =>
            simp only [hn] at hv
            split at hv
            · simp at hv
            · rename_i v' hd
              simp at hv; subst hv
              exact ⟨[v'], by simp [hq], fun _ => by
                simp only [identsOf, Option.getD_none, GNode.indexName, hn]
                exact .cons hd .nil⟩
      · simp only [hq] at hr
        simp at hr
        exact ⟨[], by simp [hq, hr], fun h => absurd h hq⟩
    obtain ⟨vs, h1, h2⟩ := hreq
    obtain ⟨s, h3, h4, h5⟩ := hlog
    refine ⟨wf, vs, rfl, h2, s, h3, h4, ?_⟩
    rw [h5, h1]
    by_cases hp : gl.func.passCtx = true <;> simp [hp]

/-! ### Concrete cases -/

def exHash0 : PyHash := { atom := fun _ => 0, pairs := fun _ => 0, ints := fun _ => 0 }
def exTrack : GNode := { name := some "Track", fields := [] }
def exMaybe : GLink :=
  { name := "album", typeEnum := .maybe, node := "Album", func := { id := 0 }, requires := some "albumId" }

/-- two objects, two fields: the shape of C10 -/
example : RowsOf exTrack 2 (some [.int 1, .int 2])
    (.list [.list [.str "a", .int 5], .tup [.str "b", .int 6]])
    [[.str "a", .int 5], [.str "b", .int 6]] := by
  refine ⟨[.list [.str "a", .int 5], .tup [.str "b", .int 6]], rfl, rfl, ?_⟩
  exact .cons ⟨rfl, rfl⟩ (.cons ⟨rfl, rfl⟩ .nil)

/-- a row which is too short is rejected -/
example : storeFieldsFx exHash0 [] exTrack [.field "a" none none, .field "b" none none]
    (some [.int 1, .int 2]) (.list [.list [.str "a", .int 5], .list [.str "b"]]) =
    ([], .error .typeError) := rfl

/-- an optional link with a missing object -/
example : LinkValues exTrack exMaybe (some [.int 1, .int 2]) (.list [.nothing, .int 7])
    [.nothing, .int 7] ∧
    ([Val.nothing, .int 7]).flatMap (targets exMaybe.typeEnum) = [.int 7] :=
  ⟨⟨rfl, rfl⟩, rfl⟩

/-- a single link which returns Nothing for the second object: the first cell is already written
when the error is raised (finding 24) -/
example : storeLinksFx exHash0 [] exTrack { exMaybe with typeEnum := .one }
    (.link "album" (.mk [] false) none none) (some [.int 1, .int 2]) (.list [.int 7, .nothing]) =
    ([(("Track", .int 1, "album"), .ref "Album" (.int 7))], .error .assertionError) := rfl

end Hiku
