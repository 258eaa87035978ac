import Verif.Spec.Db
import Verif.Props.Sources
import Verif.Props.Semantics

/-! # C54: a graph over a database answers the data of its tables -/

namespace Hiku.Sources

theorem inOrder_fetches {fetch : Table → SaSelect → Except Err (List SaRow)} (h : InOrder fetch) (tbl : Table) : Fetches tbl (fetch tbl) :=
  fun s => ⟨_, h tbl s, _, List.Perm.refl _, rfl⟩

/-! ### Fields -/

theorem find_unique {tbl : Table} {pk : String} (hu : UniqueIn tbl pk) {r : SaRow} (hr : r ∈ tbl) {i : Val} (h : dget r pk = some i)
    (hi : i ≠ .none) : tbl.find? (fun r => decide (dget r pk = some i ∧ i ≠ .none)) = some r := by
  induction tbl with
  | nil => simp at hr
  | cons x t ih =>
    have hp := List.pairwise_cons.1 hu
    rcases List.mem_cons.1 hr with hr | hr
    · subst hr; simp [h, hi]
    · have : dget x pk ≠ some i := by rw [← h]; exact hp.1 r hr
      rw [List.find?_cons_of_neg (by simp [this])]
      exact ih hp.2 hr

theorem fieldsOf_cells {tbl : Table} {pk : String} {names : List String} (hu : UniqueIn tbl pk) {i o : Val}
    (h : FieldsOf tbl pk names i o) : o = .list (names.map (cellOf tbl pk i)) := by
  rcases h with ⟨r, hr, h1, h2, vs, rfl, h3⟩ | ⟨h1, rfl⟩
  · congr 1
    have hf := find_unique hu hr h1 h2
    clear hr
    induction h3 with
    | nil => rfl
    | cons h _ ih => simp only [List.map_cons, cellOf, hf, h, Option.getD_some, List.cons.injEq, true_and]; exact ih
  · congr 1
    apply List.map_congr_left
    intro n _
    have : tbl.find? (fun r => decide (dget r pk = some i ∧ i ≠ .none)) = none := by
      rw [List.find?_eq_none]
      intro r hr
      simp only [decide_eq_true_eq, not_and, not_not]
      exact h1 r hr
    simp only [cellOf, this]

theorem fields_call {fetch : Table → SaSelect → Except Err (List SaRow)} (hdb : InOrder fetch) {tbl : Table} {fq : FieldsQuery}
    {qfs : List QItem} {ids : List Val} (hne : qfs ≠ []) (h : ∀ q ∈ qfs, ServesField tbl fq q.name) :
    fq.call (fetch tbl) qfs ids = .ok (.list (ids.map fun i => .list (qfs.map fun q => cellOf tbl fq.pk i q.name))) := by
  have hu : UniqueIn tbl fq.pk := by
    obtain ⟨q, r⟩ := List.exists_mem_of_ne_nil _ hne
    exact (h q r).key
  obtain ⟨outs, h1, h2⟩ := c40_fields (ids := ids) (fields := qfs) (fq := fq) (inOrder_fetches hdb tbl) (by
    intro r hr c hc
    rcases List.mem_cons.1 hc with rfl | hc
    · obtain ⟨q, hq⟩ := List.exists_mem_of_ne_nil _ hne
      exact (h q hq).values r hr _ (by simp)
    · obtain ⟨q, hq, rfl⟩ := List.mem_map.1 hc
      exact (h q hq).values r hr _ (by simp)) (fun f hf => (h f hf).column)
  rw [h1]
  congr 2
  clear h1
  induction h2 with
  | nil => rfl
  | cons h _ ih =>
    simp only [List.map_cons, List.cons.injEq, ih, and_true]
    rw [fieldsOf_cells hu h, List.map_map]; rfl

/-! ### Links -/

theorem link_pairs_in_order {fetch : Table → SaSelect → Except Err (List SaRow)} (hdb : InOrder fetch) {tbl : Table}
    {pySet : List Val → List Val} {lq : LinkQuery} {ids : List Val} (hs : IsSet pySet)
    (hcols : HasCols tbl [lq.fromCol, lq.toCol]) :
    ∃ pairs, lq.pairs pySet (fetch tbl) ids = .ok pairs ∧
      ∀ v ∈ ids, (pairs.filterMap fun p => if p.1 = v then some p.2 else none) = linkedTo tbl lq.fromCol lq.toCol v := by
  obtain ⟨pairs, h1, l, rfl, hp⟩ := link_pairs_rel (R := Eq) rfl (fun _ _ h x hx => h ▸ hx) (ids := ids) hs
    (fun s => ⟨_, hdb tbl s, _, rfl, rfl⟩) hcols
  refine ⟨pairs, h1, ?_⟩
  intro v hv
  generalize hl : (tbl.filter fun r => match dget r lq.fromCol with
          | some v => decide (v ≠ .none) && decide (v ∈ ids)
          | none => false) = l at hp
  have e1 : (pairs.filterMap fun p => if p.1 = v then some p.2 else none) =
      l.filterMap fun r => if dget r lq.fromCol = some v then dget r lq.toCol else none := by
    clear hl h1
    induction hp with
    | nil => rfl
    | @cons r p l' ps h _ ih =>
      simp only [List.filterMap_cons, ih, h.1, h.2]
      by_cases hpv : p.1 = v
      · simp [hpv]
      · simp [hpv]
  rw [e1, ← hl, List.filterMap_filter]
  unfold linkedTo
  apply List.filterMap_congr
  intro r _
  cases hd : dget r lq.fromCol with
  | none => simp
  | some w =>
    by_cases hw : w = v
    · subst hw
      by_cases hn : w = .none
      · simp [hn]
      · simp [hn, hv]
    · simp [hw]

theorem dmk_single {pairs : List (Val × Val)} {v : Val} {ts : List Val}
    (h : (pairs.filterMap fun p => if p.1 = v then some p.2 else none) = ts) (hl : ts.length ≤ 1) :
    dget (dmk pairs) v = ts.head? := by
  rw [dget_dmk]
  have key : ∀ l : List (Val × Val), dget l v = (l.filterMap fun p => if p.1 = v then some p.2 else none).head? := by
    intro l
    induction l with
    | nil => rfl
    | cons p r ih =>
      obtain ⟨a, b⟩ := p
      rw [dget_cons]
      by_cases e : a = v
      · simp [e]
      · simp [e, ih]
  rw [key, List.filterMap_reverse, h]
  match ts, hl with
  | [], _ => rfl
  | [x], _ => rfl

theorem link_call {fetch : Table → SaSelect → Except Err (List SaRow)} (hdb : InOrder fetch) {tbl : Table}
    {pySet : List Val → List Val} {lq : LinkQuery} {t : LinkType} {ids : List Val} {e : Val → Prop} (hs : IsSet pySet)
    (h : ServesLink tbl lq t e) (hone : t = .one → ∀ v ∈ ids, linkedTo tbl lq.fromCol lq.toCol v ≠ []) :
    lq.call pySet (fetch tbl) t ids = .ok (.list (ids.map (linkOf tbl lq t))) := by
  obtain ⟨pairs, h1, h2⟩ := link_pairs_in_order hdb (ids := ids) hs h.values
  unfold LinkQuery.call
  rw [h1, ok_bind']
  cases t with
  | many =>
    rw [show mapper .many = toMany from rfl, c41_many_row_order]
    congr 2
    apply List.map_congr_left
    intro v hv
    rw [h2 v hv]; rfl
  | maybe =>
    simp only [mapper, toMaybe]
    congr 2
    apply List.map_congr_left
    intro v hv
    rw [dmk_single (h2 v hv) (h.single (by simp) v)]; rfl
  | one =>
    have : ids.mapM (item (dmk pairs)) = .ok (ids.map (linkOf tbl lq .one)) := by
      rw [mapM_ok_iff, List.forall₂_map_right_iff, List.forall₂_same]
      intro v hv
      simp only [item, dmk_single (h2 v hv) (h.single (by simp) v)]
      cases hl : linkedTo tbl lq.fromCol lq.toCol v with
      | nil => exact absurd hl (hone rfl v hv)
      | cons x r => simp [linkOf, hl]
    simp only [mapper, toOne, this, ok_bind']

theorem linkedTo_mem {tbl : Table} {a b : String} {v x : Val} (h : x ∈ linkedTo tbl a b v) : ∃ r ∈ tbl, dget r b = some x := by
  obtain ⟨r, hr, hx⟩ := List.mem_filterMap.1 h
  split at hx
  · exact ⟨r, hr, hx⟩
  · simp at hx

theorem linkOf_value {tbl : Table} {lq : LinkQuery} {t : LinkType} {e : Val → Prop} (h : ServesLink tbl lq t e) {v : Val}
    (hone : t = .one → linkedTo tbl lq.fromCol lq.toCol v ≠ []) :
    ValueShape t (linkOf tbl lq t v) ∧ (t = .one → linkOf tbl lq t v ≠ .nothing) ∧ ∀ x ∈ targets t (linkOf tbl lq t v), e x := by
  cases t with
  | many =>
    refine ⟨⟨_, rfl⟩, by simp, ?_⟩
    intro x hx
    exact h.foreign v x hx
  | maybe =>
    refine ⟨trivial, by simp, ?_⟩
    intro x hx
    cases hl : linkedTo tbl lq.fromCol lq.toCol v with
    | nil =>
      have e1 : linkOf tbl lq .maybe v = .nothing := by simp [linkOf, hl]
      simp [e1, targets] at hx
    | cons y r =>
      have hy : y ∈ linkedTo tbl lq.fromCol lq.toCol v := by rw [hl]; simp
      have e1 : linkOf tbl lq .maybe v = y := by simp [linkOf, hl]
      rw [e1] at hx
      simp only [targets] at hx
      split at hx
      · simp at hx
      · simp at hx; subst hx; exact h.foreign v _ hy
  | one =>
    cases hl : linkedTo tbl lq.fromCol lq.toCol v with
    | nil => exact absurd hl (hone rfl)
    | cons y r =>
      have hy : y ∈ linkedTo tbl lq.fromCol lq.toCol v := by rw [hl]; simp
      have e1 : linkOf tbl lq .one v = y := by simp [linkOf, hl]
      rw [e1]
      refine ⟨trivial, fun _ => ?_, ?_⟩
      · obtain ⟨r, hr, hx⟩ := linkedTo_mem hy
        exact (h.clean r hr _ _ hx).1
      · intro x hx
        simp [targets] at hx
        subst hx
        exact h.foreign v _ hy

theorem cellOf_clean {tbl : Table} (h : Clean tbl) (pk : String) (i : Val) (c : String) : (cellOf tbl pk i c).refLike = false := by
  unfold cellOf
  split
  · rename_i r hr
    cases hd : dget r c with
    | none => rfl
    | some v => exact (h r (List.mem_of_find?_eq_some hr) c v hd).2
  · rfl

/-! ### The protocol -/

variable {env : Env} {src : Nat → Source} {proc : Nat → Val → Val → List Val → Val} {obj : Nat → String → Val → Prop}
  {U : String → Opts → Prop} {pySet : List Val → List Val} {fetch : Table → SaSelect → Except Err (List SaRow)}

/-- the data functions called by the engine are the sources -/
def CallsSources (env : Env) (src : Nat → Source) (pySet : List Val → List Val)
    (fetch : Table → SaSelect → Except Err (List SaRow)) : Prop :=
  ∀ n f args, env.world.call n f args = (src f).call pySet fetch args

/-- sources follow the loading protocol -/
theorem conforms (hs : IsSet pySet) (hdb : InOrder fetch) (hcall : CallsSources env src pySet fetch)
    (h : OverTables env src proc obj U) (hsub : SubFieldsOk env (tableData src proc obj) U) :
    Conforms env (tableData src proc obj) U where
  fieldsRoot := by
    intro n gi g f qfs hg hne hq
    obtain ⟨q, hqm⟩ := List.exists_mem_of_ne_nil _ hne
    obtain ⟨hu, gf, h1, h2⟩ := hq q hqm
    obtain ⟨value, hv⟩ := h.rootFields gi g q.name q.options gf f hg hu h1 h2
    refine ⟨.list (qfs.map fun q => value q.name q.options), ?_, ?_⟩
    · rw [hcall, hv]
      unfold withCtx
      split <;> rfl
    · simp only [tableData, hv]; rfl
  fieldsNode := by
    intro n gi g nm gn f qfs ids hg hn hne hq _ _
    obtain ⟨q, hqm⟩ := List.exists_mem_of_ne_nil _ hne
    obtain ⟨hu, gf, h1, h2⟩ := hq q hqm
    obtain ⟨hc, tbl, fq, hsrc, _⟩ := h.nodeFields gi g nm gn q.name q.options gf f hg hn hu h1 h2
    have hall : ∀ q ∈ qfs, ServesField tbl fq q.name := by
      intro q hqm
      obtain ⟨hu, gf, h1, h2⟩ := hq q hqm
      obtain ⟨_, tbl', fq', hsrc', h3⟩ := h.nodeFields gi g nm gn q.name q.options gf f hg hn hu h1 h2
      rw [hsrc] at hsrc'
      cases hsrc'
      exact h3
    refine ⟨.list (ids.map fun i => .list (qfs.map fun q => cellOf tbl fq.pk i q.name)),
      ids.map fun i => .list (qfs.map fun q => cellOf tbl fq.pk i q.name), ?_, rfl, ?_⟩
    · rw [hcall, hsrc]
      simp only [withCtx, hc, if_true, Source.call]
      exact fields_call hdb hne hall
    · rw [List.forall₂_map_right_iff, List.forall₂_same]
      intro i _
      simp only [tableData, hsrc]; rfl
  linkPlain := by
    intro n gi g gn nm gl o hg hn hget hu hr
    obtain ⟨value, hsrc, _⟩ := h.startLinks gi g gn nm o gl hg hn hu hget hr
    rw [hcall, hsrc]
    simp only [tableData, hsrc, withCtx, optArgs, declOpts]
    cases gl.func.passCtx <;> cases gl.options.isEmpty <;> rfl
  linkRoot := by
    intro n gi g nm gl o r v hg hget hu hr
    rw [h.rootLinks gi g nm o gl hg hu hget] at hr
    cases hr
  linkNode := by
    intro n gi g nn gn nm gl o r ids vs hg hn hget hu hr _ hobj hvs
    obtain ⟨hc, ho, tbl, lq, hsrc, h1, h2⟩ := h.nodeLinks gi g nn gn nm o gl r hg hn hu hget hr
    refine ⟨.list (vs.map (linkOf tbl lq gl.typeEnum)), ?_, ?_⟩
    · rw [hcall, hsrc]
      simp only [withCtx, hc, if_true, optArgs, ho, List.isEmpty_nil]
      refine link_call hdb hs h1 ?_
      intro ht v hv
      rw [hvs] at hv
      obtain ⟨i, hi, rfl⟩ := List.mem_map.1 hv
      exact h2 ht i (hobj i hi)
    · simp only [tableData, hsrc]; rfl
  linkValue := by
    intro gi g gn nm gl o i v hg hn hget hu hi hv
    cases hr : gl.requires with
    | none =>
      obtain ⟨value, hsrc, h1, h2, h3⟩ := h.startLinks gi g gn nm o gl hg hn hu hget hr
      have e : v = value (declOpts gl o) := by rw [hv]; simp [semLink, hr, tableData, hsrc]
      rw [e]
      exact ⟨h1, h2, h3⟩
    | some r =>
      rcases hn with rfl | ⟨nn, hn⟩
      · rw [h.rootLinks gi g nm o gl hg hu hget] at hr
        cases hr
      · obtain ⟨hc, ho, tbl, lq, hsrc, h1, h2⟩ := h.nodeLinks gi g nn gn nm o gl r hg hn hu hget hr
        have e : v = linkOf tbl lq gl.typeEnum
            (semName (tableData src proc obj) (semSub env.sys (tableData src proc obj) gi) gn i r none) := by
          rw [hv]; simp only [semLink, hr, Option.map_some]
          conv_lhs => simp only [tableData, hsrc]
          rfl
        rw [e]
        refine linkOf_value h1 fun ht => h2 ht i ?_
        have hname : gn.name = some nn := Graph.node_name hn
        simp only [IdentOk, hname] at hi
        exact hi
  noRefs := by
    intro f n o i
    simp only [tableData]
    split
    · rename_i tbl fq id hsrc
      exact cellOf_clean (h.tables _ _ _ hsrc) _ _ _
    · rename_i value hsrc
      exact h.rootValues _ _ _ _ hsrc
    · rfl
  noRefsProc := hsub.noRefsProc
  subObj := hsub.subObj
  proc := hsub.proc

/-- C54.  For every valid query and every schedule the execution of a graph over tables succeeds, and what is read through
the result are the cells of the tables, joined along the links. -/
theorem c54_result (hs : IsSet pySet) (hdb : InOrder fetch) (hcall : CallsSources env src pySet fetch)
    (h : OverTables env src proc obj U) (hsub : SubFieldsOk env (tableData src proc obj) U)
    (hgood : GoodSys U env.sys) (hH : Faithful env.H (tableData src proc obj) U)
    {choose : Nat → List Nat → List Nat} (hch : ValidChoice choose)
    {gi : Nat} {g : Graph} {q q' : QNode} (hg : env.sys.graphs[gi]? = some g)
    (hi : initOptions g q = .ok q') (hq : NodeOk U g g.root q') {fuel inner : Nat}
    (hf : costQuery env.sys 1 0 gi q < fuel) (hin : 1 + costQuery env.sys 0 1 gi q < inner) :
    ∃ idx, execute env choose inner fuel gi q = .ok (idx, q') ∧
      readNode env.H idx rootName rootIdent q' = .ok (semQuery env.sys (tableData src proc obj) gi q') :=
  c06_result hgood hH (conforms hs hdb hcall h hsub) hch hg hi hq hf hin

/-- The asynchronous sources, which fetch the rows in buckets, are included: such a `fetch` satisfies `InOrder`. -/
theorem c54_async {ready : Table → SaSelect → Nat → Nat} {fuel : Table → SaSelect → Nat}
    (hf : ∀ tbl s, (tbl.filter (Matches s)).length < fuel tbl s) :
    InOrder fun tbl s => asyncFetch (fun s => .ok ⟨(tbl.filter (Matches s)).map (selected s.columns), ready tbl s⟩) (fuel tbl s) s := by
  intro tbl s
  exact c42_chunks (c := ⟨_, ready tbl s⟩) rfl (by simpa using hf tbl s)

/-- without fields computed by sub-graphs there is nothing more to show -/
theorem subFieldsOk_none {D : Data} (hp : ∀ p this root opts, (D.proc p this root opts).refLike = false)
    (h : ∀ (gi : Nat) g nn gn n gf, env.sys.graphs[gi]? = some g → g.node nn = some gn → gn.get n = some (.field gf) →
      ∃ f, gf.func = .plain f) : SubFieldsOk env D U where
  noRefsProc := hp
  subObj := by
    intro gi g nn gn n gf sg reqs p s i hg hn hget hf
    obtain ⟨f, e⟩ := h gi g nn gn n gf hg hn hget
    rw [e] at hf; cases hf
  proc := by
    intro gi g nn gn n o gf sg reqs p s g' t q i q1 r1 hg hn hget hf
    obtain ⟨f, e⟩ := h gi g nn gn n gf hg hn hget
    rw [e] at hf; cases hf

/-! ### An example -/

def dbUsers : Table :=
  [[("id", .int 1), ("name", .str "Ann")], [("id", .int 2), ("name", .str "Bob")], [("id", .int 3), ("name", .none)]]
def dbFriends : Table :=
  [[("a", .int 1), ("b", .int 3)], [("a", .int 2), ("b", .int 1)], [("a", .int 1), ("b", .int 2)], [("a", .none), ("b", .int 3)]]
def dbBosses : Table := [[("who", .int 2), ("boss", .int 1)]]

def dbSrc : Nat → Source
  | 0 => .fields dbUsers { cols := [("id", .integer), ("name", .unicode)], pk := "id" }
  | 1 => .link dbFriends { fromCol := "a", toCol := "b" } .many
  | 2 => .link dbBosses { fromCol := "who", toCol := "boss" } .maybe
  | 3 => .start fun _ => .list [.int 1, .int 2, .int 3]
  | _ => .rootFields fun _ _ => .none

def dbId : GField := { name := "id", ty := some .integer, func := .plain ⟨0, true⟩ }
def dbName : GField := { name := "name", ty := some .string, func := .plain ⟨0, true⟩ }
def dbFriendsLink : GLink := { name := "friends", typeEnum := .many, node := "user", func := ⟨1, true⟩, requires := some "id" }
def dbBoss : GLink := { name := "boss", typeEnum := .maybe, node := "user", func := ⟨2, true⟩, requires := some "id" }
def dbAll : GLink := { name := "users", typeEnum := .many, node := "user", func := ⟨3, false⟩, requires := none }
def dbUser : GNode := { name := some "user", fields := [.field dbId, .field dbName, .link dbFriendsLink, .link dbBoss] }
def dbGraph : Graph := { items := [dbUser, { name := none, fields := [.link dbAll] }] }

def dbFetch (tbl : Table) (s : SaSelect) : Except Err (List SaRow) := .ok ((tbl.filter (Matches s)).map (selected s.columns))

def dbEnv : Env where
  sys := { graphs := [dbGraph], subs := [] }
  world := { call := fun _ f args => (dbSrc f).call List.dedup dbFetch args, proc := fun _ _ _ _ => .error .typeError }
  H := exEnv.H

def dbObj : Nat → String → Val → Prop := fun _ _ i => i ∈ [Val.int 1, .int 2, .int 3]
def dbProc : Nat → Val → Val → List Val → Val := fun _ _ _ _ => .none

def dbQuery : QNode :=
  .mk [.link "users" (.mk [.field "name" none none,
    .link "friends" (.mk [.field "name" none none] false) none none,
    .link "boss" (.mk [.field "id" none none] false) none none] false) none none] false

theorem dbGraphs {gi : Nat} {g : Graph} (hg : dbEnv.sys.graphs[gi]? = some g) : gi = 0 ∧ g = dbGraph := by
  match gi, hg with
  | 0, hg => simp [dbEnv] at hg; exact ⟨rfl, hg.symm⟩
  | n + 1, hg => simp [dbEnv] at hg

theorem dbNode {nm : String} {gn : GNode} (h : dbGraph.node nm = some gn) : nm = "user" ∧ gn = dbUser := by
  have := dget_mem h
  simp [dbGraph, Graph.nodesMap, dbUser, dmk, dupdate, dset] at this
  exact ⟨this.1, by rw [this.2]; rfl⟩

theorem dbUser_get {n : String} {it : GItem} (h : dbUser.get n = some it) :
    (n = "id" ∧ it = .field dbId) ∨ (n = "name" ∧ it = .field dbName) ∨ (n = "friends" ∧ it = .link dbFriendsLink) ∨
      (n = "boss" ∧ it = .link dbBoss) := by
  have := dget_mem h
  simp [dbUser, GNode.fieldsMap, dmk, dupdate, dset, GItem.name, dbId, dbName, dbFriendsLink, dbBoss] at this
  rcases this with h | h | h | h <;> simp [h, dbId, dbName, dbFriendsLink, dbBoss]

theorem dbRoot_get {n : String} {it : GItem} (h : dbGraph.root.get n = some it) : n = "users" ∧ it = .link dbAll := by
  have := dget_mem h
  simp [dbGraph, Graph.root, dbUser, GNode.fieldsMap, dmk, dupdate, dset, GItem.name, dbAll] at this
  simp [this, dbAll]

theorem dbLinked_one : ∀ v, (linkedTo dbBosses "who" "boss" v).length ≤ 1 := by
  intro v
  exact Nat.le_trans (List.length_filterMap_le _ _) (by simp [dbBosses])

theorem db_clean {tbl : Table} (h : ∀ r ∈ tbl, ∀ x ∈ r, x.2 ≠ .nothing ∧ x.2.refLike = false) : Clean tbl :=
  fun r hr _ _ hv => h r hr _ (dget_mem hv)

theorem dbOver : OverTables dbEnv dbSrc dbProc dbObj exU where
  tables := by
    intro f tbl fq h
    unfold dbSrc at h
    split at h <;> cases h
    exact db_clean (by unfold dbUsers; decide)
  nodeFields := by
    intro gi g nm gn n o gf f hg hn _ hget hf
    obtain ⟨rfl, rfl⟩ := dbGraphs hg
    obtain ⟨rfl, rfl⟩ := dbNode hn
    rcases dbUser_get hget with ⟨rfl, h⟩ | ⟨rfl, h⟩ | ⟨rfl, h⟩ | ⟨rfl, h⟩ <;> cases h <;> cases hf
    · exact ⟨rfl, _, _, rfl, by simp, by unfold HasCols; decide, by unfold UniqueIn; decide⟩
    · exact ⟨rfl, _, _, rfl, by simp, by unfold HasCols; decide, by unfold UniqueIn; decide⟩
  rootFields := by
    intro gi g n o gf f hg _ hget
    obtain ⟨rfl, rfl⟩ := dbGraphs hg
    have := (dbRoot_get hget).2
    cases this
  rootValues := by
    intro f value n o h
    unfold dbSrc at h
    split at h <;> cases h
    rfl
  startLinks := by
    intro gi g gn n o gl hg hn _ hget hr
    obtain ⟨rfl, rfl⟩ := dbGraphs hg
    rcases hn with rfl | ⟨nm, hn⟩
    · have := (dbRoot_get hget).2
      cases this
      refine ⟨_, rfl, ⟨_, rfl⟩, by simp [dbAll], ?_⟩
      intro t ht
      exact ht
    · obtain ⟨rfl, rfl⟩ := dbNode hn
      rcases dbUser_get hget with ⟨rfl, h⟩ | ⟨rfl, h⟩ | ⟨rfl, h⟩ | ⟨rfl, h⟩ <;> cases h <;> cases hr
  rootLinks := by
    intro gi g n o gl hg _ hget
    obtain ⟨rfl, rfl⟩ := dbGraphs hg
    have := (dbRoot_get hget).2
    cases this
    rfl
  nodeLinks := by
    intro gi g nm gn n o gl r hg hn _ hget hr
    obtain ⟨rfl, rfl⟩ := dbGraphs hg
    obtain ⟨rfl, rfl⟩ := dbNode hn
    rcases dbUser_get hget with ⟨rfl, h⟩ | ⟨rfl, h⟩ | ⟨rfl, h⟩ | ⟨rfl, h⟩ <;> cases h
    · refine ⟨rfl, rfl, _, _, rfl, ⟨by unfold HasCols; decide, db_clean (by unfold dbFriends; decide), by simp [dbFriendsLink], ?_⟩,
        by simp [dbFriendsLink]⟩
      intro v x hx
      obtain ⟨r, hr, h⟩ := linkedTo_mem hx
      have key : ∀ r ∈ dbFriends, ∀ x, dget r "b" = some x → x ∈ [Val.int 1, .int 2, .int 3] := by
        simp [dbFriends, dget]
      exact key r hr x h
    · refine ⟨rfl, rfl, _, _, rfl, ⟨by unfold HasCols; decide, db_clean (by unfold dbBosses; decide), fun _ => dbLinked_one, ?_⟩,
        by simp [dbBoss]⟩
      intro v x hx
      obtain ⟨r, hr, h⟩ := linkedTo_mem hx
      have key : ∀ r ∈ dbBosses, ∀ x, dget r "boss" = some x → x ∈ [Val.int 1, .int 2, .int 3] := by
        simp [dbBosses, dget]
      exact key r hr x h

theorem dbGood : GoodSys exU dbEnv.sys where
  this := rfl
  nodes := by
    intro gi g hg
    obtain ⟨rfl, rfl⟩ := dbGraphs hg
    rfl
  links := by
    intro gi g hg gn hn n gl hget
    obtain ⟨rfl, rfl⟩ := dbGraphs hg
    rcases hn with rfl | ⟨nm, hn⟩
    · have := (dbRoot_get hget).2
      cases this
      exact ⟨⟨dbUser, rfl⟩, by simp [dbAll]⟩
    · obtain ⟨rfl, rfl⟩ := dbNode hn
      have hok : ItemOk exU dbGraph dbUser (.field "id" none none) := by
        rw [ItemOk]
        exact ⟨rfl, dbId, rfl, by simp [OptsGiven, dbId]⟩
      rcases dbUser_get hget with ⟨rfl, h⟩ | ⟨rfl, h⟩ | ⟨rfl, h⟩ | ⟨rfl, h⟩ <;> cases h
      · refine ⟨⟨dbUser, rfl⟩, ?_⟩
        intro r hr
        simp [dbFriendsLink] at hr
        subst hr
        exact ⟨by simp, hok⟩
      · refine ⟨⟨dbUser, rfl⟩, ?_⟩
        intro r hr
        simp [dbBoss] at hr
        subst hr
        exact ⟨by simp, hok⟩
  subs := by
    intro gi g hg gn hn n gf hget sg reqs p hf
    obtain ⟨rfl, rfl⟩ := dbGraphs hg
    rcases hn with rfl | ⟨nm, hn⟩
    · have := (dbRoot_get hget).2
      cases this
    · obtain ⟨rfl, rfl⟩ := dbNode hn
      rcases dbUser_get hget with ⟨rfl, h⟩ | ⟨rfl, h⟩ | ⟨rfl, h⟩ | ⟨rfl, h⟩ <;> cases h <;> cases hf

theorem dbSub {U : String → Opts → Prop} : SubFieldsOk dbEnv (tableData dbSrc dbProc dbObj) U := by
  refine subFieldsOk_none (fun _ _ _ _ => rfl) ?_
  intro gi g nn gn n gf hg hn hget
  obtain ⟨rfl, rfl⟩ := dbGraphs hg
  obtain ⟨rfl, rfl⟩ := dbNode hn
  rcases dbUser_get hget with ⟨rfl, h⟩ | ⟨rfl, h⟩ | ⟨rfl, h⟩ | ⟨rfl, h⟩ <;> cases h
  · exact ⟨_, rfl⟩
  · exact ⟨_, rfl⟩

theorem dbFaithful : Faithful dbEnv.H (tableData dbSrc dbProc dbObj) exU := by
  rintro n o n' o' rfl rfl h
  exact ⟨h, fun _ _ _ => rfl, fun _ _ => rfl, fun _ => rfl⟩

theorem dbQuery_ok : NodeOk exU dbGraph dbGraph.root dbQuery := by
  rw [dbQuery, NodeOk, ItemsOk, ItemOk, ItemsOk]
  refine ⟨⟨⟨rfl, .inl ⟨dbAll, dbUser, rfl, rfl, ?_⟩⟩, trivial⟩, by simp⟩
  rw [NodeOk, ItemsOk, ItemOk, ItemsOk, ItemOk, ItemsOk, ItemOk, ItemsOk]
  refine ⟨⟨⟨rfl, dbName, rfl, by simp [OptsGiven, dbName]⟩,
    ⟨rfl, .inl ⟨dbFriendsLink, dbUser, rfl, rfl, ?_⟩⟩, ⟨rfl, .inl ⟨dbBoss, dbUser, rfl, rfl, ?_⟩⟩, trivial⟩, by simp⟩
  · rw [NodeOk, ItemsOk, ItemOk, ItemsOk]
    exact ⟨⟨⟨rfl, dbName, rfl, by simp [OptsGiven, dbName]⟩, trivial⟩, by simp⟩
  · rw [NodeOk, ItemsOk, ItemOk, ItemsOk]
    exact ⟨⟨⟨rfl, dbId, rfl, by simp [OptsGiven, dbId]⟩, trivial⟩, by simp⟩

theorem dbCost : costQuery dbEnv.sys 1 0 0 dbQuery < 20 ∧ 1 + costQuery dbEnv.sys 0 1 0 dbQuery < 20 := by
  simp [costQuery, dbEnv, dbGraph, dbUser, dbId, dbName, dbFriendsLink, dbBoss, dbAll, dbQuery, costNode, costItems, costItem,
    Graph.root, Graph.node,
    GNode.get, GNode.fieldsMap, Graph.nodesMap, dmk, dupdate, dset, dget, GItem.name, costReq, costName,
    GLink.reqTruthy, costGItem, costField]

theorem isSet_dedup : IsSet List.dedup := fun l => ⟨List.nodup_dedup l, fun _ => List.mem_dedup⟩

/-- the hypotheses of `c54_result` are met by the example -/
theorem db_result {choose : Nat → List Nat → List Nat} (hch : ValidChoice choose) :
    ∃ idx, execute dbEnv choose 20 20 0 dbQuery = .ok (idx, dbQuery) ∧
      readNode dbEnv.H idx rootName rootIdent dbQuery = .ok (semQuery dbEnv.sys (tableData dbSrc dbProc dbObj) 0 dbQuery) :=
  c54_result isSet_dedup (fun _ _ => rfl) (fun _ _ _ => rfl) dbOver dbSub dbGood dbFaithful hch (g := dbGraph) rfl rfl dbQuery_ok
    dbCost.1 dbCost.2

/-- and this is the joined data -/
example : semQuery dbEnv.sys (tableData dbSrc dbProc dbObj) 0 dbQuery = .dict [(.str "users", .list [
    .dict [(.str "name", .str "Ann"),
      (.str "friends", .list [.dict [(.str "name", .none)], .dict [(.str "name", .str "Bob")]]),
      (.str "boss", .none)],
    .dict [(.str "name", .str "Bob"),
      (.str "friends", .list [.dict [(.str "name", .str "Ann")]]),
      (.str "boss", .dict [(.str "id", .int 1)])],
    .dict [(.str "name", .none), (.str "friends", .list []), (.str "boss", .none)]])] := rfl

end Hiku.Sources
