import Verif.Spec.Company
import Verif.Props.Parts
import Verif.Props.Edn

/-! # C70: what is asked does not depend on its name, its position and its company -/

namespace Hiku.Company
open Hiku Hiku.Parts
open Hiku.Endpoint (forall2_mem_left forall2_mem_right init_item_link uniqueKeysItems_iff linksOnlyItems_iff
  init_linksOnly init_unique)

theorem withinAll_iff {fs : List QItem} {Q : QNode} : WithinAll fs Q ↔ ∀ i ∈ fs, ∃ j ∈ Q.fields, WithinItem i j := by
  induction fs with
  | nil => simp [WithinAll]
  | cons i r ih => rw [WithinAll, ih]; simp

theorem within_iff {q Q : QNode} : Within q Q ↔ ∀ i ∈ q.fields, ∃ j ∈ Q.fields, WithinItem i j := by
  obtain ⟨fs, ord⟩ := q
  rw [Within, withinAll_iff]
  rfl

theorem within_refl (q : QNode) : Within q q := by
  induction q using QNode.ind with
  | h fs ord ih =>
    rw [within_iff]
    intro i hi
    refine ⟨i, hi, ?_⟩
    cases i with
    | field n o a => rw [WithinItem]; exact ⟨a, rfl⟩
    | link n q o a => rw [WithinItem]; exact ⟨q, a, rfl, ih _ _ _ _ hi⟩

variable {g : Graph} {D : Data} {sub : SubSem} {U : String → Opts → Prop}

theorem linksOnly_within (q : QNode) : ∀ gn Q, Within q Q → LinksOnly g gn Q → LinksOnly g gn q := by
  induction q using QNode.ind with
  | h fs ord ih =>
    intro gn Q hw hl
    rw [within_iff] at hw
    rw [Q.eta, LinksOnly, linksOnlyItems_iff] at hl
    rw [LinksOnly, linksOnlyItems_iff]
    intro i hi
    obtain ⟨j, hj, hij⟩ := hw i hi
    cases i with
    | field n o a =>
      rw [WithinItem] at hij
      obtain ⟨a', rfl⟩ := hij
      exact ⟨(hl _ hj).1, fun _ _ _ _ e => by cases e⟩
    | link n q o a =>
      rw [WithinItem] at hij
      obtain ⟨Q', a', rfl, hw'⟩ := hij
      refine ⟨(hl _ hj).1, ?_⟩
      rintro _ _ _ _ ⟨⟩
      obtain ⟨gl, t, h1, h2, h3⟩ := (hl _ hj).2 _ _ _ _ rfl
      exact ⟨gl, t, h1, h2, ih _ _ _ _ hi t Q' hw' h3⟩

/-- options of a field do not depend on its alias -/
theorem init_field {gn : GNode} {n : String} {o : Opts} {a : Option String} {i : QItem} (h : initItem g gn (.field n o a) = .ok i) :
    ∃ o', i = .field n o' a ∧ ∀ a', initItem g gn (.field n o a') = .ok (.field n o' a') := by
  simp only [initItem] at h ⊢
  cases hg : gn.get n with
  | none => simp [hg] at h
  | some gi =>
    simp only [hg] at h ⊢
    by_cases hem : gi.options.isEmpty
    · simp only [if_pos hem] at h ⊢
      cases h
      exact ⟨o, rfl, fun _ => rfl⟩
    · simp only [if_neg hem, bind_ok_iff] at h ⊢
      obtain ⟨l, hl, h⟩ := h
      cases h
      exact ⟨some l, rfl, fun _ => ⟨l, hl, rfl⟩⟩

theorem opts_unique {ops : List GOption} {o o1 o2 : Opts}
    (h1 : if ops.isEmpty then o1 = none else ∃ l, getOptions ops o = .ok l ∧ o1 = some l)
    (h2 : if ops.isEmpty then o2 = none else ∃ l, getOptions ops o = .ok l ∧ o2 = some l) : o1 = o2 := by
  by_cases hem : ops.isEmpty
  · rw [if_pos hem] at h1 h2; rw [h1, h2]
  · rw [if_neg hem] at h1 h2
    obtain ⟨l, hl, rfl⟩ := h1
    obtain ⟨l2, hl2, rfl⟩ := h2
    rw [hl] at hl2
    cases hl2
    rfl

/-- what is asked within an accepted query is accepted -/
theorem init_within (q : QNode) : ∀ gn Q Q', Within q Q → LinksOnly g gn Q → initNode g gn Q = .ok Q' →
    ∃ q', initNode g gn q = .ok q' ∧ (NodeOk U g gn Q' → NodeOk U g gn q') := by
  induction q using QNode.ind with
  | h fs ord ih =>
    intro gn Q Q' hw hl hQ
    rw [within_iff] at hw
    have hlq := hl
    rw [Q.eta, LinksOnly, linksOnlyItems_iff] at hlq
    have hQ' := (initNode_ok.1 hQ).1
    have hitem : ∀ i ∈ fs, ∃ i', initItem g gn i = .ok i' ∧ (i.isLink = true → ∃ gl, gn.get i'.name = some (.link gl)) ∧
        (NodeOk U g gn Q' → ItemOk U g gn i') := by
      intro i hi
      obtain ⟨j, hj, hij⟩ := hw i hi
      obtain ⟨j', hj', hjj⟩ := forall2_mem_left hQ' hj
      cases i with
      | field n o a =>
        rw [WithinItem] at hij
        obtain ⟨a', rfl⟩ := hij
        obtain ⟨o', rfl, h1⟩ := init_field hjj
        refine ⟨_, h1 a, by simp [QItem.isLink], fun hok => ?_⟩
        have := (nodeOk_iff.1 hok).1 _ hj'
        rw [ItemOk] at this ⊢
        exact this
      | link n q o a =>
        rw [WithinItem] at hij
        obtain ⟨Q2, a', rfl, hw'⟩ := hij
        obtain ⟨gl, t, h1, h2, h3⟩ := (hlq _ hj).2 _ _ _ _ rfl
        obtain ⟨t', Q3, o', h4, h5, rfl, h6⟩ := (init_link h1).1 hjj
        rw [h2] at h4; cases h4
        obtain ⟨q', h7, h8⟩ := ih _ _ _ _ hi t Q2 Q3 hw' h3 h5
        refine ⟨.link n q' o' a, (init_link h1).2 ⟨t, q', o', h2, h7, rfl, h6⟩, fun _ => ⟨gl, h1⟩, fun hok => ?_⟩
        have := (nodeOk_iff.1 hok).1 _ hj'
        rw [ItemOk] at this ⊢
        refine ⟨this.1, .inl ⟨gl, t, h1, h2, h8 ?_⟩⟩
        rcases this.2 with ⟨gl2, t2, e1, e2, e3⟩ | ⟨gf, e1, _⟩
        · rw [h1] at e1; cases e1
          rw [h2] at e2; cases e2
          exact e3
        · rw [h1] at e1; cases e1
    have hex : ∀ l : List QItem, (∀ i ∈ l, i ∈ fs) → ∃ l', List.Forall₂ (fun i i' => initItem g gn i = .ok i' ∧
        (i.isLink = true → ∃ gl, gn.get i'.name = some (.link gl)) ∧ (NodeOk U g gn Q' → ItemOk U g gn i')) l l' := by
      intro l
      induction l with
      | nil => exact fun _ => ⟨[], .nil⟩
      | cons x r ihr =>
        intro h
        obtain ⟨x', hx⟩ := hitem x (h x (by simp))
        obtain ⟨r', hr⟩ := ihr fun j hj => h j (by simp [hj])
        exact ⟨x' :: r', .cons hx hr⟩
    obtain ⟨l', hl'⟩ := hex fs fun _ h => h
    refine ⟨.mk l' ord, initNode_ok.2 ⟨hl'.imp fun _ _ h => h.1, rfl⟩, fun hok => ?_⟩
    rw [nodeOk_iff]
    refine ⟨fun i' hi' => ?_, fun _ i' hi' hlk => ?_⟩
    · obtain ⟨i, _, h⟩ := forall2_mem_right hl' hi'
      exact h.2.2 hok
    · obtain ⟨i, _, h⟩ := forall2_mem_right hl' hi'
      refine h.2.1 ?_
      rw [← (init_item_link h.1).2.2.1]
      exact hlk

/-- the keys of the value of a node -/
theorem node_keys {gn : GNode} {x : Val} {q q' : QNode} (hi : initNode g gn q = .ok q') (hu : (q.fields.map QItem.resultKey).Nodup)
    {kvs : List (Val × Val)} (hk : semNode D sub g gn x q' = .dict kvs) : kvs.map (·.1) = q.fields.map fun i => Val.str i.resultKey := by
  obtain ⟨fs', ord'⟩ := q'
  obtain ⟨hf, _⟩ := initNode_ok.1 hi
  have hf : List.Forall₂ (fun i i' => initItem g gn i = .ok i') q.fields fs' := hf
  have key : ∀ l l' : List QItem, List.Forall₂ (fun i i' => initItem g gn i = .ok i') l l' →
      l'.map QItem.resultKey = l.map QItem.resultKey := by
    intro l l' hll
    induction hll with
    | nil => rfl
    | cons h _ ihr => rw [List.map_cons, List.map_cons, (init_item_link h).2.1, ihr]
  have hk' := key _ _ hf
  have hm : (semItems D sub g gn x fs').map (·.1) = (fs'.map QItem.resultKey).map Val.str := by
    rw [semItems_map, List.map_map, List.map_map]; rfl
  have hn : ((semItems D sub g gn x fs').map (·.1)).Nodup := by
    rw [hm, hk']
    exact hu.map (fun a b e => by simpa using e)
  rw [semNode] at hk
  have : kvs = semItems D sub g gn x fs' := by
    rw [dmk_nodup hn] at hk
    simpa using hk.symm
  rw [this, hm, hk', List.map_map]
  rfl

/-- C70 (semantics): the value of a query can be read off the value of a query which asks for as much. -/
theorem readOff_sem (q : QNode) : ∀ gn Q q' Q', Within q Q → LinksOnly g gn Q → UniqueKeys q → UniqueKeys Q →
    initNode g gn q = .ok q' → initNode g gn Q = .ok Q' → ∀ x,
    ReadOff q Q (semNode D sub g gn x q') (semNode D sub g gn x Q') := by
  induction q using QNode.ind with
  | h fs ord ih =>
    intro gn Q q' Q' hw hl hu hU hq hQ x
    rw [UniqueKeys, uniqueKeysItems_iff] at hu
    rw [Q.eta, UniqueKeys, uniqueKeysItems_iff] at hU
    obtain ⟨kvs, e1, h1⟩ := node_value (D := D) (sub := sub) (x := x) hq hu.1
    obtain ⟨KVS, e2, h2⟩ := node_value (D := D) (sub := sub) (x := x) hQ hU.1
    have hkeys := node_keys hq hu.1 e1
    have hq' := (initNode_ok.1 hq).1
    have hQ' := (initNode_ok.1 hQ).1
    rw [Q.eta, LinksOnly, linksOnlyItems_iff] at hl
    rw [e1, e2]
    refine .dict hkeys (fun i hi j hj hij => ?_) ?_
    · obtain ⟨j', _, hjj⟩ := forall2_mem_left hQ' hj
      rw [(h2 _ _).2 ⟨j, hj, j', hjj, rfl, rfl⟩]
      rfl
    · intro i hi j hj hij y V hy hV
      obtain ⟨i', _, hii⟩ := forall2_mem_left hq' hi
      obtain ⟨j', _, hjj⟩ := forall2_mem_left hQ' hj
      rw [(h1 _ _).2 ⟨i, hi, i', hii, rfl, rfl⟩] at hy
      rw [(h2 _ _).2 ⟨j, hj, j', hjj, rfl, rfl⟩] at hV
      cases hy; cases hV
      cases i with
      | field n o a =>
        rw [WithinItem] at hij
        obtain ⟨a', rfl⟩ := hij
        obtain ⟨o', rfl, h3⟩ := init_field hii
        rw [h3 a'] at hjj
        cases hjj
        simp only [semItem]
        exact .field
      | link n q o a =>
        rw [WithinItem] at hij
        obtain ⟨Q2, a', rfl, hw'⟩ := hij
        obtain ⟨gl, t, h3, h4, h5⟩ := (hl _ hj).2 _ _ _ _ rfl
        obtain ⟨t1, q1, o1, e3, h6, rfl, h7⟩ := (init_link h3).1 hii
        obtain ⟨t2, Q1, o2, e4, h8, rfl, h9⟩ := (init_link h3).1 hjj
        rw [h4] at e3 e4; cases e3; cases e4
        obtain rfl := opts_unique h7 h9
        have ih' := ih _ _ _ _ hi t Q2 q1 Q1 hw' h5 (hu.2 _ _ _ _ hi) (hU.2 _ _ _ _ hj) h6 h8
        simp only [semItem, h3, h4]
        cases gl.typeEnum with
        | one => exact .one (ih' _)
        | maybe =>
          simp only
          split
          · exact .null
          · exact .one (ih' _)
        | many =>
          simp only
          refine .many (by simp) ?_
          intro k y V hy hV
          rw [List.getElem?_map, Option.map_eq_some_iff] at hy hV
          obtain ⟨v, hv, rfl⟩ := hy
          obtain ⟨v', hv', rfl⟩ := hV
          rw [hv] at hv'
          cases hv'
          exact ih' v

section
variable {env : Env}

/-- **C70**: a query is accepted when a query which asks for as much is, and its answer can be read off the answer
to that query, whatever the schedules of both executions. -/
theorem c70_company (hgood : GoodSys U env.sys) (hH : Faithful env.H D U) (hconf : Conforms env D U)
    {choose choose' : Nat → List Nat → List Nat} (hch : ValidChoice choose) (hch' : ValidChoice choose')
    {gi : Nat} {g : Graph} (hg : env.sys.graphs[gi]? = some g) {q Q Q' : QNode} (hw : Within q Q)
    (hl : LinksOnly g g.root Q) (hu : UniqueKeys q) (hU : UniqueKeys Q) (hi : initOptions g Q = .ok Q')
    (hok : NodeOk U g g.root Q') :
    ∃ x V, Gives env choose gi g q x ∧ Gives env choose' gi g Q V ∧ ReadOff q Q x V := by
  obtain ⟨q', hq', hok'⟩ := init_within (U := U) q g.root Q Q' hw hl hi
  refine ⟨_, _, gives_value hgood hH hconf hch hg hq' (hok' hok) hu (linksOnly_within q g.root Q hw hl),
    gives_value hgood hH hconf hch' hg hi hok hU hl, ?_⟩
  simp only [semQuery, hg]
  exact readOff_sem q g.root Q q' Q' hw hl hu hU hq' hi rootIdent

/-- C70: a field which is asked for twice, under two names, has the same value twice. -/
theorem c70_twice (hgood : GoodSys U env.sys) (hH : Faithful env.H D U) (hconf : Conforms env D U)
    {choose : Nat → List Nat → List Nat} (hch : ValidChoice choose)
    {gi : Nat} {g : Graph} (hg : env.sys.graphs[gi]? = some g) {q q' : QNode}
    (hl : LinksOnly g g.root q) (hu : UniqueKeys q) (hi : initOptions g q = .ok q') (hok : NodeOk U g g.root q')
    {n : String} {o : Opts} {a a' : Option String} (h1 : QItem.field n o a ∈ q.fields) (h2 : QItem.field n o a' ∈ q.fields) :
    ∃ kvs v, Gives env choose gi g q (.dict kvs) ∧ dget kvs (.str (QItem.field n o a).resultKey) = some v ∧
      dget kvs (.str (QItem.field n o a').resultKey) = some v := by
  obtain ⟨x, V, h3, h4, h5⟩ := c70_company hgood hH hconf hch hch hg (within_refl q) hl hu hu hi hok
  obtain rfl := h3.unique h4
  cases h5 with
  | @dict _ _ kvs _ hk hs hr =>
    have hw : WithinItem (.field n o a) (.field n o a') := by rw [WithinItem]; exact ⟨a', rfl⟩
    have hw' : WithinItem (.field n o a) (.field n o a) := by rw [WithinItem]; exact ⟨a, rfl⟩
    obtain ⟨v, hv⟩ := Option.isSome_iff_exists.1 (hs _ h1 _ h1 hw')
    obtain ⟨v', hv'⟩ := Option.isSome_iff_exists.1 (hs _ h1 _ h2 hw)
    have := hr _ h1 _ h2 hw v v' hv hv'
    cases this
    exact ⟨kvs, v, h3, hv, hv'⟩

end

/-! ### example: under other names, in another order, and twice -/

def exOther : QNode :=
  .mk [.link "tracks" (.mk [.link "album" (.mk [.field "name" none (some "n")] true) none none,
    .field "label" none (some "l"), .field "label" none none] false) none (some "ts"),
    .link "tracks" (.mk [] false) none none] true

theorem exWithin : Within exOther exQuery := by
  simp only [exOther, exQuery, Within, WithinAll, QNode.fields]
  simp [WithinItem, Within, WithinAll, QNode.fields]

theorem exUnique : UniqueKeys exOther := by
  simp [exOther, UniqueKeys, UniqueKeysItems, QItem.resultKey, QItem.alias_, QItem.name]

example : ∃ x V, Gives exEnv (fun _ l => l.take 1) 1 exHigh exOther x ∧ Gives exEnv (fun _ l => l) 1 exHigh exQuery V ∧
    ReadOff exOther exQuery x V :=
  c70_company exGood exFaithful exConforms validChoice_first (by intro round out ho; exact ⟨ho, fun _ h => h⟩) rfl exWithin exQuery_linksOnly
    exUnique exQuery_unique rfl exQuery_ok

end Hiku.Company
