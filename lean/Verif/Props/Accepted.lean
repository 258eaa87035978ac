import Verif.Props.Validate2
import Verif.Props.Semantics
import Verif.Props.Result

/-! # C23: accepted queries execute -/

namespace Hiku

theorem orderedLinksOnlyItems_iff {g : Graph} {gn : GNode} {fs : List QItem} : OrderedLinksOnlyItems g gn fs ↔
    ∀ n q o a, .link n q o a ∈ fs →
      ∀ gl t, gn.get n = some (.link gl) → g.node gl.node = some t → OrderedLinksOnly g t q := by
  induction fs with
  | nil => simp [OrderedLinksOnlyItems]
  | cons i r ih =>
    cases i with
    | field n o a => rw [OrderedLinksOnlyItems, ih]; simp
    | link n q o a =>
      rw [OrderedLinksOnlyItems, ih]
      constructor
      · rintro ⟨h, h2⟩ n' q' o' a' hm
        rcases List.mem_cons.1 hm with e | hm
        · cases e; exact h
        · exact h2 _ _ _ _ hm
      · intro h2
        exact ⟨h2 _ _ _ _ List.mem_cons_self, fun _ _ _ _ hm => h2 _ _ _ _ (List.mem_cons_of_mem _ hm)⟩

theorem OptionsOk.get {types : List (String × Ty)} {declared : List GOption} {o : Opts} (h : OptionsOk types declared o) :
    ∃ out, getOptions declared o = .ok out ∧ ∀ op ∈ declared, (dget out op.name).isSome := by
  rcases getOptions_total declared o with ⟨out, ho⟩ | ho
  · refine ⟨out, ho, fun op hop => ?_⟩
    simp only [getOptions, bind_ok_iff] at ho
    obtain ⟨kvs, hk, ho⟩ := ho
    cases ho
    have hn := (yieldOptions_ok hk).1
    rw [dmk_isSome, hn]
    simp
    exact ⟨op, hop, rfl⟩
  · exfalso
    simp only [getOptions, bind_error_iff] at ho
    rcases ho with ho | ⟨_, _, ho⟩
    · refine yieldOptions_no_error ?_ ho
      rintro ⟨op, hop, hn⟩
      exact h.given op hop hn
    · simp at ho

theorem forall2_of_exists {α β : Type} {R : α → β → Prop} {l : List α} (h : ∀ a ∈ l, ∃ b, R a b) :
    ∃ l', List.Forall₂ R l l' := by
  induction l with
  | nil => exact ⟨[], .nil⟩
  | cons a r ih =>
    obtain ⟨r', hr⟩ := ih fun b hb => h b (List.mem_cons_of_mem _ hb)
    obtain ⟨b, hb⟩ := h a List.mem_cons_self
    exact ⟨b :: r', .cons hb hr⟩

/-- Initialising the options of a valid query works, and the outcome can be loaded. -/
theorem init_valid {g : Graph} (q : QNode) : ∀ gn, QueryValid g gn q →
    ∃ q', initNode g gn q = .ok q' ∧
      ∀ U : String → Opts → Prop, OrderedLinksOnly g gn q → (∀ p node i, ItemAt g gn q' p node i → U i.name i.options) → NodeOk U g gn q' := by
  induction q using QNode.ind with
  | h fs ord ih =>
    intro gn hv
    rw [QueryValid, queryValidItems_iff] at hv
    obtain ⟨⟨hf, hl⟩, _⟩ := hv
    have hitem : ∀ i ∈ fs, ∃ i', initItem g gn i = .ok i' ∧ i'.name = i.name ∧ i'.isLink = i.isLink ∧
        ∀ U : String → Opts → Prop, (∀ n q o a, i = .link n q o a → ∀ gl t, gn.get n = some (.link gl) →
            g.node gl.node = some t → OrderedLinksOnly g t q) → U i'.name i'.options →
          (∀ n q o a gl t, i' = .link n q o a → gn.get n = some (.link gl) → g.node gl.node = some t →
            ∀ p node j, ItemAt g t q p node j → U j.name j.options) → ItemOk U g gn i' := by
      intro i hi
      cases i with
      | field n o a =>
        obtain ⟨gf, hg, hok⟩ := hf n o a hi
        rw [initItem, hg]
        by_cases he : gf.options = []
        · refine ⟨.field n o a, by simp [GItem.options, he], rfl, rfl, fun U _ hU _ => ?_⟩
          rw [ItemOk]
          exact ⟨hU, gf, hg, by intro op hop; rw [he] at hop; cases hop⟩
        · obtain ⟨out, h1, h2⟩ := hok.get
          refine ⟨.field n (some out) a, by simp [GItem.options, he, h1], rfl, rfl, fun U _ hU _ => ?_⟩
          rw [ItemOk]
          refine ⟨hU, gf, hg, fun op hop => ?_⟩
          obtain ⟨v, hv⟩ := Option.isSome_iff_exists.1 (h2 op hop)
          exact ⟨out, v, rfl, hv⟩
      | link n q o a =>
        rw [initItem]
        rcases hl n q o a hi with ⟨gl, t, hg, hok, ht, hq⟩ | ⟨gf, ts, hg, hok, _, _⟩
        · obtain ⟨q', hq', hU'⟩ := ih n q o a hi t hq
          simp only [hg, ht, hq', ok_bind']
          by_cases he : gl.options = []
          · refine ⟨.link n q' none a, by simp [he], rfl, rfl, fun U hl' hU h => ?_⟩
            rw [ItemOk]
            exact ⟨hU, .inl ⟨gl, t, hg, ht, hU' U (hl' n q o a rfl gl t hg ht) (h n q' none a gl t rfl hg ht)⟩⟩
          · obtain ⟨out, h1, h2⟩ := hok.get
            refine ⟨.link n q' (some out) a, by simp [he, h1], rfl, rfl, fun U hl' hU h => ?_⟩
            rw [ItemOk]
            exact ⟨hU, .inl ⟨gl, t, hg, ht, hU' U (hl' n q o a rfl gl t hg ht) (h n q' (some out) a gl t rfl hg ht)⟩⟩
        · simp only [hg]
          by_cases he : gf.options = []
          · refine ⟨.link n q none a, by simp [he], rfl, rfl, fun U _ hU _ => ?_⟩
            rw [ItemOk]
            exact ⟨hU, .inr ⟨gf, hg, by intro op hop; rw [he] at hop; cases hop⟩⟩
          · obtain ⟨out, h1, h2⟩ := hok.get
            refine ⟨.link n q (some out) a, by simp [he, h1], rfl, rfl, fun U _ hU _ => ?_⟩
            rw [ItemOk]
            refine ⟨hU, .inr ⟨gf, hg, fun op hop => ?_⟩⟩
            obtain ⟨v, hv⟩ := Option.isSome_iff_exists.1 (h2 op hop)
            exact ⟨out, v, rfl, hv⟩
    obtain ⟨fs', hfs'⟩ := forall2_of_exists hitem
    refine ⟨.mk fs' ord, ?_, fun U ho hU => ?_⟩
    · rw [initNode_ok]
      exact ⟨hfs'.imp fun _ _ h => h.1, rfl⟩
    · rw [OrderedLinksOnly, orderedLinksOnlyItems_iff] at ho
      obtain ⟨ho1, ho2⟩ := ho
      rw [NodeOk]
      refine ⟨?_, fun hord i' hi' hlink => ?_⟩
      · have hmem : ∀ i' ∈ fs', ItemOk U g gn i' := by
          intro i' hi'
          obtain ⟨k, hk⟩ := List.getElem?_of_mem hi'
          obtain ⟨i, hk', _, _, _, h⟩ := forall₂_getElem?' hfs' hk
          refine h U (fun n q o a he gl t hg ht => ho2 n q o a (he ▸ List.mem_of_getElem? hk') gl t hg ht) (hU [k] gn i' (.here hk)) ?_
          rintro n q o a gl t rfl hg ht p node j hj
          exact hU (k :: p) node j (.inLink hk hg ht hj)
        clear hfs' hU ho1 ho2
        induction fs' with
        | nil => trivial
        | cons i r ih =>
          exact ⟨hmem i List.mem_cons_self, ih fun j hj => hmem j (List.mem_cons_of_mem _ hj)⟩
      · obtain ⟨k, hk⟩ := List.getElem?_of_mem hi'
        obtain ⟨i, hk', _, h1, h2, _⟩ := forall₂_getElem?' hfs' hk
        rw [h1]
        exact ho1 hord i (List.mem_of_getElem? hk') (h2 ▸ hlink)

/-- C23, for queries whose ordered nodes select inside of links only.  A query which `validate` accepts gets its
options without error, and its execution on graphs and data functions which follow the protocol finishes
without error for every schedule and gives the reference result.  `U` are the names and options in use.
Missing: selections inside of record fields of ordered nodes, for which the claim does not hold, see
`c23_ordered_record`. -/
theorem c23_partial {env : Env} {D : Data} {U : String → Opts → Prop}
    (hgood : GoodSys U env.sys) (hH : Faithful env.H D U) (hconf : Conforms env D U)
    {choose : Nat → List Nat → List Nat} (hch : ValidChoice choose)
    {gi lim : Nat} {g : Graph} {q : QNode} (hg : env.sys.graphs[gi]? = some g)
    (hv : validate g lim q = .ok []) (ho : OrderedLinksOnly g g.root q) :
    ∃ q', initOptions g q = .ok q' ∧
      ((∀ p node i, ItemAt g g.root q' p node i → U i.name i.options) →
        ∀ fuel inner, costQuery env.sys 1 0 gi q < fuel → 1 + costQuery env.sys 0 1 gi q < inner →
        ∃ idx, execute env choose inner fuel gi q = .ok (idx, q') ∧
          readNode env.H idx rootName rootIdent q' = .ok (semQuery env.sys D gi q')) := by
  obtain ⟨q', h1, h2⟩ := init_valid q g.root ((c24_valid hv).1 rfl)
  exact ⟨q', h1, fun hU fuel inner hf hin => c06_result hgood hH hconf hch hg h1 (h2 U ho hU) hf hin⟩

theorem ItemAt.det {g : Graph} {gn : GNode} {q : QNode} {p : List Nat} {node node' : GNode} {i i' : QItem}
    (h : ItemAt g gn q p node i) (h' : ItemAt g gn q p node' i') : node = node' ∧ i = i' := by
  induction h with
  | here hk =>
    cases h' with
    | here hk' => rw [hk] at hk'; cases hk'; exact ⟨rfl, rfl⟩
    | inLink _ _ _ h' => cases h'
  | inLink hk hg ht h ih =>
    cases h' with
    | here hk' => cases h
    | inLink hk' hg' ht' h' =>
      rw [hk] at hk'; cases hk'
      rw [hg] at hg'; cases hg'
      rw [ht] at ht'; cases ht'
      exact ih h'

theorem ItemAt.isNode {g : Graph} {gn : GNode} {q : QNode} {p : List Nat} {node : GNode} {i : QItem}
    (h : ItemAt g gn q p node i) (hn : IsNode g gn) : IsNode g node := by
  induction h with
  | here => exact hn
  | inLink _ _ ht _ ih => exact ih (.inr ⟨_, ht⟩)

theorem QueryValid.at {g : Graph} {gn : GNode} {q : QNode} {p : List Nat} {node : GNode} {i : QItem}
    (h : ItemAt g gn q p node i) (hv : QueryValid g gn q) : ∃ gi, node.get i.name = some gi ∧
      (i.isLink = false → ∃ gf, gi = .field gf) ∧
      (i.isLink = true → ∀ gl, gi = .link gl → ∃ t, g.node gl.node = some t) ∧
      OptionsOk g.dataTypes gi.options i.options := by
  induction h with
  | @here node q k i hk =>
    obtain ⟨fs, ord⟩ := q
    rw [QueryValid, queryValidItems_iff] at hv
    obtain ⟨⟨hf, hl⟩, _⟩ := hv
    have hi : i ∈ fs := List.mem_of_getElem? hk
    cases i with
    | field n o a =>
      obtain ⟨gf, hg, hok⟩ := hf n o a hi
      exact ⟨.field gf, hg, fun _ => ⟨gf, rfl⟩, fun h => (by cases h), hok⟩
    | link n q o a =>
      rcases hl n q o a hi with ⟨gl, t, hg, hok, ht, hq⟩ | ⟨gf, ts, hg, hok, _, _⟩
      · exact ⟨.link gl, hg, fun h => (by cases h), fun _ _ e => (by cases e; exact ⟨t, ht⟩), hok⟩
      · exact ⟨.field gf, hg, fun h => (by cases h), fun _ _ e => (by cases e), hok⟩
  | @inLink node q k n qq o a gl t p node' i hk hg ht _ ih =>
    obtain ⟨fs, ord⟩ := q
    rw [QueryValid, queryValidItems_iff] at hv
    obtain ⟨⟨hf, hl⟩, _⟩ := hv
    rcases hl n qq o a (List.mem_of_getElem? hk) with ⟨gl', t', hg', hok, ht', hq⟩ | ⟨gf, ts, hg', hok, _, _⟩
    · rw [hg] at hg'; cases hg'
      rw [ht] at ht'; cases ht'
      exact ih hq
    · rw [hg] at hg'; cases hg'

/-- C23, lookups and options without conditions on the data functions: whatever `validate` accepts has existing
names only, no missing options, and the options of every field and link are the declared ones, each with a
value of its declared type. -/
theorem c23_options {g : Graph} (hd : OptionNamesDistinct g) {lim : Nat} {q : QNode} (hv : validate g lim q = .ok []) :
    ∃ q', initOptions g q = .ok q' ∧
      ∀ p node i', ItemAt g g.root q' p node i' → ∃ gi, node.get i'.name = some gi ∧
        (i'.isLink = false → ∃ gf, gi = .field gf) ∧
        (∀ gl, gi = .link gl → ∃ t, g.node gl.node = some t) ∧
        (∀ op ∈ gi.options, ∃ out v, i'.options = some out ∧ dget out op.name = some v ∧ v ≠ .nothing ∧
          ∀ t, op.ty = some t → HasType g.dataTypes t v) ∧
        (∀ out, i'.options = some out → ∀ kv ∈ out, ∃ op ∈ gi.options, op.name = kv.1) := by
  have hq := (c24_valid hv).1 rfl
  obtain ⟨q', h1, _⟩ := init_valid q g.root hq
  refine ⟨q', h1, fun p node i' hi' => ?_⟩
  obtain ⟨i, hi, _⟩ := c05_positions h1 hi'
  obtain ⟨i2, gi, hi2, hg, hname, _, hkind, ho1, ho2⟩ := c05_options hd h1 hi
  obtain ⟨_, rfl⟩ := ItemAt.det hi' hi2
  obtain ⟨gi', hg', h3, h4, hok⟩ := hq.at hi
  rw [hg] at hg'; cases hg'
  refine ⟨gi, by rw [hname]; exact hg, by rw [hkind]; exact h3, ?_, ?_, ?_⟩
  · intro gl he
    refine h4 ?_ gl he
    cases hl : i.isLink with
    | true => rfl
    | false => obtain ⟨gf, hgf⟩ := h3 hl; rw [hgf] at he; cases he
  · intro op hop
    obtain ⟨out, hout, hof⟩ := ho1 (by rintro h; rw [h] at hop; cases hop)
    have hval : dget out op.name = some (optionValue i.options op) := by
      cases hd : dget (i.options.getD []) op.name with
      | none => rw [hof.default_value op hop hd, optionValue, hd]; rfl
      | some v => rw [hof.given_value op hop v hd, optionValue, hd]; rfl
    exact ⟨out, _, hout, hval, hok.given op hop, hok.typed op hop⟩
  · intro out hout kv hkv
    by_cases he : gi.options = []
    · have := ho2 he
      rw [hout] at this
      split at this
      · cases this
      · rw [← this] at hok
        exact hok.known kv hkv
    · obtain ⟨out', hout', hof⟩ := ho1 he
      rw [hout] at hout'; cases hout'
      have : kv.1 ∈ gi.options.map GOption.name := by rw [← hof.names]; exact List.mem_map.2 ⟨kv, hkv, rfl⟩
      obtain ⟨op, hop, he⟩ := List.mem_map.1 this
      exact ⟨op, hop, he⟩

/-! ### Examples -/

theorem itemsOk_mem {U : String → Opts → Prop} {g : Graph} {gn : GNode} {fs : List QItem} (h : ItemsOk U g gn fs) :
    ∀ i ∈ fs, ItemOk U g gn i := by
  induction fs with
  | nil => intro i hi; cases hi
  | cons j r ih =>
    intro i hi
    rcases List.mem_cons.1 hi with rfl | hi
    · exact h.1
    · exact ih h.2 i hi

theorem NodeOk.uses {U : String → Opts → Prop} {g : Graph} {gn : GNode} {q : QNode} {p : List Nat} {node : GNode} {i : QItem}
    (hi : ItemAt g gn q p node i) (h : NodeOk U g gn q) : U i.name i.options := by
  induction hi with
  | @here node q k i hk =>
    obtain ⟨fs, ord⟩ := q
    have := itemsOk_mem h.1 i (List.mem_of_getElem? hk)
    cases i <;> exact this.1
  | @inLink node q k n qq o a gl t p node' i hk hg ht _ ih =>
    obtain ⟨fs, ord⟩ := q
    have := itemsOk_mem h.1 _ (List.mem_of_getElem? hk)
    rw [ItemOk] at this
    rcases this.2 with ⟨gl', t', hg', ht', hq⟩ | ⟨gf, hg', _⟩
    · rw [hg] at hg'; cases hg'
      rw [ht] at ht'; cases ht'
      exact ih hq
    · rw [hg] at hg'; cases hg'

/-- the query of the example system is accepted and the hypotheses of `c23_partial` are met -/
example : ∃ q', initOptions exHigh exQuery = .ok q' ∧
    ∀ choose, ValidChoice choose → ∃ idx, execute exEnv choose 3 6 1 exQuery = .ok (idx, q') := by
  have hv : validate exHigh 1 exQuery = .ok [] := rfl
  have ho : OrderedLinksOnly exHigh exHigh.root exQuery := by
    simp [exQuery, OrderedLinksOnly, OrderedLinksOnlyItems]
  refine ⟨exQuery, rfl, fun choose hch => ?_⟩
  obtain ⟨q', h1, h2⟩ := c23_partial exGood exFaithful exConforms hch (gi := 1) rfl hv ho
  have h1 : Except.ok exQuery = Except.ok q' := h1
  cases h1
  obtain ⟨idx, h, _⟩ := h2 (fun p node i hi => exQuery_ok.uses hi) 6 3 (by rw [exCost]; omega) (by rw [exForks]; omega)
  exact ⟨idx, h⟩

/-- a system with one graph which has a field with records -/
def exRecEnv : Env where
  sys := { graphs := [exOneGraph (some (.record [("x", .integer)])) [] []], subs := [] }
  world := { call := fun _ _ _ => .ok (.list [.dict [(.str "x", .int 1)]]), proc := fun _ _ _ _ => .error .typeError }
  H := exEnv.H
def exRecQuery (ord : Bool) : QNode := .mk [.link "f" (.mk [.field "x" none none] false) none none] ord

/-- Finding: in an ordered node (a mutation) a selection inside of a record field is accepted by `validate` and
makes the engine raise AttributeError (`GroupQuery.visit_link`, engine.py:119-125); the same selection in an
unordered node works. -/
theorem c23_ordered_record (lim inner fuel : Nat) (choose : Nat → List Nat → List Nat) :
    validate (exOneGraph (some (.record [("x", .integer)])) [] []) lim (exRecQuery true) = .ok [] ∧
    execute exRecEnv choose inner fuel 0 (exRecQuery true) = .error .attributeError ∧
    ∃ idx, execute exRecEnv (fun _ l => l) 2 2 0 (exRecQuery false) = .ok (idx, exRecQuery false) ∧
      readNode exRecEnv.H idx rootName rootIdent (exRecQuery false) =
        .ok (.dict [(.str "f", .dict [(.str "x", .int 1)])]) := by
  refine ⟨?_, rfl, _, rfl, rfl⟩
  cases lim <;> rfl

end Hiku
