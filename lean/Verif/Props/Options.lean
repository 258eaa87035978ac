import Verif.Spec.Options
import Verif.Model.Engine
import Verif.Proofs.Basic
import Verif.Proofs.Dict

/-! # C05: options reaching the data functions -/

namespace Hiku

theorem yieldOptions_ok {declared : List GOption} {given : List (String × Val)}
    {out : List (String × Val)} (h : yieldOptions declared given = .ok out) :
    out = declared.map (fun op => (op.name, (dget given op.name).getD op.dflt)) ∧
    ∀ op ∈ declared, (dget given op.name).getD op.dflt ≠ .nothing := by
  induction declared generalizing out with
  | nil => simp [yieldOptions] at h; subst h; simp
  | cons op r ih =>
    simp only [yieldOptions] at h
    split at h
    · simp at h
    · rename_i hne
      rw [bind_ok_iff] at h
      obtain ⟨rest, hr, h⟩ := h
      simp at h; subst h
      obtain ⟨h1, h2⟩ := ih hr
      subst h1
      simp only [List.map_cons, List.mem_cons, true_and]
      rintro op' (rfl | hm)
      · exact hne
      · exact h2 _ hm

theorem yieldOptions_error {declared : List GOption} {given : List (String × Val)} :
    (∃ op ∈ declared, (dget given op.name).getD op.dflt = .nothing) →
    yieldOptions declared given = .error .typeError := by
  induction declared with
  | nil => simp
  | cons op r ih =>
    rintro ⟨op', hm, hv⟩
    simp only [yieldOptions]
    split
    · rfl
    · rename_i hne
      rcases List.mem_cons.1 hm with rfl | hm
      · exact absurd hv hne
      · rw [ih ⟨op', hm, hv⟩]; rfl

theorem yieldOptions_total (declared : List GOption) (given : List (String × Val)) :
    (∃ out, yieldOptions declared given = .ok out) ∨
    yieldOptions declared given = .error .typeError := by
  induction declared with
  | nil => exact .inl ⟨_, rfl⟩
  | cons op r ih =>
    simp only [yieldOptions]
    split
    · exact .inr rfl
    · rcases ih with ⟨out, h⟩ | h <;> simp [h]

theorem missing_iff (declared : List GOption) (given : Opts) :
    MissingOption declared given ↔
      ∃ op ∈ declared, (dget (given.getD []) op.name).getD op.dflt = .nothing := by
  unfold MissingOption
  apply exists_congr; intro op
  apply and_congr_right; intro _
  cases h : dget (given.getD []) op.name <;> simp

theorem getOptions_ok {declared : List GOption} {given : Opts} {out : List (String × Val)}
    (hn : (declared.map GOption.name).Nodup) (h : getOptions declared given = .ok out) :
    OptionsFor declared given out ∧ ¬ MissingOption declared given := by
  simp only [getOptions, bind_ok_iff] at h
  obtain ⟨kvs, hk, h⟩ := h
  simp at h
  obtain ⟨h1, h2⟩ := yieldOptions_ok hk
  have hnames : kvs.map Prod.fst = declared.map GOption.name := by subst h1; simp [Function.comp_def]
  have hnd : (kvs.map (·.1)).Nodup := by rw [hnames]; exact hn
  rw [dmk_eq_self _ hnd] at h
  subst h
  have key : ∀ op ∈ declared, dget kvs op.name = some ((dget (given.getD []) op.name).getD op.dflt) := by
    intro op hop
    apply dget_of_mem_nodup hnd
    rw [h1]
    exact List.mem_map.2 ⟨op, hop, rfl⟩
  refine ⟨⟨hnames, ?_, ?_⟩, ?_⟩
  · intro op hop v hv; rw [key op hop, hv]; rfl
  · intro op hop hv; rw [key op hop, hv]; rfl
  · rw [missing_iff]; rintro ⟨op, hop, hv⟩; exact h2 op hop hv

theorem getOptions_error (declared : List GOption) (given : Opts) :
    MissingOption declared given → getOptions declared given = .error .typeError := by
  intro h
  rw [missing_iff] at h
  simp [getOptions, yieldOptions_error h]

theorem getOptions_total (declared : List GOption) (given : Opts) :
    (∃ out, getOptions declared given = .ok out) ∨ getOptions declared given = .error .typeError := by
  rcases yieldOptions_total declared (given.getD []) with ⟨out, h⟩ | h <;>
    simp [getOptions, h]

theorem yieldOptions_no_error {d : List GOption} {gv : List (String × Val)}
    (hno : ¬ ∃ op ∈ d, (dget gv op.name).getD op.dflt = .nothing) {e : Err} :
    yieldOptions d gv ≠ .error e := by
  induction d with
  | nil => intro h; cases h
  | cons op r ih =>
    have h1 : (dget gv op.name).getD op.dflt ≠ .nothing := fun h => hno ⟨op, by simp, h⟩
    have h2 : yieldOptions r gv ≠ .error e :=
      ih fun ⟨o, ho, hv⟩ => hno ⟨o, by simp [ho], hv⟩
    simp only [yieldOptions, if_neg h1]
    cases hy : yieldOptions r gv with
    | ok x => simp
    | error e' => simp; rintro rfl; exact h2 hy

/-- applying the defaults again gives the same options -/
theorem getOptions_idem {declared : List GOption} {given : Opts} {out : List (String × Val)}
    (hn : (declared.map GOption.name).Nodup) (h : getOptions declared given = .ok out) :
    getOptions declared (some out) = .ok out := by
  obtain ⟨hf, hm⟩ := getOptions_ok hn h
  rcases getOptions_total declared (some out) with ⟨out', h'⟩ | h'
  · obtain ⟨hf', _⟩ := getOptions_ok hn h'
    rw [h']
    congr 1
    have hval : ∀ op ∈ declared, dget out' op.name = dget out op.name := by
      intro op hop
      cases hd : dget out op.name with
      | none =>
        rw [dget_eq_none_iff] at hd
        have hd' : op.name ∉ out.map Prod.fst := hd
        rw [hf.names] at hd'
        exact absurd (List.mem_map.2 ⟨op, hop, rfl⟩) hd'
      | some v => exact hf'.given_value op hop v hd
    have hk : out'.map Prod.fst = out.map Prod.fst := by rw [hf.names, hf'.names]
    have hnd : (out.map (·.1)).Nodup := by
      show (out.map Prod.fst).Nodup
      rw [hf.names]; exact hn
    have hnd' : (out'.map (·.1)).Nodup := by
      show (out'.map Prod.fst).Nodup
      rw [hk]; exact hnd
    apply List.ext_getElem
    · have := congrArg List.length hk; simpa using this
    · intro k hk1 hk2
      have e1 : (out'[k]).1 = (out[k]).1 := by
        have := List.getElem_of_eq hk (i := k) (by simpa using hk1)
        simpa using this
      have m1 := dget_of_mem_nodup hnd' (k := (out'[k]).1) (v := (out'[k]).2) (List.getElem_mem hk1)
      have m2 := dget_of_mem_nodup hnd (k := (out[k]).1) (v := (out[k]).2) (List.getElem_mem hk2)
      have : (out[k]).1 ∈ declared.map GOption.name := by
        rw [← hf.names]; exact List.mem_map.2 ⟨_, List.getElem_mem hk2, rfl⟩
      obtain ⟨op, hop, hopn⟩ := List.mem_map.1 this
      have := hval op hop
      rw [hopn, m2, ← e1, m1] at this
      exact Prod.ext e1 (by simpa using this)
  · exfalso
    have : ¬ MissingOption declared (some out) := by
      rw [missing_iff]
      rintro ⟨op, hop, hv⟩
      apply hm
      rw [missing_iff]
      refine ⟨op, hop, ?_⟩
      cases hd : dget (given.getD []) op.name with
      | none => have := hf.default_value op hop hd; simp [this] at hv; simpa using hv
      | some v => have := hf.given_value op hop v hd; simp [this] at hv; simpa using hv
    rw [missing_iff] at this
    simp only [getOptions, bind_error_iff] at h'
    rcases h' with h' | ⟨_, _, h'⟩
    · exact yieldOptions_no_error this h'
    · simp at h'

/-! ## Whole queries -/

theorem initItems_ok {g : Graph} {node : GNode} {fs fs' : List QItem} :
    initItems g node fs = .ok fs' ↔ List.Forall₂ (fun i i' => initItem g node i = .ok i') fs fs' := by
  induction fs generalizing fs' with
  | nil => cases fs' <;> simp [initItems]
  | cons i r ih =>
    simp only [initItems, bind_ok_iff]
    constructor
    · rintro ⟨i', hi, r', hr, h⟩
      simp at h; subst h
      exact .cons hi (ih.1 hr)
    · intro h
      cases h with
      | cons h1 h2 => exact ⟨_, h1, _, ih.2 h2, rfl⟩

theorem initNode_ok {g : Graph} {node : GNode} {q q' : QNode} :
    initNode g node q = .ok q' ↔
      List.Forall₂ (fun i i' => initItem g node i = .ok i') q.fields q'.fields ∧
      q'.ordered = q.ordered := by
  obtain ⟨fs, ord⟩ := q
  obtain ⟨fs', ord'⟩ := q'
  simp only [initNode, bind_ok_iff, initItems_ok, QNode.fields, QNode.ordered]
  constructor
  · rintro ⟨a, ha, h⟩
    simp at h
    obtain ⟨rfl, rfl⟩ := h
    exact ⟨ha, rfl⟩
  · rintro ⟨h, rfl⟩
    exact ⟨_, h, rfl⟩

/-- what `InitOptions` does to one item -/
def ItemInit (g : Graph) (node : GNode) (i i' : QItem) (gi : GItem) : Prop :=
  node.get i.name = some gi ∧ i'.name = i.name ∧ i'.alias_ = i.alias_ ∧ i'.isLink = i.isLink ∧
  (gi.options ≠ [] → ∃ out, i'.options = some out ∧ getOptions gi.options i.options = .ok out) ∧
  (gi.options = [] → i'.options = if i.isLink then none else i.options) ∧
  (∀ n q o a, i = .link n q o a → ∃ q' o', i' = .link n q' o' a ∧
    (∀ gl, gi = .link gl → ∃ t, g.node gl.node = some t ∧ initNode g t q = .ok q') ∧
    (∀ gf, gi = .field gf → q' = q))

theorem isEmpty_false_iff' {α : Type} {l : List α} : l.isEmpty = false ↔ l ≠ [] := by
  cases l <;> simp

theorem initItem_ok {g : Graph} {node : GNode} {i i' : QItem} (h : initItem g node i = .ok i') :
    ∃ gi, ItemInit g node i i' gi := by
  cases i with
  | field n o a =>
    simp only [initItem] at h
    split at h
    · simp at h
    · rename_i gi hg
      refine ⟨gi, ?_⟩
      split at h
      · rename_i he
        simp at h; subst h
        have he' : gi.options = [] := by simpa using he
        exact ⟨hg, rfl, rfl, rfl, fun hn => absurd he' hn, fun _ => rfl, by simp⟩
      · rename_i he
        have he' : gi.options ≠ [] := by simpa using he
        simp only [bind_ok_iff] at h
        obtain ⟨o', ho, h⟩ := h
        simp at h; subst h
        exact ⟨hg, rfl, rfl, rfl, fun _ => ⟨o', rfl, ho⟩, fun hn => absurd hn he', by simp⟩
  | link n q o a =>
    simp only [initItem] at h
    split at h
    · simp at h
    · rename_i gl hg
      refine ⟨.link gl, ?_⟩
      split at h
      · simp at h
      · rename_i t ht
        simp only [bind_ok_iff] at h
        obtain ⟨q', hq, h⟩ := h
        split at h
        · rename_i he
          simp at h; subst h
          have he' : gl.options = [] := by simpa using he
          refine ⟨hg, rfl, rfl, rfl, fun hn => absurd he' hn, fun _ => rfl, ?_⟩
          rintro _ _ _ _ ⟨⟩
          exact ⟨q', none, rfl, fun gl' h => by cases h; exact ⟨t, ht, hq⟩, by simp⟩
        · rename_i he
          have he' : gl.options ≠ [] := by simpa using he
          simp only [bind_ok_iff] at h
          obtain ⟨o', ho, h⟩ := h
          simp at h; subst h
          refine ⟨hg, rfl, rfl, rfl, fun _ => ⟨o', rfl, ho⟩, fun hn => absurd hn he', ?_⟩
          rintro _ _ _ _ ⟨⟩
          exact ⟨q', some o', rfl, fun gl' h => by cases h; exact ⟨t, ht, hq⟩, by simp⟩
    · rename_i gf hg
      refine ⟨.field gf, ?_⟩
      split at h
      · rename_i he
        simp at h; subst h
        have he' : gf.options = [] := by simpa using he
        refine ⟨hg, rfl, rfl, rfl, fun hn => absurd he' hn, fun _ => rfl, ?_⟩
        rintro _ _ _ _ ⟨⟩
        exact ⟨q, none, rfl, by simp, fun _ _ => rfl⟩
      · rename_i he
        have he' : gf.options ≠ [] := by simpa using he
        simp only [bind_ok_iff] at h
        obtain ⟨o', ho, h⟩ := h
        simp at h; subst h
        refine ⟨hg, rfl, rfl, rfl, fun _ => ⟨o', rfl, ho⟩, fun hn => absurd hn he', ?_⟩
        rintro _ _ _ _ ⟨⟩
        exact ⟨q, some o', rfl, by simp, fun _ _ => rfl⟩

theorem forall₂_getElem? {α β : Type} {R : α → β → Prop} {l : List α} {l' : List β}
    (h : List.Forall₂ R l l') {k : Nat} {a : α} (hk : l[k]? = some a) :
    ∃ b, l'[k]? = some b ∧ R a b := by
  induction h generalizing k with
  | nil => simp at hk
  | cons h1 h2 ih =>
    cases k with
    | zero => simp at hk ⊢; subst hk; exact h1
    | succ k => simp at hk ⊢; exact ih hk

theorem forall₂_getElem?' {α β : Type} {R : α → β → Prop} {l : List α} {l' : List β}
    (h : List.Forall₂ R l l') {k : Nat} {b : β} (hk : l'[k]? = some b) :
    ∃ a, l[k]? = some a ∧ R a b := forall₂_getElem? h.flip hk

/-- **C05, values**: when the options of a query are initialised, at every position of the query
stands the same field or link (same name, alias and kind) and, if it is declared with options, its
options are exactly the declared ones, each with the given value or its default; otherwise a link
has no options (and a field has the options as written). -/
theorem c05_options {g : Graph} {q q' : QNode} (hd : OptionNamesDistinct g)
    (h : initOptions g q = .ok q') {p : List Nat} {node : GNode} {i : QItem}
    (hi : ItemAt g g.root q p node i) :
    ∃ i' gi, ItemAt g g.root q' p node i' ∧ node.get i.name = some gi ∧
      i'.name = i.name ∧ i'.alias_ = i.alias_ ∧ i'.isLink = i.isLink ∧
      (gi.options ≠ [] → ∃ out, i'.options = some out ∧ OptionsFor gi.options i.options out) ∧
      (gi.options = [] → i'.options = if i.isLink then none else i.options) := by
  unfold initOptions at h
  have hr : IsNode g g.root := .inl rfl
  revert hi h hr
  generalize g.root = root
  intro h hi hr
  induction hi generalizing q' with
  | @here node q k i hk =>
    obtain ⟨hf, _⟩ := initNode_ok.1 h
    obtain ⟨i', hk', hi'⟩ := forall₂_getElem? hf hk
    obtain ⟨gi, h1, h2, h3, h4, h5, h6, _⟩ := initItem_ok hi'
    refine ⟨i', gi, .here hk', h1, h2, h3, h4, ?_, h6⟩
    intro hne
    obtain ⟨out, ho, hg⟩ := h5 hne
    exact ⟨out, ho, (getOptions_ok (hd _ hr _ _ h1) hg).1⟩
  | @inLink node q k n qq o a gl t p node' i hk hg ht _ ih =>
    obtain ⟨hf, _⟩ := initNode_ok.1 h
    obtain ⟨i', hk', hi'⟩ := forall₂_getElem? hf hk
    obtain ⟨gi, h1, _, _, _, _, _, h7⟩ := initItem_ok hi'
    obtain ⟨qq', o', rfl, h8, _⟩ := h7 _ _ _ _ rfl
    have : gi = .link gl := by simpa [QItem.name, hg] using h1.symm
    obtain ⟨t', ht', hq'⟩ := h8 gl this
    rw [ht] at ht'; cases ht'
    obtain ⟨j, gj, hj, rest⟩ := ih hq' (.inr ⟨_, ht⟩)
    exact ⟨j, gj, .inLink hk' hg ht hj, rest⟩

/-- **C05, nothing else**: every position of the initialised query comes from the given query. -/
theorem c05_positions {g : Graph} {q q' : QNode} (h : initOptions g q = .ok q')
    {p : List Nat} {node : GNode} {i' : QItem} (hi : ItemAt g g.root q' p node i') :
    ∃ i, ItemAt g g.root q p node i ∧ i.name = i'.name := by
  unfold initOptions at h
  revert hi h
  generalize g.root = root
  intro h hi
  induction hi generalizing q with
  | @here node q' k i' hk =>
    obtain ⟨hf, _⟩ := initNode_ok.1 h
    obtain ⟨i, hk', hi'⟩ := forall₂_getElem?' hf hk
    obtain ⟨gi, h1, h2, _⟩ := initItem_ok hi'
    exact ⟨i, .here hk', h2.symm⟩
  | @inLink node q' k n qq o a gl t p node' i' hk hg ht _ ih =>
    obtain ⟨hf, _⟩ := initNode_ok.1 h
    obtain ⟨i, hk', hi'⟩ := forall₂_getElem?' hf hk
    obtain ⟨gi, h1, h2, _, h4, _, _, h7⟩ := initItem_ok hi'
    cases i with
    | field n' o' a' => simp [QItem.isLink] at h4
    | link n' q0 o' a' =>
      obtain ⟨qq', o'', he, h8, _⟩ := h7 _ _ _ _ rfl
      cases he
      have : gi = .link gl := by simpa [QItem.name, hg] using h1.symm
      obtain ⟨t', ht', hq'⟩ := h8 gl this
      rw [ht] at ht'; cases ht'
      obtain ⟨j, hj, hn⟩ := ih hq'
      exact ⟨j, .inLink hk' hg ht hj, hn⟩

theorem initItems_error {g : Graph} {node : GNode} {fs : List QItem} {e : Err}
    (h : initItems g node fs = .error e) : ∃ i ∈ fs, initItem g node i = .error e := by
  induction fs with
  | nil => simp [initItems] at h
  | cons i r ih =>
    simp only [initItems, bind_error_iff] at h
    rcases h with h | ⟨_, _, h | ⟨_, _, h⟩⟩
    · exact ⟨i, by simp, h⟩
    · obtain ⟨j, hj, hh⟩ := ih h
      exact ⟨j, by simp [hj], hh⟩
    · simp at h

theorem initNode_error {g : Graph} {node : GNode} {q : QNode} {e : Err}
    (h : initNode g node q = .error e) : ∃ i ∈ q.fields, initItem g node i = .error e := by
  obtain ⟨fs, ord⟩ := q
  simp only [initNode, bind_error_iff] at h
  rcases h with h | ⟨_, _, h⟩
  · exact initItems_error h
  · simp at h

theorem initNode_of_missing {g : Graph} {node : GNode} {q q' : QNode}
    (h : initNode g node q = .ok q') {p : List Nat} {node' : GNode} {i : QItem}
    (hi : ItemAt g node q p node' i) {gi : GItem} (hg : node'.get i.name = some gi) :
    gi.options = [] ∨ ∃ out, getOptions gi.options i.options = .ok out := by
  induction hi generalizing q' with
  | @here node q k i hk =>
    obtain ⟨hf, _⟩ := initNode_ok.1 h
    obtain ⟨i', hk', hi'⟩ := forall₂_getElem? hf hk
    obtain ⟨gi', h1, h2, h3, h4, h5, h6, _⟩ := initItem_ok hi'
    rw [hg] at h1; cases h1
    by_cases he : gi.options = []
    · exact .inl he
    · obtain ⟨out, _, ho⟩ := h5 he
      exact .inr ⟨out, ho⟩
  | @inLink node q k n qq o a gl t p node' i hk hg' ht _ ih =>
    obtain ⟨hf, _⟩ := initNode_ok.1 h
    obtain ⟨i', hk', hi'⟩ := forall₂_getElem? hf hk
    obtain ⟨gi, h1, _, _, _, _, _, h7⟩ := initItem_ok hi'
    obtain ⟨qq', o', rfl, h8, _⟩ := h7 _ _ _ _ rfl
    have : gi = .link gl := by simpa [QItem.name, hg'] using h1.symm
    obtain ⟨t', ht', hq'⟩ := h8 gl this
    rw [ht] at ht'; cases ht'
    exact ih hq' hg

theorem initNode_error_cause {g : Graph} : ∀ (q : QNode) (node : GNode) (e : Err),
    NamesExist g node q → initNode g node q = .error e →
    e = .typeError ∧ ∃ p node' i gi, ItemAt g node q p node' i ∧ node'.get i.name = some gi ∧
      getOptions gi.options i.options = .error .typeError := by
  intro q
  induction q using QNode.ind with
  | h fs ord ih =>
    intro node e hn h
    obtain ⟨i, him, hi⟩ := initNode_error h
    obtain ⟨k, hk⟩ := List.getElem?_of_mem him
    obtain ⟨gi, hg, hl⟩ := hn [k] node i (.here hk)
    have hopt : ∀ (op : List GOption) (o : Opts), getOptions op o = .error e →
        e = .typeError := by
      intro op o ho
      rcases getOptions_total op o with ⟨out, ho'⟩ | ho' <;> rw [ho] at ho' <;> cases ho'
      rfl
    cases i with
    | field n o a =>
      simp only [QItem.name] at hg
      simp only [initItem, hg] at hi
      split at hi
      · simp at hi
      · simp only [bind_error_iff] at hi
        rcases hi with hi | ⟨_, _, hi⟩
        · have := hopt _ _ hi; subst this
          exact ⟨rfl, [k], node, _, gi, .here hk, hg, hi⟩
        · simp at hi
    | link n q o a =>
      simp only [QItem.name] at hg
      cases gi with
      | field gf =>
        simp only [initItem, hg] at hi
        split at hi
        · simp at hi
        · simp only [bind_error_iff] at hi
          rcases hi with hi | ⟨_, _, hi⟩
          · have := hopt _ _ hi; subst this
            exact ⟨rfl, [k], node, _, _, .here hk, hg, hi⟩
          · simp at hi
      | link gl =>
        obtain ⟨t, ht⟩ := hl rfl gl rfl
        simp only [initItem, hg, ht] at hi
        simp only [bind_error_iff] at hi
        rcases hi with hi | ⟨q', hq', hi⟩
        · have hn' : NamesExist g t q := fun p node' i hi => hn (k :: p) node' i (.inLink hk hg ht hi)
          obtain ⟨he, p, node', i, gi, h1, h2, h3⟩ := ih n q o a him t e hn' hi
          exact ⟨he, k :: p, node', i, gi, .inLink hk hg ht h1, h2, h3⟩
        · split at hi
          · simp at hi
          · simp only [bind_error_iff] at hi
            rcases hi with hi | ⟨_, _, hi⟩
            · have := hopt _ _ hi; subst this
              exact ⟨rfl, [k], node, _, _, .here hk, hg, hi⟩
            · simp at hi

/-- **C05, missing options**: on a query whose names exist, initialising the options raises
TypeError iff a required option is missing somewhere, and no other error is possible. -/
theorem c05_missing {g : Graph} {q : QNode}
    (hn : NamesExist g g.root q) :
    (initOptions g q = .error .typeError ↔
      ∃ p node i gi, ItemAt g g.root q p node i ∧ node.get i.name = some gi ∧
        MissingOption gi.options i.options) ∧
    ∀ e, initOptions g q = .error e → e = .typeError := by
  refine ⟨⟨?_, ?_⟩, fun e he => (initNode_error_cause q _ e hn he).1⟩
  · intro h
    obtain ⟨_, p, node, i, gi, h1, h2, h3⟩ := initNode_error_cause q _ _ hn h
    refine ⟨p, node, i, gi, h1, h2, ?_⟩
    rw [missing_iff]
    refine Classical.byContradiction fun hno => ?_
    simp only [getOptions, bind_error_iff] at h3
    rcases h3 with h3 | ⟨_, _, h3⟩
    · exact yieldOptions_no_error hno h3
    · simp at h3
  · rintro ⟨p, node, i, gi, h1, h2, h3⟩
    cases h : initOptions g q with
    | error e => rw [(initNode_error_cause q _ e hn h).1]
    | ok q' =>
      exfalso
      rcases initNode_of_missing h h1 h2 with he | ⟨out, ho⟩
      · rw [he] at h3; obtain ⟨op, hop, _⟩ := h3; simp at hop
      · rw [getOptions_error _ _ h3] at ho; cases ho

/-- **C05, before any call**: if initialising the options fails, `execute` raises that error at
once: no workflow is started and no data function is submitted, for any executor. -/
theorem c05_before_any_call (env : Env) (choose : Nat → List Nat → List Nat) (inner fuel g : Nat)
    (gr : Graph) (hg : env.sys.graphs[g]? = some gr) (q : QNode) (e : Err)
    (h : initOptions gr q = .error e) :
    startQuery env g q = .error e ∧ execute env choose inner fuel g q = .error e := by
  have : startQuery env g q = .error e := by simp [startQuery, hg, h]
  simp [execute, this]

/-- **C05, twice is once** -/
theorem c05_idempotent {g : Graph} (hd : OptionNamesDistinct g) {q q' : QNode}
    (h : initOptions g q = .ok q') : initOptions g q' = .ok q' := by
  unfold initOptions at *
  have hr : IsNode g g.root := .inl rfl
  revert h hr
  generalize g.root = root
  induction q using QNode.ind generalizing root q' with
  | h fs ord ih =>
    intro h hr
    obtain ⟨fs', ord'⟩ := q'
    obtain ⟨hf, ho⟩ := initNode_ok.1 h
    refine initNode_ok.2 ⟨?_, rfl⟩
    simp only [QNode.fields] at hf ⊢
    rw [List.forall₂_iff_get] at hf ⊢
    refine ⟨rfl, fun k h1 _ => ?_⟩
    have hk : k < fs.length := by rw [hf.1]; exact h1
    have hik := hf.2 k hk h1
    have hmem : fs.get ⟨k, hk⟩ ∈ fs := List.get_mem _ _
    revert hik hmem
    generalize fs.get ⟨k, hk⟩ = i
    generalize fs'.get ⟨k, h1⟩ = i'
    intro hik hmem
    obtain ⟨gi, hg, h2, h3, h4, h5, h6, h7⟩ := initItem_ok hik
    have hnd := hd _ hr _ _ hg
    cases i with
    | field n o a =>
      cases i' with
      | link => simp [QItem.isLink] at h4
      | field n' o' a' =>
        simp only [QItem.name] at h2 hg; subst h2
        simp only [initItem, hg]
        by_cases he : gi.options = []
        · simp [he]
        · obtain ⟨out, ho, hgo⟩ := h5 he
          simp only [QItem.options] at ho; subst ho
          have hi2 := getOptions_idem hnd hgo
          simp [he, hi2]
    | link n q o a =>
      obtain ⟨q2, o', rfl, h8, h9⟩ := h7 _ _ _ _ rfl
      simp only [QItem.name] at hg
      cases gi with
      | field gf =>
        have := h9 gf rfl; subst this
        simp only [initItem, hg]
        by_cases he : gf.options = []
        · have := h6 he; simp [QItem.options, QItem.isLink] at this; subst this; simp [he]
        · obtain ⟨out, ho, hgo⟩ := h5 he
          simp only [QItem.options] at ho; subst ho
          have hi2 := getOptions_idem hnd hgo
          simp only [GItem.options] at hi2
          simp [he, hi2]
      | link gl =>
        obtain ⟨t, ht, hq⟩ := h8 gl rfl
        have hq2 := ih n q o a hmem t hq (.inr ⟨_, ht⟩)
        simp only [initItem, hg, ht, hq2]
        by_cases he : gl.options = []
        · have := h6 he; simp [QItem.options, QItem.isLink] at this; subst this; simp [he]
        · obtain ⟨out, ho, hgo⟩ := h5 he
          simp only [QItem.options] at ho; subst ho
          have hi2 := getOptions_idem hnd hgo
          simp only [GItem.options] at hi2
          simp [he, hi2]

/-! ### Non-vacuity -/

def exOptGraph : Graph :=
  { items := [
      { name := none, fields := [
          .link { name := "xs", typeEnum := .many, node := "X", func := { id := 1 }, requires := none,
                  options := [{ name := "limit", ty := some .integer, dflt := .int 10 }] },
          .field { name := "f", ty := none, func := .plain { id := 2 },
                   options := [{ name := "req", ty := some .integer }] }] },
      { name := some "X", fields := [
          .field { name := "a", ty := none, func := .plain { id := 3 },
                   options := [{ name := "p", ty := some .integer, dflt := .int 1 },
                               { name := "r", ty := some .integer }] }] }] }

def exOptQuery : QNode :=
  .mk [.link "xs" (.mk [.field "a" (some [("junk", .int 0), ("r", .int 5)]) none] false) none none,
       .field "f" (some [("req", .int 7)]) (some "g")] false

example : initOptions exOptGraph exOptQuery = .ok
    (.mk [.link "xs" (.mk [.field "a" (some [("p", .int 1), ("r", .int 5)]) none] false)
            (some [("limit", .int 10)]) none,
          .field "f" (some [("req", .int 7)]) (some "g")] false) := by
  simp [initOptions, exOptGraph, exOptQuery, initNode, initItems, initItem, Graph.root, Graph.node,
    Graph.nodesMap, GNode.get, GNode.fieldsMap, dmk, dupdate, dset, dget, GItem.name, GItem.options,
    getOptions, yieldOptions]

example : initOptions exOptGraph (.mk [.field "f" none none] false) = .error .typeError := by
  simp [initOptions, exOptGraph, initNode, initItems, initItem, Graph.root, Graph.node,
    Graph.nodesMap, GNode.get, GNode.fieldsMap, dmk, dupdate, dset, dget, GItem.name, GItem.options,
    getOptions, yieldOptions]

example : OptionNamesDistinct exOptGraph := by
  intro n hn s gi hg
  have : (s, gi) ∈ n.fieldsMap := dget_mem hg
  rcases hn with rfl | ⟨t, ht⟩
  · simp [exOptGraph, Graph.root, GNode.fieldsMap, dmk, dupdate, dset, GItem.name] at this
    rcases this with ⟨_, rfl⟩ | ⟨_, rfl⟩ <;> simp [GItem.options]
  · have ht' := dget_mem ht
    simp [exOptGraph, Graph.nodesMap, dmk, dupdate, dset] at ht'
    obtain ⟨_, rfl⟩ := ht'
    simp [GNode.fieldsMap, dmk, dupdate, dset, GItem.name] at this
    obtain ⟨_, rfl⟩ := this
    simp [GItem.options]

end Hiku
