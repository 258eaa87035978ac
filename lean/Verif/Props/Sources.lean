import Verif.Spec.Sources
import Verif.Proofs.Dict
import Verif.Props.Denormalize
import Verif.Props.Result
import Verif.Props.Validate2
import Mathlib.Data.List.Perm.Basic
import Mathlib.Data.List.Dedup

/-! C40-C42: database sources. -/

namespace Hiku.Sources
open Hiku

/-! ### Lookups -/

theorem dmk_mem {pairs : List (Val × List Val)} {k : Val} {v : List Val}
    (h : dget (dmk pairs) k = some v) : (k, v) ∈ pairs := by
  rw [dget_dmk] at h
  simpa using dget_mem h

theorem dmk_mem' {pairs : List (Val × Val)} {k : Val} {v : Val}
    (h : dget (dmk pairs) k = some v) : (k, v) ∈ pairs := by
  rw [dget_dmk] at h
  simpa using dget_mem h

theorem dmk_none {ν : Type} {pairs : List (Val × ν)} {k : Val} (h : dget (dmk pairs) k = none) :
    ∀ v, (k, v) ∉ pairs := by
  intro v hv
  rw [dget_eq_none_iff] at h
  exact h ((mem_keys_dmk pairs k).2 (List.mem_map.2 ⟨_, hv, rfl⟩))

theorem cell_selected {cols : List String} {r : SaRow} {c : String} {v : Val} (hc : c ∈ cols)
    (hv : dget r c = some v) : (selected cols r).cell c = .ok v := by
  unfold SaRow.cell
  have : dget (selected cols r) c = some v := by
    induction cols with
    | nil => simp at hc
    | cons d ds ih =>
      by_cases h : d = c
      · subst h
        simp [selected, hv]
      · have hc' : c ∈ ds := by
          rcases List.mem_cons.1 hc with h' | h'
          · exact absurd h'.symm h
          · exact h'
        have := ih hc'
        unfold selected at this ⊢
        rw [List.filterMap_cons]
        cases hd : dget r d with
        | none => simpa using this
        | some w =>
          simp only [Option.map_some]
          rw [dget_cons, if_neg h]
          exact this
  rw [this]

theorem matches_iff {s : SaSelect} {r : SaRow} :
    Matches s r = true ↔ ∃ v, dget r s.column = some v ∧ v ≠ .none ∧ v ∈ s.values := by
  unfold Matches
  cases h : dget r s.column with
  | none => simp
  | some v => simp

/-! ### C40: fields -/

/-- the database answers every statement about the table -/
def Fetches (tbl : Table) (fetch : SaSelect → Except Err (List SaRow)) : Prop :=
  ∀ s, ∃ rows, fetch s = .ok rows ∧ Answer tbl s rows

theorem pairs_of_rows {fq : FieldsQuery} {fields : List QItem} {l : List SaRow} {cols : List String}
    (hcols : ∀ r ∈ l, ∀ c ∈ fq.pk :: fields.map QItem.name, (dget r c).isSome)
    (hsub : ∀ c ∈ fq.pk :: fields.map QItem.name, c ∈ cols) :
    ∃ pairs, (l.map (selected cols)).mapM (fun row => (do
        let k ← row.cell fq.pk
        let vs ← fields.mapM fun f => row.cell f.name
        pure (k, vs) : Except Err (Val × List Val))) = .ok pairs ∧
      List.Forall₂ (fun r p => dget r fq.pk = some p.1 ∧
        List.Forall₂ (fun n v => dget r n = some v) (fields.map QItem.name) p.2) l pairs := by
  have key : ∀ r ∈ l, ∃ p : Val × List Val, ((do
        let k ← (selected cols r).cell fq.pk
        let vs ← fields.mapM fun f => (selected cols r).cell f.name
        pure (k, vs) : Except Err (Val × List Val))) = .ok p ∧ (dget r fq.pk = some p.1 ∧
        List.Forall₂ (fun n v => dget r n = some v) (fields.map QItem.name) p.2) := by
    intro r hr
    obtain ⟨k, hk⟩ := Option.isSome_iff_exists.1 (hcols r hr fq.pk List.mem_cons_self)
    have : ∀ f ∈ fields, ∃ v, dget r f.name = some v := fun f hf =>
      Option.isSome_iff_exists.1 (hcols r hr f.name
        (List.mem_cons_of_mem _ (List.mem_map.2 ⟨f, hf, rfl⟩)))
    obtain ⟨vs, hvs⟩ := forall2_ex this
    refine ⟨(k, vs), ?_, hk, ?_⟩
    · rw [bind_ok_iff]
      refine ⟨k, cell_selected (hsub _ List.mem_cons_self) hk, ?_⟩
      rw [bind_ok_iff]
      refine ⟨vs, ?_, rfl⟩
      rw [mapM_ok_iff]
      have h2 : List.Forall₂ (fun f v => f ∈ fields ∧ dget r f.name = some v) fields vs := by
        rw [List.forall₂_iff_get] at hvs ⊢
        exact ⟨hvs.1, fun i h1 h2 => ⟨List.getElem_mem _, hvs.2 i h1 h2⟩⟩
      exact h2.imp fun f v h => cell_selected
        (hsub _ (List.mem_cons_of_mem _ (List.mem_map.2 ⟨f, h.1, rfl⟩))) h.2
    · rw [List.forall₂_map_left_iff]
      exact hvs
  obtain ⟨pairs, hp⟩ := forall2_ex key
  refine ⟨pairs, ?_, (forall2_and hp).2⟩
  rw [mapM_ok_iff, List.forall₂_map_left_iff]
  exact (forall2_and hp).1

theorem select_ok {fq : FieldsQuery} {fields : List QItem} {ids : List Val}
    (hf : ∀ f ∈ fields, f.name ∈ fq.cols.map (·.1)) :
    fq.select fields ids = .ok ⟨fq.pk :: fields.map QItem.name, fq.pk, ids⟩ := by
  unfold FieldsQuery.select
  have : ∃ r : List (String × ColTy), fields.mapM (fun f => fq.column f.name) = .ok r ∧
      r.map (·.1) = fields.map QItem.name := by
    have : ∀ f ∈ fields, ∃ c : String × ColTy, fq.column f.name = .ok c ∧ c.1 = f.name := by
      intro f h
      obtain ⟨t, ht⟩ := Option.isSome_iff_exists.1 (dget_isSome_iff.2 (hf f h))
      exact ⟨(f.name, t), by simp [FieldsQuery.column, ht], rfl⟩
    obtain ⟨r, hr⟩ := forall2_ex this
    refine ⟨r, mapM_ok_iff.2 (forall2_and hr).1, ?_⟩
    have h2 := (forall2_and hr).2
    clear hr
    induction h2 with
    | nil => rfl
    | cons h _ ih =>
      simp only [List.map_cons, h]
      rw [ih (fun f hf' => hf f (List.mem_cons_of_mem _ hf'))
        (fun f hf' => this f (List.mem_cons_of_mem _ hf'))]
  obtain ⟨r, h1, h2⟩ := this
  rw [h1, ok_bind', h2]

/-- **C40.**  For every table, requested fields and identifiers (repeated, unknown or `None`
included) and whatever order the database returns rows in, the source returns one row per
identifier, in the order of the identifiers, with the columns of the row having this key in the
order of the fields -- or `None`s when the table has no such row. -/
theorem c40_fields {tbl : Table} {fetch : SaSelect → Except Err (List SaRow)} {fq : FieldsQuery}
    {fields : List QItem} {ids : List Val} (hdb : Fetches tbl fetch)
    (hcols : HasCols tbl (fq.pk :: fields.map QItem.name))
    (hf : ∀ f ∈ fields, f.name ∈ fq.cols.map (·.1)) :
    ∃ outs, fq.call fetch fields ids = .ok (.list outs) ∧
      List.Forall₂ (FieldsOf tbl fq.pk (fields.map QItem.name)) ids outs := by
  unfold FieldsQuery.call
  by_cases he : ids.isEmpty = true
  · rw [if_pos he]
    rw [List.isEmpty_iff] at he
    subst he
    exact ⟨[], rfl, .nil⟩
  rw [if_neg he, select_ok hf, ok_bind']
  obtain ⟨rows, hrows, l, hl, rfl⟩ := hdb ⟨fq.pk :: fields.map QItem.name, fq.pk, ids⟩
  rw [hrows, ok_bind']
  have hmem : ∀ r ∈ l, r ∈ tbl ∧ Matches ⟨fq.pk :: fields.map QItem.name, fq.pk, ids⟩ r = true :=
    fun r hr => List.mem_filter.1 (hl.mem_iff.1 hr)
  obtain ⟨pairs, hp, hpr⟩ := pairs_of_rows (fq := fq) (fields := fields) (l := l)
    (cols := fq.pk :: fields.map QItem.name)
    (fun r hr => hcols r (hmem r hr).1) (fun c hc => hc)
  unfold FieldsQuery.resultProc
  rw [hp, ok_bind']
  refine ⟨_, rfl, ?_⟩
  rw [List.forall₂_map_right_iff, List.forall₂_same]
  intro i hi
  cases hd : dget (dmk pairs) i with
  | some vs =>
    left
    obtain ⟨r, hr, h1, h2⟩ := Hiku.forall2_mem_right hpr (dmk_mem hd)
    obtain ⟨v, hv, hn, -⟩ := matches_iff.1 (hmem r hr).2
    simp only at hv h1 h2
    rw [h1] at hv
    cases hv
    exact ⟨r, (hmem r hr).1, h1, hn, vs, rfl, h2⟩
  | none =>
    right
    refine ⟨?_, by simp [Function.comp_def]⟩
    intro r hr hk
    by_contra hn
    have : r ∈ l := hl.mem_iff.2 (List.mem_filter.2 ⟨hr, matches_iff.2 ⟨i, hk, hn, hi⟩⟩)
    obtain ⟨p, hp', h1, -⟩ := forall2_left hpr this
    rw [hk] at h1
    obtain ⟨p1, p2⟩ := p
    cases h1
    exact dmk_none hd _ hp'

theorem forall2_det {α β : Type} {R : α → β → Prop} (h : ∀ a b b', R a b → R a b' → b = b') :
    ∀ {l : List α} {r r' : List β}, List.Forall₂ R l r → List.Forall₂ R l r' → r = r'
  | _, _, _, .nil, .nil => rfl
  | _, _, _, .cons h1 t1, .cons h2 t2 => by rw [h _ _ _ h1 h2, forall2_det h t1 t2]

theorem fieldsOf_det {tbl : Table} {pk : String} {names : List String} (hu : UniqueIn tbl pk) {i o o' : Val}
    (h : FieldsOf tbl pk names i o) (h' : FieldsOf tbl pk names i o') : o = o' := by
  have uniq : ∀ {t : Table}, UniqueIn t pk → ∀ r ∈ t, ∀ r' ∈ t, dget r pk = dget r' pk → r = r' := by
    intro t ht
    induction t with
    | nil => intro r hr; simp at hr
    | cons x t ih =>
      have hp := List.pairwise_cons.1 ht
      intro r hr r' hr' e
      rcases List.mem_cons.1 hr with hr1 | hr1 <;> rcases List.mem_cons.1 hr' with hr2 | hr2
      · rw [hr1, hr2]
      · rw [hr1] at e; exact absurd e (hp.1 _ hr2)
      · rw [hr2] at e; exact absurd e.symm (hp.1 _ hr1)
      · exact ih hp.2 r hr1 r' hr2 e
  rcases h with ⟨r, hr, h1, h2, vs, rfl, h3⟩ | ⟨h1, rfl⟩ <;>
    rcases h' with ⟨r', hr', h1', h2', vs', rfl, h3'⟩ | ⟨h1', rfl⟩
  · have := uniq hu r hr r' hr' (h1.trans h1'.symm)
    subst this
    have := forall2_det (R := fun n v => dget r n = some v)
      (fun n v v' a b => Option.some.inj (a.symm.trans b)) h3 h3'
    rw [this]
  · exact absurd (h1' r hr h1) h2
  · exact absurd (h1 r' hr' h1') h2'
  · rfl

/-- **C40.**  When the key column has no repeated values the order in which the database returns
rows does not matter. -/
theorem c40_order_irrelevant {tbl : Table} {fetch fetch' : SaSelect → Except Err (List SaRow)}
    {fq : FieldsQuery} {fields : List QItem} {ids : List Val} (hu : UniqueIn tbl fq.pk)
    (hdb : Fetches tbl fetch) (hdb' : Fetches tbl fetch')
    (hcols : HasCols tbl (fq.pk :: fields.map QItem.name))
    (hf : ∀ f ∈ fields, f.name ∈ fq.cols.map (·.1)) :
    fq.call fetch fields ids = fq.call fetch' fields ids := by
  obtain ⟨o, h1, h2⟩ := c40_fields (ids := ids) hdb hcols hf
  obtain ⟨o', h1', h2'⟩ := c40_fields (ids := ids) hdb' hcols hf
  have e : o = o' := forall2_det (R := FieldsOf tbl fq.pk (fields.map QItem.name))
    (fun _ _ _ a b => fieldsOf_det hu a b) h2 h2'
  rw [h1, h1', e]

theorem mapM_first_error {α β : Type} {f : α → Except Err β} {l : List α} {a : α} {e : Err} (ha : a ∈ l)
    (he : f a = .error e) (ho : ∀ x ∈ l, ∀ e', f x = .error e' → e' = e) : l.mapM f = .error e := by
  induction l with
  | nil => simp at ha
  | cons x r ih =>
    rw [List.mapM_cons]
    cases hx : f x with
    | error e' => rw [ho x List.mem_cons_self e' hx]; rfl
    | ok b =>
      rcases List.mem_cons.1 ha with rfl | ha'
      · rw [he] at hx; cases hx
      · rw [ok_bind', ih ha' (fun x hx => ho x (List.mem_cons_of_mem _ hx))]; rfl

/-- C40: the primary key is the one given, otherwise the only column of the primary key of the table; a
table with several columns in its primary key, or with none, is refused with ValueError. -/
theorem c40_primary_key {cols : List (String × ColTy)} {tablePk : List String} {pk : Option String}
    {r : Except Err FieldsQuery} (h : FieldsQuery.make cols tablePk pk = r) :
    (∃ p, r = .ok { cols := cols, pk := p } ∧ (pk = some p ∨ pk = none ∧ tablePk = [p])) ∨
    (r = .error .valueError ∧ pk = none ∧ tablePk.length ≠ 1) := by
  subst h
  cases pk with
  | some p => exact .inl ⟨p, rfl, .inl rfl⟩
  | none =>
    match tablePk with
    | [] => exact .inr ⟨rfl, rfl, by simp⟩
    | [p] => exact .inl ⟨p, rfl, .inr ⟨rfl, rfl⟩⟩
    | _ :: _ :: _ => exact .inr ⟨rfl, rfl, by simp⟩

/-- a table with a key of two columns is refused without an explicit primary key -/
example : FieldsQuery.make [] ["a", "b"] none = .error .valueError ∧
    FieldsQuery.make [] ["a", "b"] (some "b") = .ok { cols := [], pk := "b" } := ⟨rfl, rfl⟩

/-- **C40.**  A field which is not a column raises KeyError, before the database is asked (whatever
`fetch` does). -/
theorem c40_unknown_column {fetch : SaSelect → Except Err (List SaRow)} {fq : FieldsQuery}
    {fields : List QItem} {ids : List Val} {f : QItem} (hf : f ∈ fields)
    (hn : f.name ∉ fq.cols.map (·.1)) (hi : ids ≠ []) :
    fq.call fetch fields ids = .error .keyError := by
  unfold FieldsQuery.call FieldsQuery.select
  rw [if_neg (by rw [List.isEmpty_iff]; exact hi)]
  rw [mapM_first_error hf (e := .keyError)]
  · rfl
  · simp [FieldsQuery.column, dget_eq_none_iff.2 hn]
  · intro x _ e'
    unfold FieldsQuery.column
    split <;> intro h <;> cases h
    rfl

/-- **C40.**  Declared column types: integer columns give Integer, unicode columns give String, a
declared type is kept, and nothing but the type changes. -/
theorem c40_types {fq : FieldsQuery} {f f' : GField} (h : fq.postprocess f = .ok f') :
    f' = { f with ty := f'.ty } ∧
    (∀ t, f.ty = some t → f'.ty = some t) ∧
    (f.ty = none → ∃ ct, dget fq.cols f.name = some ct ∧
      (ct = .integer → f'.ty = some .integer) ∧ (ct = .unicode → f'.ty = some .string) ∧
      (ct = .other → f'.ty = none)) := by
  unfold FieldsQuery.postprocess at h
  cases ht : f.ty with
  | some t =>
    rw [ht] at h
    cases h
    exact ⟨rfl, fun t' e => by rw [ht, e], fun e => by cases e⟩
  | none =>
    rw [ht] at h
    simp only [FieldsQuery.column] at h
    cases hc : dget fq.cols f.name with
    | none => rw [hc] at h; cases h
    | some ct =>
      rw [hc] at h
      cases h
      refine ⟨rfl, fun t' e => (by cases e), fun _ => ⟨ct, rfl, ?_, ?_, ?_⟩⟩ <;> (intro e; subst e; rfl)

/-! ### C41: links -/

/-- `set(ids)`: the same items (in any order, without repetitions) -/
def IsSet (pySet : List Val → List Val) : Prop :=
  ∀ l, (pySet l).Nodup ∧ ∀ x, x ∈ pySet l ↔ x ∈ l

theorem appendAll_get (pairs : List (Val × Val)) (m : List (Val × List Val)) (v : Val) :
    (dget (appendAll m pairs) v).getD [] =
      (dget m v).getD [] ++ pairs.filterMap fun p => if p.1 = v then some p.2 else none := by
  induction pairs generalizing m with
  | nil => simp [appendAll]
  | cons p r ih =>
    obtain ⟨a, b⟩ := p
    rw [appendAll, ih, dget_dset]
    by_cases h : a = v
    · subst h; simp
    · simp [h]

/-- the pairs which a link query fetches -/
theorem link_pairs_rel {R : Table → Table → Prop} (hnil : R [] []) (hmemR : ∀ l l', R l l' → ∀ x ∈ l, x ∈ l') {tbl : Table} {pySet : List Val → List Val}
    {fetch : SaSelect → Except Err (List SaRow)} {lq : LinkQuery} {ids : List Val} (hs : IsSet pySet)
    (hdb : ∀ s, ∃ rows, fetch s = .ok rows ∧ ∃ l, R l (tbl.filter (Matches s)) ∧ rows = l.map (selected s.columns))
    (hcols : HasCols tbl [lq.fromCol, lq.toCol]) :
    ∃ pairs, lq.pairs pySet fetch ids = .ok pairs ∧
      ∃ l : Table, R l (tbl.filter fun r => match dget r lq.fromCol with
          | some v => decide (v ≠ .none) && decide (v ∈ ids)
          | none => false) ∧
        List.Forall₂ (fun r p => dget r lq.fromCol = some p.1 ∧ dget r lq.toCol = some p.2) l pairs := by
  have hmem : ∀ v, v ∈ (pySet ids).filter (fun i => i ≠ Val.none) ↔ v ≠ .none ∧ v ∈ ids := by
    intro v
    simp [(hs ids).2 v, and_comm]
  unfold LinkQuery.pairs LinkQuery.select
  by_cases he : ((pySet ids).filter fun i => i ≠ Val.none).isEmpty = true
  · simp only [he, if_true]
    refine ⟨[], rfl, [], ?_, .nil⟩
    rw [List.isEmpty_iff] at he
    have : (tbl.filter fun r => match dget r lq.fromCol with
          | some v => decide (v ≠ .none) && decide (v ∈ ids)
          | none => false) = [] := by
      rw [List.filter_eq_nil_iff]
      intro r _
      cases hd : dget r lq.fromCol with
      | none => simp
      | some v =>
        have := hmem v
        rw [he] at this
        simp only [Bool.and_eq_true, decide_eq_true_eq]
        intro h
        exact absurd (this.2 h) (by simp)
    rw [this]; exact hnil
  · simp only [he]
    obtain ⟨rows, hrows, l, hl, rfl⟩ := hdb ⟨[lq.fromCol, lq.toCol], lq.fromCol,
      (pySet ids).filter fun i => i ≠ Val.none⟩
    rw [if_neg (by simp)]
    simp only [hrows, ok_bind']
    have heq : tbl.filter (Matches ⟨[lq.fromCol, lq.toCol], lq.fromCol,
        (pySet ids).filter fun i => i ≠ Val.none⟩) = tbl.filter fun r => match dget r lq.fromCol with
          | some v => decide (v ≠ .none) && decide (v ∈ ids)
          | none => false := by
      apply List.filter_congr
      intro r _
      unfold Matches
      simp only
      cases hd : dget r lq.fromCol with
      | none => rfl
      | some v =>
        simp only
        by_cases h1 : v = .none
        · simp [h1]
        · have := hmem v
          simp only [ne_eq, h1, not_false_eq_true, true_and] at this
          simp only [ne_eq, this]
    rw [heq] at hl
    have key : ∀ r ∈ l, ∃ p : Val × Val, lq.pair (selected [lq.fromCol, lq.toCol] r) = .ok p ∧
        (dget r lq.fromCol = some p.1 ∧ dget r lq.toCol = some p.2) := by
      intro r hr
      have ht := (List.mem_filter.1 (hmemR _ _ hl r hr)).1
      obtain ⟨a, ha⟩ := Option.isSome_iff_exists.1 (hcols r ht lq.fromCol (by simp))
      obtain ⟨b, hb⟩ := Option.isSome_iff_exists.1 (hcols r ht lq.toCol (by simp))
      refine ⟨(a, b), ?_, ha, hb⟩
      unfold LinkQuery.pair
      rw [cell_selected (by simp) ha, ok_bind', cell_selected (by simp) hb, ok_bind']
      rfl
    obtain ⟨pairs, hp⟩ := forall2_ex key
    refine ⟨pairs, ?_, l, hl, (forall2_and hp).2⟩
    rw [mapM_ok_iff, List.forall₂_map_left_iff]
    exact (forall2_and hp).1

theorem link_pairs {tbl : Table} {pySet : List Val → List Val}
    {fetch : SaSelect → Except Err (List SaRow)} {lq : LinkQuery} {ids : List Val} (hs : IsSet pySet)
    (hdb : Fetches tbl fetch) (hcols : HasCols tbl [lq.fromCol, lq.toCol]) :
    ∃ pairs, lq.pairs pySet fetch ids = .ok pairs ∧
      ∃ l : Table, l.Perm (tbl.filter fun r => match dget r lq.fromCol with
          | some v => decide (v ≠ .none) && decide (v ∈ ids)
          | none => false) ∧
        List.Forall₂ (fun r p => dget r lq.fromCol = some p.1 ∧ dget r lq.toCol = some p.2) l pairs :=
  link_pairs_rel (R := List.Perm) .nil (fun _ _ h x hx => h.mem_iff.1 hx) hs hdb hcols

theorem linked_of_pair {tbl l : Table} {lq : LinkQuery} {ids : List Val} {pairs : List (Val × Val)}
    (hl : l.Perm (tbl.filter fun r => match dget r lq.fromCol with
          | some v => decide (v ≠ .none) && decide (v ∈ ids)
          | none => false))
    (hp : List.Forall₂ (fun r p => dget r lq.fromCol = some p.1 ∧ dget r lq.toCol = some p.2) l pairs)
    {v t : Val} (hv : v ∈ ids) : (v, t) ∈ pairs ↔ Linked tbl lq.fromCol lq.toCol v t := by
  constructor
  · intro h
    obtain ⟨r, hr, h1, h2⟩ := Hiku.forall2_mem_right hp h
    have := List.mem_filter.1 (hl.mem_iff.1 hr)
    simp only at h1 h2
    rw [h1] at this
    simp only [ne_eq, Bool.and_eq_true, decide_eq_true_eq] at this
    exact ⟨this.2.1, r, this.1, h1, h2⟩
  · rintro ⟨hn, r, hr, h1, h2⟩
    have : r ∈ l := hl.mem_iff.2 (List.mem_filter.2 ⟨hr, by rw [h1]; simp [hn, hv]⟩)
    obtain ⟨p, hp', h3, h4⟩ := forall2_left hp this
    obtain ⟨a, b⟩ := p
    rw [h1] at h3
    rw [h2] at h4
    cases h3
    cases h4
    exact hp'

/-- **C41.**  Optional links: the i-th result is something the i-th value is linked to, and
`Nothing` exactly when it is linked to nothing (as `None` values are). -/
theorem c41_maybe {tbl : Table} {pySet : List Val → List Val}
    {fetch : SaSelect → Except Err (List SaRow)} {lq : LinkQuery} {ids : List Val} (hs : IsSet pySet)
    (hdb : Fetches tbl fetch) (hcols : HasCols tbl [lq.fromCol, lq.toCol]) :
    ∃ outs, lq.call pySet fetch .maybe ids = .ok (.list outs) ∧
      List.Forall₂ (fun v o => Linked tbl lq.fromCol lq.toCol v o ∨
        ((∀ t, ¬ Linked tbl lq.fromCol lq.toCol v t) ∧ o = .nothing)) ids outs := by
  obtain ⟨pairs, h1, l, hl, hp⟩ := link_pairs (ids := ids) hs hdb hcols
  unfold LinkQuery.call
  rw [h1, ok_bind']
  refine ⟨_, rfl, ?_⟩
  rw [List.forall₂_map_right_iff, List.forall₂_same]
  intro v hv
  cases hd : dget (dmk pairs) v with
  | some t => left; exact (linked_of_pair hl hp hv).1 (dmk_mem' hd)
  | none => right; exact ⟨fun t ht => dmk_none hd t ((linked_of_pair hl hp hv).2 ht), rfl⟩

/-- **C41.**  Single links: the i-th result is something the i-th value is linked to. -/
theorem c41_one {tbl : Table} {pySet : List Val → List Val}
    {fetch : SaSelect → Except Err (List SaRow)} {lq : LinkQuery} {ids : List Val} (hs : IsSet pySet)
    (hdb : Fetches tbl fetch) (hcols : HasCols tbl [lq.fromCol, lq.toCol])
    (hall : ∀ v ∈ ids, ∃ t, Linked tbl lq.fromCol lq.toCol v t) :
    ∃ outs, lq.call pySet fetch .one ids = .ok (.list outs) ∧
      List.Forall₂ (Linked tbl lq.fromCol lq.toCol) ids outs := by
  obtain ⟨pairs, h1, l, hl, hp⟩ := link_pairs (ids := ids) hs hdb hcols
  unfold LinkQuery.call
  rw [h1, ok_bind']
  have : ∀ v ∈ ids, ∃ t, item (dmk pairs) v = .ok t ∧ Linked tbl lq.fromCol lq.toCol v t := by
    intro v hv
    obtain ⟨t0, ht0⟩ := hall v hv
    cases hd : dget (dmk pairs) v with
    | some t => exact ⟨t, by simp [item, hd], (linked_of_pair hl hp hv).1 (dmk_mem' hd)⟩
    | none => exact absurd ((linked_of_pair hl hp hv).2 ht0) (dmk_none hd t0)
  obtain ⟨outs, ho⟩ := forall2_ex this
  refine ⟨outs, ?_, (forall2_and ho).2⟩
  show toOne pairs ids = _
  unfold toOne
  rw [mapM_ok_iff.2 (forall2_and ho).1]
  rfl

/-- **C41.**  Single links: KeyError when one of the values (for example `None`) is linked to
nothing. -/
theorem c41_one_missing {tbl : Table} {pySet : List Val → List Val}
    {fetch : SaSelect → Except Err (List SaRow)} {lq : LinkQuery} {ids : List Val} (hs : IsSet pySet)
    (hdb : Fetches tbl fetch) (hcols : HasCols tbl [lq.fromCol, lq.toCol]) {v : Val} (hv : v ∈ ids)
    (hm : ∀ t, ¬ Linked tbl lq.fromCol lq.toCol v t) :
    lq.call pySet fetch .one ids = .error .keyError := by
  obtain ⟨pairs, h1, l, hl, hp⟩ := link_pairs (ids := ids) hs hdb hcols
  unfold LinkQuery.call
  rw [h1, ok_bind']
  show toOne pairs ids = _
  unfold toOne
  rw [mapM_first_error hv (e := .keyError)]
  · rfl
  · cases hd : dget (dmk pairs) v with
    | some t => exact absurd ((linked_of_pair hl hp hv).1 (dmk_mem' hd)) (hm t)
    | none => simp [item, hd]
  · intro x _ e'
    unfold item
    split <;> intro h <;> cases h
    rfl

/-- **C41.**  Sequence links: the i-th result has everything the i-th value is linked to, once for
every row; the list of a value which is linked to nothing (as `None` values are) is empty. -/
theorem c41_many {tbl : Table} {pySet : List Val → List Val}
    {fetch : SaSelect → Except Err (List SaRow)} {lq : LinkQuery} {ids : List Val} (hs : IsSet pySet)
    (hdb : Fetches tbl fetch) (hcols : HasCols tbl [lq.fromCol, lq.toCol]) :
    ∃ outs, lq.call pySet fetch .many ids = .ok (.list outs) ∧
      List.Forall₂ (fun v o => ∃ ts, o = .list ts ∧
        ts.Perm (linkedTo tbl lq.fromCol lq.toCol v)) ids outs := by
  obtain ⟨pairs, h1, l, hl, hp⟩ := link_pairs (ids := ids) hs hdb hcols
  unfold LinkQuery.call
  rw [h1, ok_bind']
  refine ⟨_, rfl, ?_⟩
  rw [List.forall₂_map_right_iff, List.forall₂_same]
  intro v hv
  refine ⟨_, rfl, ?_⟩
  rw [appendAll_get]
  simp only [dget_nil, Option.getD_none, List.nil_append]
  have e1 : (pairs.filterMap fun p => if p.1 = v then some p.2 else none) =
      l.filterMap fun r => if dget r lq.fromCol = some v then dget r lq.toCol else none := by
    clear hl h1
    induction hp with
    | nil => rfl
    | @cons r p l' ps h _ ih =>
      simp only [List.filterMap_cons, ih, h.1, h.2]
      by_cases hpv : p.1 = v
      · simp [hpv]
      · simp [hpv]
  rw [e1]
  refine (hl.filterMap _).trans ?_
  rw [List.filterMap_filter]
  unfold linkedTo
  apply List.Perm.of_eq
  apply List.filterMap_congr
  intro r _
  cases hd : dget r lq.fromCol with
  | none => simp
  | some w =>
    by_cases hw : w = v
    · subst hw
      by_cases hn : w = .none
      · simp [hn]
      · simp [hn, hv]
    · simp [hw]

/-- **C41.**  The sequence of the i-th value is in the order of the fetched rows. -/
theorem c41_many_row_order {pairs : List (Val × Val)} {values : List Val} :
    toMany pairs values = .ok (.list (values.map fun v =>
      .list (pairs.filterMap fun p => if p.1 = v then some p.2 else none))) := by
  unfold toMany
  congr 2
  apply List.map_congr_left
  intro v _
  rw [appendAll_get]
  simp

/-- C41: the two columns of a link query belong to one table, otherwise it is refused with ValueError; the
query has the columns which were given, in their roles. -/
theorem c41_one_table {fromCol toCol : String × String} {r : Except Err LinkQuery}
    (h : LinkQuery.make fromCol toCol = r) :
    (fromCol.1 = toCol.1 ∧ r = .ok { fromCol := fromCol.2, toCol := toCol.2 }) ∨
    (fromCol.1 ≠ toCol.1 ∧ r = .error .valueError) := by
  subst h
  unfold LinkQuery.make
  by_cases he : fromCol.1 = toCol.1
  · exact .inl ⟨he, if_pos he⟩
  · exact .inr ⟨he, if_neg he⟩

example : LinkQuery.make ("track", "album_id") ("track", "id") = .ok { fromCol := "album_id", toCol := "id" } ∧
    LinkQuery.make ("track", "album_id") ("album", "id") = .error .valueError := ⟨rfl, rfl⟩

/-- **C41.**  `None` is never sent to the database; every other value is sent exactly once; nothing is
sent when there are no other values. -/
theorem c41_none_not_sent {pySet : List Val → List Val} {lq : LinkQuery} {ids : List Val} (hs : IsSet pySet) :
    (∀ s, lq.select pySet ids = some s → s.values.Nodup ∧ ∀ v, v ∈ s.values ↔ v ∈ ids ∧ v ≠ .none) ∧
    ((∀ v ∈ ids, v = .none) → lq.select pySet ids = none) := by
  unfold LinkQuery.select
  constructor
  · intro s h
    simp only at h
    split at h
    · cases h
    · cases h
      refine ⟨(hs ids).1.filter _, fun v => ?_⟩
      simp [(hs ids).2 v]
  · intro h
    have : ((pySet ids).filter fun i => i ≠ Val.none) = [] := by
      rw [List.filter_eq_nil_iff]
      intro v hv
      simp [h v (((hs ids).2 v).1 hv)]
    simp only [this]
    rfl

/-- Finding: a NULL in the target column makes an optional link point to the object `None` instead of
`Nothing`. -/
theorem c41_null_target :
    LinkQuery.call List.dedup (fun _ => .ok [[("a", .int 1), ("b", .none)]]) ⟨"a", "b"⟩ .maybe [.int 1] =
      .ok (.list [.none]) := by rfl

/-! ### C42: chunked fetching -/

theorem drain_all (c : Cursor) (fuel request : Nat) (acc : List SaRow) (hf : c.rows.length < fuel) :
    drain fuel request c acc = some (acc ++ c.rows) := by
  induction fuel generalizing c request acc with
  | zero => omega
  | succ n ih =>
    obtain ⟨rows, ready⟩ := c
    unfold drain
    simp only [Cursor.fetchmany]
    have hk : 1 ≤ min fetchSize (max 1 (ready request)) := by
      unfold fetchSize
      omega
    generalize min fetchSize (max 1 (ready request)) = k at hk
    cases rows with
    | nil => simp
    | cons r rs =>
      obtain ⟨k', rfl⟩ : ∃ k', k = k' + 1 := ⟨k - 1, by omega⟩
      simp only [List.take_succ_cons, List.drop_succ_cons]
      rw [ih]
      · simp
      · simp only [List.length_cons, List.length_drop] at hf ⊢
        omega

/-- **C42.**  Whatever sizes the buckets have, the asynchronous sources get all rows, in order, as a
single fetch would; the loop ends. -/
theorem c42_chunks {openCursor : SaSelect → Except Err Cursor} {s : SaSelect} {c : Cursor} {fuel : Nat}
    (h : openCursor s = .ok c) (hf : c.rows.length < fuel) :
    asyncFetch openCursor fuel s = .ok c.rows := by
  unfold asyncFetch
  rw [h, ok_bind', drain_all c fuel 0 [] hf]
  simp

/-- **C42.**  So the asynchronous sources return what the synchronous ones return for the same
rows. -/
theorem c42_async_same {rowsOf : SaSelect → List SaRow} {ready : SaSelect → Nat → Nat} {fuel : Nat}
    (hf : ∀ s, (rowsOf s).length < fuel) (pySet : List Val → List Val) :
    (∀ (fq : FieldsQuery) (fields : List QItem) (ids : List Val),
      fq.call (asyncFetch (fun s => .ok ⟨rowsOf s, ready s⟩) fuel) fields ids =
        fq.call (fun s => .ok (rowsOf s)) fields ids) ∧
    (∀ (lq : LinkQuery) (t : LinkType) (ids : List Val),
      lq.call pySet (asyncFetch (fun s => .ok ⟨rowsOf s, ready s⟩) fuel) t ids =
        lq.call pySet (fun s => .ok (rowsOf s)) t ids) := by
  have : asyncFetch (fun s => .ok ⟨rowsOf s, ready s⟩) fuel = fun s => .ok (rowsOf s) := by
    funext s
    exact c42_chunks (c := ⟨rowsOf s, ready s⟩) rfl (hf s)
  rw [this]
  exact ⟨fun _ _ _ => rfl, fun _ _ _ => rfl⟩

/-- no bucket is larger than the fetch size -/
theorem c42_bucket_size (c : Cursor) (request : Nat) : (c.fetchmany fetchSize request).1.length ≤ 100 := by
  unfold Cursor.fetchmany fetchSize
  simp only [List.length_take]
  omega

/-! ### Examples -/

def exTable : Table :=
  [[("id", .int 1), ("name", .str "a"), ("owner", .int 7)],
   [("id", .int 2), ("name", .none), ("owner", .int 7)],
   [("id", .int 3), ("name", .str "c"), ("owner", .none)]]

/-- a database which returns the rows in the reverse order -/
def exFetch (s : SaSelect) : Except Err (List SaRow) :=
  .ok ((exTable.filter (Matches s)).reverse.map (selected s.columns))

theorem exFetch_answers : Fetches exTable exFetch := fun s =>
  ⟨_, rfl, _, List.reverse_perm _, rfl⟩

theorem dedup_isSet : IsSet List.dedup := fun l => ⟨List.nodup_dedup l, fun _ => List.mem_dedup⟩

def exFq : FieldsQuery := ⟨[("id", .integer), ("name", .unicode), ("owner", .integer)], "id"⟩
def exFields : List QItem := [.field "owner" none none, .field "name" none none]

example : HasCols exTable (exFq.pk :: exFields.map QItem.name) := by unfold HasCols; decide
example : UniqueIn exTable exFq.pk := by unfold UniqueIn; decide
example : ∀ f ∈ exFields, f.name ∈ exFq.cols.map (·.1) := by decide
example : exFq.call exFetch exFields [.int 3, .int 9, .int 1, .int 3, .none] =
    .ok (.list [.list [.none, .str "c"], .list [.none, .none], .list [.int 7, .str "a"],
      .list [.none, .str "c"], .list [.none, .none]]) := by rfl

example : HasCols exTable [(⟨"owner", "id"⟩ : LinkQuery).fromCol, (⟨"owner", "id"⟩ : LinkQuery).toCol] := by
  unfold HasCols; decide
example : LinkQuery.call List.dedup exFetch ⟨"owner", "id"⟩ .many [.int 7, .none, .int 8, .int 7] =
    .ok (.list [.list [.int 2, .int 1], .list [], .list [], .list [.int 2, .int 1]]) := by rfl
example : LinkQuery.call List.dedup exFetch ⟨"id", "owner"⟩ .maybe [.int 2, .none, .int 5] =
    .ok (.list [.int 7, .nothing, .nothing]) := by rfl
example : LinkQuery.call List.dedup exFetch ⟨"id", "owner"⟩ .one [.int 2, .int 1] =
    .ok (.list [.int 7, .int 7]) := by rfl
example : LinkQuery.call List.dedup exFetch ⟨"id", "owner"⟩ .one [.int 2, .none] =
    .error .keyError := by rfl
example : asyncFetch (fun _ => .ok ⟨exTable, fun n => n⟩) 4 ⟨[], "id", []⟩ = .ok exTable := by rfl

end Hiku.Sources
