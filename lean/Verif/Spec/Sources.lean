import Verif.Model.Sources
import Verif.Proofs.Basic

/-! Specification for C40-C42: what a table contains and what the database answers. -/

namespace Hiku.Sources

/-- a table: its rows, by column name -/
abbrev Table := List SaRow

/-- SQL's `column IN (values)`: NULL (`None`) is in no list -/
def Matches (s : SaSelect) (r : SaRow) : Bool :=
  match dget r s.column with
  | some v => decide (v ≠ .none) && decide (v ∈ s.values)
  | none => false

/-- the selected columns of a row -/
def selected (cols : List String) (r : SaRow) : SaRow :=
  cols.filterMap fun c => (dget r c).map fun v => (c, v)

/-- The rows are an answer to the statement: the matching rows of the table, in any order, with the
selected columns.  (Equality of the database is equality of the values.) -/
def Answer (tbl : Table) (s : SaSelect) (rows : List SaRow) : Prop :=
  ∃ l : Table, l.Perm (tbl.filter (Matches s)) ∧ rows = l.map (selected s.columns)

/-- every row has a value (maybe `None`) in every given column -/
def HasCols (tbl : Table) (cols : List String) : Prop :=
  ∀ r ∈ tbl, ∀ c ∈ cols, (dget r c).isSome

/-- no two rows have the same value in the column -/
def UniqueIn (tbl : Table) (c : String) : Prop :=
  tbl.Pairwise fun r r' => dget r c ≠ dget r' c

/-- `out` are the values of the named columns of the row with the key `id`, or all `None` when there
is no such row -/
def FieldsOf (tbl : Table) (pk : String) (names : List String) (id : Val) (out : Val) : Prop :=
  (∃ r ∈ tbl, dget r pk = some id ∧ id ≠ .none ∧
    ∃ vs, out = .list vs ∧ List.Forall₂ (fun n v => dget r n = some v) names vs) ∨
  ((∀ r ∈ tbl, dget r pk = some id → id = .none) ∧ out = .list (names.map fun _ => .none))

/-- the table links `v` to `t` -/
def Linked (tbl : Table) (a b : String) (v t : Val) : Prop :=
  v ≠ .none ∧ ∃ r ∈ tbl, dget r a = some v ∧ dget r b = some t

/-- everything `v` is linked to, once for every row -/
def linkedTo (tbl : Table) (a b : String) (v : Val) : List Val :=
  tbl.filterMap fun r => if dget r a = some v ∧ v ≠ .none then dget r b else none

end Hiku.Sources
