import Verif.Model.Graph

/-! # hiku/sources/sqlalchemy.py, hiku/sources/sqlalchemy_async.py, hiku/sources/aiopg.py

SQLAlchemy and the database are outside: a `SELECT` statement is a value (`SaSelect`), fetching its
rows is a function given to the model, which the specification (Spec/Sources.lean) constrains.
Columns are known by their names; `row[column]` is a lookup in the row. -/

namespace Hiku.Sources

/-- a fetched row: `row[column]` for the selected columns -/
abbrev SaRow := List (String × Val)

/-- `select(columns).select_from(..).where(column.in_(values))`, sqlalchemy.py:58-62, 137-141;
aiopg.py:14-15, 42-43 use `column == any_(values)`, which is the same condition -/
structure SaSelect where
  columns : List String
  column : String
  values : List Val
  deriving DecidableEq

/-- column types which `_translate_type` tells apart, sqlalchemy.py:11-17 -/
inductive ColTy where
  | integer | unicode | other
  deriving DecidableEq, Repr

/-- `_translate_type`, sqlalchemy.py:11-17; `none` is `None` -/
def translateType : ColTy → Option Ty
  | .integer => some .integer
  | .unicode => some .string
  | .other => none

/-- `FieldsQuery`, sqlalchemy.py:28-37: the columns of the from clause and the primary key -/
structure FieldsQuery where
  cols : List (String × ColTy)
  pk : String

/-- `FieldsQuery.__init__` without an explicit primary key, sqlalchemy.py:30-37:
`self.primary_key, = from_clause.primary_key` -/
def FieldsQuery.make (cols : List (String × ColTy)) (tablePk : List String) (pk : Option String) :
    Except Err FieldsQuery :=
  match pk with
  | some p => .ok { cols := cols, pk := p }
  | none =>
      match tablePk with
      | [p] => .ok { cols := cols, pk := p }
      | _ => .error .valueError

/-- `self.from_clause.c[name]` -/
def FieldsQuery.column (fq : FieldsQuery) (name : String) : Except Err (String × ColTy) :=
  match dget fq.cols name with
  | some t => .ok (name, t)
  | none => .error .keyError

/-- `FieldsQuery.__postprocess__`, sqlalchemy.py:48-51 -/
def FieldsQuery.postprocess (fq : FieldsQuery) (f : GField) : Except Err GField :=
  match f.ty with
  | some _ => .ok f
  | none => do
      let c ← fq.column f.name
      .ok { f with ty := translateType c.2 }

/-- `row[column]` -/
def SaRow.cell (row : SaRow) (c : String) : Except Err Val :=
  match dget row c with
  | some v => .ok v
  | none => .error .keyError

/-- the statement of `FieldsQuery.select_expr`, sqlalchemy.py:57-62 -/
def FieldsQuery.select (fq : FieldsQuery) (fields : List QItem) (ids : List Val) :
    Except Err SaSelect := do
  let columns ← fields.mapM fun f => fq.column f.name
  .ok { columns := fq.pk :: columns.map (·.1), column := fq.pk, values := ids }

/-- `result_proc` of `FieldsQuery.select_expr`, sqlalchemy.py:64-69 -/
def FieldsQuery.resultProc (fq : FieldsQuery) (fields : List QItem) (ids : List Val)
    (rows : List SaRow) : Except Err Val := do
  let pairs ← rows.mapM fun row => do
    let k ← row.cell fq.pk
    let vs ← fields.mapM fun f => row.cell f.name
    pure (k, vs)
  let rowsMap := dmk pairs
  let nulls := fields.map fun _ => Val.none
  .ok (.list (ids.map fun i => .list ((dget rowsMap i).getD nulls)))

/-- `FieldsQuery.__call__`, sqlalchemy.py:73-83; `fetch` is
`connection.execute(expr).fetchall()` -/
def FieldsQuery.call (fetch : SaSelect → Except Err (List SaRow)) (fq : FieldsQuery)
    (fields : List QItem) (ids : List Val) : Except Err Val :=
  if ids.isEmpty then .ok (.list [])
  else do
    let expr ← fq.select fields ids
    let rows ← fetch expr
    fq.resultProc fields ids rows

/-- `_to_maybe_mapper`, sqlalchemy.py:86-88 -/
def toMaybe (pairs : List (Val × Val)) (values : List Val) : Except Err Val :=
  .ok (.list (values.map fun v => (dget (dmk pairs) v).getD .nothing))

/-- `mapping[value]` -/
def item (mapping : List (Val × Val)) (v : Val) : Except Err Val :=
  match dget mapping v with
  | some t => .ok t
  | none => .error .keyError

/-- `_to_one_mapper`, sqlalchemy.py:91-93 -/
def toOne (pairs : List (Val × Val)) (values : List Val) : Except Err Val := do
  let l ← values.mapM (item (dmk pairs))
  .ok (.list l)

/-- `mapping[from_value].append(to_value)` on a `defaultdict(list)`, sqlalchemy.py:98-99 -/
def appendAll (m : List (Val × List Val)) : List (Val × Val) → List (Val × List Val)
  | [] => m
  | (a, b) :: r => appendAll (dset m a ((dget m a).getD [] ++ [b])) r

/-- `_to_many_mapper`, sqlalchemy.py:96-100 -/
def toMany (pairs : List (Val × Val)) (values : List Val) : Except Err Val :=
  .ok (.list (values.map fun v => .list ((dget (appendAll [] pairs) v).getD [])))

/-- `LinkQuery`, sqlalchemy.py:103-112 -/
structure LinkQuery where
  fromCol : String
  toCol : String

/-- `LinkQuery.__init__`, sqlalchemy.py:105-112: the columns as pairs of table and name -/
def LinkQuery.make (fromCol toCol : String × String) : Except Err LinkQuery :=
  if fromCol.1 = toCol.1 then .ok { fromCol := fromCol.2, toCol := toCol.2 }
  else .error .valueError

/-- the function chosen by `LinkQuery.__postprocess__`, sqlalchemy.py:119-128 -/
def mapper : LinkType → List (Val × Val) → List Val → Except Err Val
  | .one => toOne
  | .maybe => toMaybe
  | .many => toMany

/-- `LinkQuery.select_expr`, sqlalchemy.py:133-144; `pySet ids` are the items of `set(ids)` in some
order.  (Values are hashable in the model.) -/
def LinkQuery.select (pySet : List Val → List Val) (lq : LinkQuery) (ids : List Val) :
    Option SaSelect :=
  let filtered := (pySet ids).filter fun i => i ≠ Val.none
  if filtered.isEmpty then none
  else some { columns := [lq.fromCol, lq.toCol], column := lq.fromCol, values := filtered }

/-- a fetched row as the pair of its labelled columns -/
def LinkQuery.pair (lq : LinkQuery) (row : SaRow) : Except Err (Val × Val) := do
  let a ← row.cell lq.fromCol
  let b ← row.cell lq.toCol
  pure (a, b)

/-- the first part of `LinkQuery.__call__`, sqlalchemy.py:146-152 -/
def LinkQuery.pairs (pySet : List Val → List Val) (fetch : SaSelect → Except Err (List SaRow))
    (lq : LinkQuery) (ids : List Val) : Except Err (List (Val × Val)) :=
  match lq.select pySet ids with
  | none => .ok []
  | some expr => do
      let rows ← fetch expr
      rows.mapM lq.pair

/-- `LinkQuery.__call__` with the mapper bound by `__postprocess__`, sqlalchemy.py:119-128, 145-153 -/
def LinkQuery.call (pySet : List Val → List Val) (fetch : SaSelect → Except Err (List SaRow))
    (lq : LinkQuery) (t : LinkType) (ids : List Val) : Except Err Val := do
  let pairs ← lq.pairs pySet fetch ids
  mapper t pairs ids

/-! ### Asynchronous sources -/

/-- `FETCH_SIZE`, sqlalchemy_async.py:5, aiopg.py:7 -/
def fetchSize : Nat := 100

/-- An open cursor: the rows not fetched yet, and how many rows the driver has ready at each
request. -/
structure Cursor where
  rows : List SaRow
  ready : Nat → Nat

/-- `fetchmany(size)`: a non-empty bucket of at most `size` rows as long as there are rows -/
def Cursor.fetchmany (c : Cursor) (size : Nat) (request : Nat) : List SaRow × Cursor :=
  let k := min size (max 1 (c.ready request))
  (c.rows.take k, { c with rows := c.rows.drop k })

/-- the loop `while True: bucket = await stream.fetchmany(FETCH_SIZE) ...`,
sqlalchemy_async.py:19-25, 41-47; aiopg.py:27-33, 51-57.  `none`: still running after `fuel`
requests. -/
def drain : Nat → Nat → Cursor → List SaRow → Option (List SaRow)
  | 0, _, _, _ => none
  | fuel + 1, request, c, rows =>
      match (c.fetchmany fetchSize request).1 with
      | [] => some rows
      | bucket => drain fuel (request + 1) (c.fetchmany fetchSize request).2 (rows ++ bucket)

/-- `fetch` of the asynchronous sources: open a cursor and drain it; `fuel` bounds the number of
requests -/
def asyncFetch (openCursor : SaSelect → Except Err Cursor) (fuel : Nat) (s : SaSelect) :
    Except Err (List SaRow) := do
  let c ← openCursor s
  match drain fuel 0 c [] with
  | some rows => .ok rows
  | none => .error .exception

end Hiku.Sources
