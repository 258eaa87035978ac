import Verif.Model.Db
import Verif.Spec.Sources
import Verif.Spec.Semantics

/-! Specification for C54: the data of a graph over a database is read off the tables. -/

namespace Hiku.Sources

/-- the value of a column in the row with the given primary key; `None` without such a row -/
def cellOf (tbl : Table) (pk : String) (id : Val) (col : String) : Val :=
  match tbl.find? fun r => decide (dget r pk = some id ∧ id ≠ .none) with
  | some r => (dget r col).getD .none
  | none => .none

/-- the value of a link: the linked identifiers in the order of the table; for single links the first of
them, or `Nothing` -/
def linkOf (tbl : Table) (lq : LinkQuery) : LinkType → Val → Val
  | .many, v => .list (linkedTo tbl lq.fromCol lq.toCol v)
  | _, v => ((linkedTo tbl lq.fromCol lq.toCol v).head?).getD .nothing

/-- the data in the tables -/
def tableData (src : Nat → Source) (proc : Nat → Val → Val → List Val → Val) (obj : Nat → String → Val → Prop) : Data where
  field f name o ident :=
    match src f.id, ident with
    | .fields tbl fq, some id => cellOf tbl fq.pk id name
    | .rootFields value, none => value name o
    | _, _ => .none
  link f required o :=
    match src f.id, required with
    | .link tbl lq t, some v => linkOf tbl lq t v
    | .start value, none => value o
    | _, _ => .none
  proc := proc
  obj := obj

/-- the database returns all matching rows, in the order of the table -/
def InOrder (fetch : Table → SaSelect → Except Err (List SaRow)) : Prop :=
  ∀ tbl s, fetch tbl s = .ok ((tbl.filter (Matches s)).map (selected s.columns))

/-- cells hold neither `Nothing` nor references of the engine -/
def Clean (tbl : Table) : Prop := ∀ r ∈ tbl, ∀ c v, dget r c = some v → v ≠ .nothing ∧ v.refLike = false

/-- the table can serve the field -/
structure ServesField (tbl : Table) (fq : FieldsQuery) (name : String) : Prop where
  column : name ∈ fq.cols.map (·.1)
  values : HasCols tbl [fq.pk, name]
  key : UniqueIn tbl fq.pk

/-- the table can serve the link: in single links no value is linked twice, linked objects exist -/
structure ServesLink (tbl : Table) (lq : LinkQuery) (t : LinkType) (exists_ : Val → Prop) : Prop where
  values : HasCols tbl [lq.fromCol, lq.toCol]
  clean : Clean tbl
  single : t ≠ .many → ∀ v, (linkedTo tbl lq.fromCol lq.toCol v).length ≤ 1
  foreign : ∀ v, ∀ x ∈ linkedTo tbl lq.fromCol lq.toCol v, exists_ x

/-- The graphs are over tables: fields of nodes are loaded by `FieldsQuery`, links of nodes by `LinkQuery` from the
value of a required field, fields of the root and links without requirements by functions of the user.
(Fields computed by sub-graphs are not restricted here.) -/
structure OverTables (env : Env) (src : Nat → Source) (proc : Nat → Val → Val → List Val → Val)
    (obj : Nat → String → Val → Prop) (U : String → Opts → Prop) : Prop where
  tables : ∀ f tbl fq, src f = .fields tbl fq → Clean tbl
  nodeFields : ∀ (gi : Nat) g nm gn n o gf f, env.sys.graphs[gi]? = some g → g.node nm = some gn → U n o →
    gn.get n = some (.field gf) → gf.func = .plain f →
    f.passCtx = true ∧ ∃ tbl fq, src f.id = .fields tbl fq ∧ ServesField tbl fq n
  rootFields : ∀ (gi : Nat) g n o gf f, env.sys.graphs[gi]? = some g → U n o → g.root.get n = some (.field gf) →
    gf.func = .plain f → ∃ value, src f.id = .rootFields value
  rootValues : ∀ f value n o, src f = .rootFields value → (value n o).refLike = false
  startLinks : ∀ (gi : Nat) g gn n o gl, env.sys.graphs[gi]? = some g → IsNode g gn → U n o → gn.get n = some (.link gl) →
    gl.requires = none → ∃ value, src gl.func.id = .start value ∧
      ValueShape gl.typeEnum (value (declOpts gl o)) ∧ (gl.typeEnum = .one → value (declOpts gl o) ≠ .nothing) ∧
      ∀ t ∈ targets gl.typeEnum (value (declOpts gl o)), obj gi gl.node t
  rootLinks : ∀ (gi : Nat) g n o gl, env.sys.graphs[gi]? = some g → U n o → g.root.get n = some (.link gl) → gl.requires = none
  nodeLinks : ∀ (gi : Nat) g nm gn n o gl r, env.sys.graphs[gi]? = some g → g.node nm = some gn → U n o →
    gn.get n = some (.link gl) → gl.requires = some r →
    gl.func.passCtx = true ∧ gl.options = [] ∧ ∃ tbl lq, src gl.func.id = .link tbl lq gl.typeEnum ∧
      ServesLink tbl lq gl.typeEnum (obj gi gl.node) ∧
      (gl.typeEnum = .one → ∀ i, obj gi nm i →
        linkedTo tbl lq.fromCol lq.toCol
          (semName (tableData src proc obj) (semSub env.sys (tableData src proc obj) gi) gn i r none) ≠ [])

end Hiku.Sources
