import Verif.Model.Sources
import Verif.Model.Engine

/-! The data functions of a graph over a database: `FieldsQuery` and `LinkQuery` (hiku/sources/sqlalchemy.py and the
asynchronous versions) called by the engine. -/

namespace Hiku.Sources

/-- The data functions of a graph: a `FieldsQuery` on a table, a `LinkQuery` on a table with the mapper bound by
`__postprocess__` (sqlalchemy.py:119-128), functions of the user for fields of the root and for links
without requirements. -/
inductive Source where
  | fields (tbl : List SaRow) (fq : FieldsQuery)
  | link (tbl : List SaRow) (lq : LinkQuery) (t : LinkType)
  | rootFields (value : String → Opts → Val)
  | start (value : Opts → Val)

/-- Calls: `FieldsQuery.__call__(ctx, fields, ids)`, sqlalchemy.py:73; `partial(LinkQuery.__call__, mapper)(ctx, ids)`,
sqlalchemy.py:119-128, 146; a wrong number of arguments is a TypeError. -/
def Source.call (pySet : List Val → List Val) (fetch : List SaRow → SaSelect → Except Err (List SaRow)) :
    Source → List Arg → Except Err Val
  | .fields tbl fq, [.ctx, .fields qfs, .ids ids] => fq.call (fetch tbl) qfs ids
  | .link tbl lq t, [.ctx, .val (.seq .list ids)] => lq.call pySet (fetch tbl) t ids
  | .rootFields value, [.fields qfs] => .ok (.list (qfs.map fun q => value q.name q.options))
  | .rootFields value, [.ctx, .fields qfs] => .ok (.list (qfs.map fun q => value q.name q.options))
  | .start value, [] => .ok (value none)
  | .start value, [.ctx] => .ok (value none)
  | .start value, [.opts o] => .ok (value o)
  | .start value, [.ctx, .opts o] => .ok (value o)
  | _, _ => .error .typeError

end Hiku.Sources
