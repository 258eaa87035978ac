import Verif.Model.Engine

/-! `store_fields` and `store_links` as programs which change the index in place: the index is
returned also when an exception is raised.  `Model/Engine.lean` uses the versions which return the new
index only on success; `storeFieldsFx_eq` and `storeLinksFx_eq` (Props/Store.lean) show that they
agree. -/

namespace Hiku

/-- `store_fields`, engine.py:152-168 -/
def storeFieldsFx (H : PyHash) (idx : Index) (node : GNode) (qfs : List QItem)
    (ids : Option (List Val)) (result : Val) : Index × Except Err Unit :=
  match checkStoreFields node qfs.length ids result with
  | .error e => (idx, .error e)
  | .ok rows =>
      let names := qfs.map (QItem.indexKey H)
      match node.name with
      | some n =>
          match ids with
          | none => (idx, .error .assertionError)
          | some ids => (storeRows idx n names (ids.zip rows), .ok ())
      | none =>
          match ids with
          | some _ => (idx, .error .assertionError)
          | none =>
              match rows with
              | [row] => (storeRow idx rootName rootIdent names row, .ok ())
              | _ => (idx, .error .assertionError)

/-- `for i, res in zip(ids, query_result): node_idx[i][key] = field_val(res)`, engine.py:246-248: the
rows before a failing one are already written -/
def storeLinkRowsFx (idx : Index) (node : String) (gl : GLink) (key : String) :
    List (Val × Val) → Index × Except Err Unit
  | [] => (idx, .ok ())
  | (i, res) :: r =>
      match linkRef gl res with
      | .error e => (idx, .error e)
      | .ok v => storeLinkRowsFx (dset idx (node, i, key) v) node gl key r

/-- `store_links`, engine.py:238-251 -/
def storeLinksFx (H : PyHash) (idx : Index) (node : GNode) (gl : GLink) (ql : QItem)
    (ids : Option (List Val)) (result : Val) : Index × Except Err Unit :=
  match checkStoreLinks node gl ids result with
  | .error e => (idx, .error e)
  | .ok _ =>
      match node.name with
      | some n =>
          match ids with
          | none => (idx, .error .assertionError)
          | some ids =>
              let rs := if gl.requires.isNone then List.replicate ids.length result
                        else result.asSeq.getD []
              storeLinkRowsFx idx n gl (ql.indexKey H) (ids.zip rs)
      | none =>
          match linkRef gl result with
          | .error e => (idx, .error e)
          | .ok v => (dset idx (rootName, rootIdent, ql.indexKey H) v, .ok ())

/-- the outcome of an in-place program as a pure function -/
def fxResult (r : Index × Except Err Unit) : Except Err Index :=
  match r.2 with
  | .ok _ => .ok r.1
  | .error e => .error e

end Hiku
