import Verif.Model.Graph

/-! # hiku/engine.py:15-57 `InitOptions`: defaults of options -/

namespace Hiku

/-- `_yield_options`, engine.py:15-23: the pairs in declaration order, TypeError for a missing
required option -/
def yieldOptions (declared : List GOption) (given : List (String × Val)) :
    Except Err (List (String × Val)) :=
  match declared with
  | [] => .ok []
  | op :: r =>
      let value := (dget given op.name).getD op.dflt
      if value = .nothing then .error .typeError
      else do
        let rest ← yieldOptions r given
        .ok ((op.name, value) :: rest)

/-- `_get_options`, engine.py:26-27 (`query_obj.options or {}`) -/
def getOptions (declared : List GOption) (o : Opts) : Except Err (List (String × Val)) := do
  let kvs ← yieldOptions declared (o.getD [])
  .ok (dmk kvs)

mutual
/-- `InitOptions.visit_field`/`visit_link`, engine.py:36-57.  `node` is `self._path[-1]`. -/
def initItem (g : Graph) (node : GNode) : QItem → Except Err QItem
  | .field n o a =>
      match node.get n with
      | none => .error .keyError
      | some gi =>
          if gi.options.isEmpty then .ok (.field n o a)
          else do
            let o' ← getOptions gi.options o
            .ok (.field n (some o') a)
  | .link n q o a =>
      match node.get n with
      | none => .error .keyError
      | some (.link gl) =>
          match g.node gl.node with
          | none => .error .keyError
          | some target => do
              let q' ← initNode g target q
              if gl.options.isEmpty then .ok (.link n q' none a)
              else do
                let o' ← getOptions gl.options o
                .ok (.link n q' (some o') a)
      | some (.field gf) =>
          if gf.options.isEmpty then .ok (.link n q none a)
          else do
            let o' ← getOptions gf.options o
            .ok (.link n q (some o') a)
/-- `QueryTransformer.visit_node`, query.py:235-236 -/
def initNode (g : Graph) (node : GNode) : QNode → Except Err QNode
  | .mk fs ord => do
      let fs' ← initItems g node fs
      .ok (.mk fs' ord)
def initItems (g : Graph) (node : GNode) : List QItem → Except Err (List QItem)
  | [] => .ok []
  | i :: r => do
      let i' ← initItem g node i
      let r' ← initItems g node r
      .ok (i' :: r')
end

/-- `InitOptions(graph).visit(query)`, engine.py:427 -/
def initOptions (g : Graph) (q : QNode) : Except Err QNode := initNode g g.root q

end Hiku
