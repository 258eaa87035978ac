import Verif.Model.Validate

/-! # hiku/graph.py: `GraphTransformer`, `apply`; the transformers of hiku/telemetry/prometheus.py and
hiku/introspection/graphql.py are instances of the same traversal -/

namespace Hiku.Transform

/-- the items of a constructed graph as the arguments of `Graph(items, data_types)` -/
def rawItem (i : GItem) : RawField := .item i true
def rawNode (n : GNode) : RawNode := .node n.name (n.fields.map rawItem)

/-- `Graph(items, data_types)`, graph.py:347-357: validation of the items, then `GraphInit`, which changes
nothing when the functions of the fields and links are initialized already (`Func`). -/
def buildGraph (items : List GNode) (types : List (String × Ty)) : Except Err Graph :=
  if (graphErrors (items.map rawNode)).isEmpty then .ok { items := items, dataTypes := types }
  else .error .graphValidationError

/-- What a transformer does besides the traversal of `GraphTransformer`, with its own state `σ`:
* `field`, `link`: what `visit_field`, `visit_link` do with the result of `super().visit_...`; the first
  argument is the name of the node (`none` on the root);
* `more`: what `visit_node`, `visit_root` append to the fields;
* `items`: what `visit_graph` appends to the items. -/
structure Hooks (σ : Type) where
  field : Option String → GField → σ → GField × σ := fun _ f s => (f, s)
  link : Option String → GLink → σ → GLink × σ := fun _ l s => (l, s)
  more : Option String → List GItem := fun _ => []
  items : List GNode := []

section
variable {σ : Type} (h : Hooks σ)

/-- `GraphTransformer.visit_option`, graph.py:454-456 -/
def visitOption (o : GOption) : GOption :=
  { name := o.name, ty := o.ty, dflt := o.dflt, description := o.description }

/-- `GraphTransformer.visit_field`, graph.py:458-461 -/
def baseField (f : GField) : GField :=
  { name := f.name, ty := f.ty, func := f.func, options := f.options.map visitOption
    description := f.description }

/-- `GraphTransformer.visit_link`, graph.py:463-467: the constructor computes the kind of the link and the
node from the type (graph.py:236-245) -/
def baseLink (l : GLink) : Except Err GLink :=
  match getTypeEnum l.ty with
  | none => .error .typeError
  | some (te, node) =>
      .ok { name := l.name, typeEnum := te, node := node, func := l.func, requires := l.requires
            options := l.options.map visitOption, description := l.description }

/-- `[self.visit(f) for f in obj.fields]` -/
def visitItems (nm : Option String) : List GItem → σ → Except Err (List GItem × σ)
  | [], s => .ok ([], s)
  | .field f :: r, s => do
      let x := h.field nm (baseField f) s
      let y ← visitItems nm r x.2
      .ok (.field x.1 :: y.1, y.2)
  | .link l :: r, s => do
      let l' ← baseLink l
      let x := h.link nm l' s
      let y ← visitItems nm r x.2
      .ok (.link x.1 :: y.1, y.2)

/-- `GraphTransformer.visit_node` and `visit_root`, graph.py:469-474; a `Root` has no description -/
def visitNode (n : GNode) (s : σ) : Except Err (GNode × σ) := do
  let x ← visitItems h n.name n.fields s
  .ok ({ name := n.name, fields := x.1 ++ h.more n.name
         description := if n.name.isNone then none else n.description }, x.2)

/-- `[self.visit(node) for node in obj.items]` -/
def visitNodes : List GNode → σ → Except Err (List GNode × σ)
  | [], s => .ok ([], s)
  | n :: r, s => do
      let x ← visitNode h n s
      let y ← visitNodes r x.2
      .ok (x.1 :: y.1, y.2)

/-- `GraphTransformer.visit_graph`, graph.py:476-478 -/
def visitGraph (g : Graph) (s : σ) : Except Err (Graph × σ) := do
  let x ← visitNodes h g.items s
  let g' ← buildGraph (x.1 ++ h.items) g.dataTypes
  .ok (g', x.2)

end

/-- the transformer without overridden methods: `GraphTransformer().visit` -/
def baseVisit (g : Graph) : Except Err Graph := do
  let x ← visitGraph ({} : Hooks Unit) g ()
  .ok x.1

/-- `apply(graph, transformers)`, graph.py:481-491 -/
def apply (g : Graph) (ts : List (Graph → Except Err Graph)) : Except Err Graph :=
  ts.foldlM (fun g t => t g) g

end Hiku.Transform
