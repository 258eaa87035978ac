import Verif.Model.Graph

/-! `hiku.typedef.kinko.dumps`, hiku/typedef/kinko.py. -/

namespace Hiku.Kinko

/-- types (hiku/types.py) together with `TypeDoc`, kinko.py:19-26 -/
inductive KTy where
  | any | boolean | string | integer | float
  | optional (t : KTy)
  | sequence (t : KTy)
  | mapping (k v : KTy)
  | record (fs : List (String × KTy))
  | callable (args : List KTy)
  | ref (name : String)
  | doc (t : KTy) (description : String)

mutual
/-- a type without descriptions -/
def ofTy : Ty → KTy
  | .any => .any
  | .boolean => .boolean
  | .string => .string
  | .integer => .integer
  | .float => .float
  | .optional t => .optional (ofTy t)
  | .sequence t => .sequence (ofTy t)
  | .mapping k v => .mapping (ofTy k) (ofTy v)
  | .record fs => .record (ofFields fs)
  | .callable args => .callable (ofTys args)
  | .ref n => .ref n
def ofFields : List (String × Ty) → List (String × KTy)
  | [] => []
  | (n, t) :: r => (n, ofTy t) :: ofFields r
def ofTys : List Ty → List KTy
  | [] => []
  | t :: r => ofTy t :: ofTys r
end

/-- `t is Any` -/
def isAny : KTy → Bool
  | .any => true
  | _ => false

/-- `if ... obj.description is not None: t = TypeDoc(t, obj.description)`, kinko.py:33-34 -/
def withDoc (t : KTy) : Option String → KTy
  | none => t
  | some d => .doc t d

/-- `GraphTypesEx.visit` of a field or a link, kinko.py:31-35 with graph.py:544-548 -/
def itemType : GItem → KTy
  | .field f => withDoc (ofTy (f.ty.getD .any)) f.description
  | .link l => withDoc (ofTy l.ty) l.description

/-- `GraphTypes.visit_node`/`visit_root`, graph.py:538-542, filtered in `GraphTypesEx.visit_node`/`visit_root`,
kinko.py:46-54: fields whose type is `Any` are left out; a described field has the type `TypeDoc`, which
is not `Any`, and stays -/
def nodeFields (n : GNode) : List (String × KTy) :=
  dmk ((dmk (n.fields.map fun f => (f.name, itemType f))).filter fun x => !isAny x.2)

/-- `GraphTypesEx.visit_graph`, kinko.py:37-44, with `GraphTypes._visit_graph`, graph.py:518-529: the
definitions (`TypeDef[n, t]`) -/
def typeDefs (g : Graph) : List (String × KTy) :=
  let types := dupdate (g.dataTypes.map fun x => (x.1, ofTy x.2))
    (g.items.filterMap fun n => n.name.map fun s => (s, withDoc (.record (nodeFields n)) n.description))
  let root := dmk ((g.items.filter fun n => n.name.isNone).flatMap nodeFields)
  (types.filter fun x => !isAny x.2 && x.1 ≠ "__root__") ++ root.filter fun x => !isAny x.2

/-- `_IndentedPrinter.__init__`, kinko.py:84-87 -/
structure Printer where
  indent : Nat := 0
  buffer : List String := []
  descriptions : List (Nat × String) := []

def spaces (n : Nat) : String := String.ofList (List.replicate n ' ')

/-- `_print_call`, kinko.py:98-99 -/
def printCall (line : String) (p : Printer) : Printer :=
  { p with buffer := p.buffer ++ [spaces (2 * p.indent) ++ line] }

/-- `self._descriptions[len(self._buffer) - 1] = ...`, kinko.py:103-104 -/
def describe (d : String) (p : Printer) : Printer :=
  { p with descriptions := dset p.descriptions (p.buffer.length - 1) d }

/-- `self._buffer[-1] += ' ' + ...`, kinko.py:110 -/
def appendWord (w : String) (p : Printer) : Printer :=
  { p with buffer := p.buffer.modify (p.buffer.length - 1) fun l => l ++ (" " ++ w) }

/-- `_add_indent`, kinko.py:89-93 -/
def moreIndent (p : Printer) : Printer := { p with indent := p.indent + 1 }
def lessIndent (p : Printer) : Printer := { p with indent := p.indent - 1 }

mutual
/-- `_print_arg`, kinko.py:101-110, with the `visit_*` methods of both printers, kinko.py:57-78, 131-153.
`Callable` has no method in `_LinePrinter` (AttributeError).  Simplification: a `TypeDoc` of a `TypeDoc`,
which `GraphTypesEx` does not make, would be an infinite recursion. -/
def printArg : KTy → Printer → Except Err Printer
  | .doc t d, p => printArg t (describe d p)
  | .optional t, p => do
      let p ← printArg t (printCall "Option" (moreIndent p))
      .ok (lessIndent p)
  | .sequence t, p => do
      let p ← printArg t (printCall "List" (moreIndent p))
      .ok (lessIndent p)
  | .mapping k v, p => do
      let p ← printArg k (printCall "Dict" (moreIndent p))
      let p ← printArg v p
      .ok (lessIndent p)
  | .record fs, p => do
      let p ← printFields fs (moreIndent (printCall "Record" (moreIndent p)))
      .ok (lessIndent (lessIndent p))
  | .boolean, p => .ok (appendWord "Boolean" p)
  | .string, p => .ok (appendWord "String" p)
  | .integer, p => .ok (appendWord "Integer" p)
  | .float, p => .ok (appendWord "Unknown" p)
  | .ref n, p => .ok (appendWord n p)
  | .any, p => .ok (appendWord "Unknown" p)
  | .callable _, _ => .error .attributeError
/-- the loop of `visit_record`, kinko.py:138-140 -/
def printFields : List (String × KTy) → Printer → Except Err Printer
  | [], p => .ok p
  | (n, t) :: r, p => do
      let p ← printArg t (printCall (":" ++ n) p)
      printFields r p
end

/-- `visit_typedef`, kinko.py:131-133 -/
def printDef (d : String × KTy) (p : Printer) : Except Err Printer :=
  printArg d.2 (printCall ("type " ++ d.1) p)

/-- the loop of `_IndentedPrinter.dumps`, kinko.py:122-125 -/
def printDefs : Bool → List (String × KTy) → Printer → Except Err Printer
  | _, [], p => .ok p
  | first, d :: r, p => do
      let p ← printDef d (if first then p else { p with buffer := p.buffer ++ [""] })
      printDefs false r p

/-- `_iter_lines`, kinko.py:112-117 -/
def iterLines (p : Printer) : List String :=
  p.buffer.zipIdx.map fun x =>
    match dget p.descriptions x.2 with
    | some d => x.1 ++ ("  ; " ++ d)
    | none => x.1

/-- `kinko.dumps`, kinko.py:156-158 with `_IndentedPrinter.dumps`, kinko.py:119-126 -/
def dumps (g : Graph) : Except Err String := do
  let p ← printDefs true (typeDefs g) {}
  .ok (String.intercalate "\n" (iterLines p) ++ "\n")

end Hiku.Kinko
