import Verif.Model.Graph

/-! How a Kinko type file is read, and which types a graph declares. -/

namespace Hiku.Kinko

/-! ### The file format -/

/-- a type expression -/
inductive Doc where
  | atom (name : String)
  | option (t : Doc)
  | list (t : Doc)
  | dict (k v : Doc)
  | record (fs : List (String × Option String × Doc))

/-- a definition: name, comment, type -/
abbrev Def := String × Option String × Doc

/-- a line of the file -/
structure Line where
  indent : Nat
  words : List String
  note : Option String
  deriving DecidableEq

/-- the comment starts after two spaces and `; ` -/
def splitNote : List Char → List Char × Option (List Char)
  | ' ' :: ' ' :: ';' :: ' ' :: r => ([], some r)
  | c :: r => (c :: (splitNote r).1, (splitNote r).2)
  | [] => ([], none)

/-- the parts of a text between the separators -/
def splitAtChar (sep : Char) : List Char → List (List Char)
  | [] => [[]]
  | c :: r =>
      if c = sep then [] :: splitAtChar sep r
      else match splitAtChar sep r with
        | [] => [[c]]
        | x :: xs => (c :: x) :: xs

/-- number of leading spaces, and the rest -/
def leading : List Char → Nat × List Char
  | ' ' :: r => ((leading r).1 + 1, (leading r).2)
  | r => (0, r)

def readLine (cs : List Char) : Line :=
  let l := leading cs
  let s := splitNote l.2
  ⟨l.1, (splitAtChar ' ' s.1).map String.ofList, s.2.map String.ofList⟩

/-- an argument is a word of the line or the block below it -/
def readArg (block : List Line → Option (Doc × List Line)) (ws : List String) (ls : List Line) :
    Option (Doc × List String × List Line) :=
  match ws with
  | w :: ws => some (.atom w, ws, ls)
  | [] => match block ls with
      | some (d, ls) => some (d, [], ls)
      | none => none

/-- a single argument which ends the line -/
def readOnly (block : List Line → Option (Doc × List Line)) (ws : List String) (ls : List Line) : Option (Doc × List Line) :=
  match readArg block ws ls with
  | some (d, [], ls) => some (d, ls)
  | _ => none

mutual
/-- a block: its first line has the given indentation.  The number bounds the nesting: the number of
lines is enough. -/
def readBlock : Nat → Nat → List Line → Option (Doc × List Line)
  | n + 1, ind, ⟨i, w :: ws, none⟩ :: ls =>
      if i ≠ ind then none
      else if w = "List" then (readOnly (readBlock n (ind + 2)) ws ls).map fun x => (.list x.1, x.2)
      else if w = "Option" then (readOnly (readBlock n (ind + 2)) ws ls).map fun x => (.option x.1, x.2)
      else if w = "Dict" then
        match readArg (readBlock n (ind + 2)) ws ls with
        | some (k, ws, ls) => (readOnly (readBlock n (ind + 2)) ws ls).map fun x => (.dict k x.1, x.2)
        | none => none
      else if w = "Record" ∧ ws = [] then (readFields n (ind + 2) ls).map fun x => (.record x.1, x.2)
      else none
  | _, _, _ => none
/-- the fields of a record: the lines `:name` with the given indentation -/
def readFields : Nat → Nat → List Line → Option (List (String × Option String × Doc) × List Line)
  | n + 1, ind, ⟨i, w :: ws, note⟩ :: ls =>
      if i = ind then
        match w.toList with
        | ':' :: name =>
            match readOnly (readBlock n (ind + 2)) ws ls with
            | some (d, ls) => (readFields n ind ls).map fun x => ((String.ofList name, note, d) :: x.1, x.2)
            | none => none
        | _ => some ([], ⟨i, w :: ws, note⟩ :: ls)
      else some ([], ⟨i, w :: ws, note⟩ :: ls)
  | _ + 1, _, ls => some ([], ls)
  | 0, _, _ => none
end

/-- an empty line -/
def blank : Line := ⟨0, [""], none⟩

/-- the definitions, separated by empty lines -/
def readDefs : Nat → List Line → Option (List Def)
  | n + 1, l :: ls =>
      if l = blank then readDefs n ls
      else match l with
        | ⟨0, "type" :: name :: ws, note⟩ =>
            match readOnly (readBlock (n + 1) 2) ws ls with
            | some (d, ls) => (readDefs n ls).map fun x => (name, note, d) :: x
            | none => none
        | _ => none
  | _, [] => some []
  | 0, _ :: _ => none

/-- the file -/
def readFile (text : String) : Option (List Def) :=
  let ls := (splitAtChar '\n' text.toList).map readLine
  readDefs (ls.length + 1) ls

/-! ### What a graph declares -/

mutual
/-- a type as it is written; there are no floats in the format -/
def typeDoc : Ty → Doc
  | .any | .float => .atom "Unknown"
  | .boolean => .atom "Boolean"
  | .string => .atom "String"
  | .integer => .atom "Integer"
  | .ref n => .atom n
  | .optional t => .option (typeDoc t)
  | .sequence t => .list (typeDoc t)
  | .mapping k v => .dict (typeDoc k) (typeDoc v)
  | .record fs => .record (fieldDocs fs)
  | .callable _ => .atom ""
def fieldDocs : List (String × Ty) → List (String × Option String × Doc)
  | [] => []
  | (n, t) :: r => (n, none, typeDoc t) :: fieldDocs r
end

/-- fields and links; a field without a type is only mentioned if it has a description -/
def itemDoc : GItem → Option (String × Option String × Doc)
  | .field f =>
      match f.ty.getD .any, f.description with
      | .any, none => none
      | t, d => some (f.name, d, typeDoc t)
  | .link l => some (l.name, l.description, typeDoc l.ty)

/-- the definitions of a graph: data types, nodes as records, fields and links of the root -/
def graphDefs (g : Graph) : List Def :=
  (g.dataTypes.filterMap fun x => match x.2 with
    | .any => none
    | t => some (x.1, none, typeDoc t)) ++
  (g.items.filterMap fun n => n.name.map fun s => (s, n.description, Doc.record (n.fields.filterMap itemDoc))) ++
  g.root.fields.filterMap itemDoc

/-! ### Restrictions -/

/-- a name: not empty, no spaces and line breaks -/
def Word (s : String) : Prop := s.toList ≠ [] ∧ ' ' ∉ s.toList ∧ '\n' ∉ s.toList

/-- a description fits on its line -/
def OneLine (d : Option String) : Prop := ∀ s, d = some s → '\n' ∉ s.toList

/-- types written on the line of their owner -/
def isAtom : Ty → Bool
  | .optional _ | .sequence _ | .mapping _ _ | .record _ => false
  | _ => true

mutual
/-- types which can be written: names are words, no functions, and a mapping with a container as the key
has a container as the value -/
def Printable : Ty → Prop
  | .ref n => Word n
  | .optional t => Printable t
  | .sequence t => Printable t
  | .mapping k v => Printable k ∧ Printable v ∧ (isAtom k = false → isAtom v = false)
  | .record fs => PrintableFields fs
  | .callable _ => False
  | _ => True
def PrintableFields : List (String × Ty) → Prop
  | [] => True
  | (n, t) :: r => Word n ∧ Printable t ∧ PrintableFields r
end

/-- the names and types of an item can be written -/
def PrintableItem : GItem → Prop
  | .field f => Word f.name ∧ Printable (f.ty.getD .any) ∧ OneLine f.description
  | .link l => Word l.name ∧ Word l.node ∧ OneLine l.description

/-- the graphs which can be written: all names are words and are given once, no data type or node is called `__root__` -/
structure PrintableGraph (g : Graph) : Prop where
  names : (g.dataTypes.map (·.1) ++ g.items.filterMap (·.name)).Nodup
  notRoot : "__root__" ∉ g.dataTypes.map (·.1) ++ g.items.filterMap (·.name)
  words : ∀ n ∈ g.dataTypes.map (·.1) ++ g.items.filterMap (·.name), Word n
  fieldNames : ∀ n ∈ g.items, (n.fields.map GItem.name).Nodup
  rootNames : (g.root.fields.map GItem.name).Nodup
  dataTypes : ∀ x ∈ g.dataTypes, Printable x.2
  descriptions : ∀ n ∈ g.items, OneLine n.description
  items : ∀ n ∈ g.items, ∀ f ∈ n.fields, PrintableItem f

end Hiku.Kinko
