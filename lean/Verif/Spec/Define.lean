import Verif.Spec.ExprTypes
import Verif.Model.Define

/-! Specification for C57: what an annotation by the text of a query asks for -/

namespace Hiku.Expr

mutual
/-- annotations without options: `[:a {:b [...]} ...]` -/
def Annotation : Val → Prop
  | .seq .elist xs => AnnotationItems xs
  | _ => False
def AnnotationItems : List Val → Prop
  | [] => True
  | .kw _ :: r => AnnotationItems r
  | .map .edict kvs :: r => AnnotationLinks kvs ∧ AnnotationItems r
  | _ :: _ => False
def AnnotationLinks : List (Val × Val) → Prop
  | [] => True
  | (.kw _, v) :: r => Annotation v ∧ AnnotationLinks r
  | _ :: _ => False
end

/-- the annotation asks for the value at the path -/
inductive Wants : Val → List String → Prop
  | field (xs n) : Val.kw n ∈ xs → Wants (.seq .elist xs) [n]
  | link (xs kvs n v) : Val.map .edict kvs ∈ xs → (Val.kw n, v) ∈ kvs → Wants (.seq .elist xs) [n]
  | deeper (xs kvs n v p) : Val.map .edict kvs ∈ xs → (Val.kw n, v) ∈ kvs → Wants v p → Wants (.seq .elist xs) (n :: p)

/-- the annotation needs an object at the path -/
inductive WantsObject : Val → List String → Prop
  | top (xs) : WantsObject (.seq .elist xs) []
  | deeper (xs kvs n v p) : Val.map .edict kvs ∈ xs → (Val.kw n, v) ∈ kvs → WantsObject v p →
      WantsObject (.seq .elist xs) (n :: p)

/-- the query asks for the value at the path -/
inductive AsksFor : QNode → List String → Prop
  | item (q i) : i ∈ q.fields → AsksFor q [i.name]
  | deeper (q n q' o a p) : QItem.link n q' o a ∈ q.fields → AsksFor q' p → AsksFor q (n :: p)

/-- the query asks for an object at the path -/
inductive AsksObject : QNode → List String → Prop
  | top (q) : AsksObject q []
  | deeper (q n q' o a p) : QItem.link n q' o a ∈ q.fields → AsksObject q' p → AsksObject q (n :: p)

/-- the path leads from the type through records to a type with the property `P` -/
inductive Leads (types : List (String × Ty)) (P : Ty → Prop) : Ty → List String → Prop
  | here (t t') : Resolves types t t' → P t' → Leads types P t []
  | step (t fs n t' p) : Resolves types t (.record fs) → dget fs n = some t' → Leads types P t' p → Leads types P t (n :: p)

/-- a known type -/
def anyTy (_ : Ty) : Prop := True
/-- the type of objects -/
def objTy (t : Ty) : Prop := ∃ fs, t = .record fs

end Hiku.Expr
