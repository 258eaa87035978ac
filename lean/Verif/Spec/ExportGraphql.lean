import Verif.Model.ExportGraphql

/-! Specification for C31 -/

namespace Hiku

mutual
/-- JSON values: null, booleans, numbers, strings, lists, and dicts with distinct strings for keys -/
def Json : Val → Prop
  | .none | .bool _ | .int _ | .float _ | .str _ => True
  | .seq .list xs => JsonList xs
  | .map .dict kvs => JsonKvs kvs ∧ (kvs.map (·.1)).Nodup
  | _ => False
def JsonList : List Val → Prop
  | [] => True
  | x :: r => Json x ∧ JsonList r
def JsonKvs : List (Val × Val) → Prop
  | [] => True
  | (k, v) :: r => (∃ s, k = .str s) ∧ Json v ∧ JsonKvs r
end

/-- options: distinct names, JSON values -/
def JsonOpts (o : Opts) : Prop := ∀ kvs ∈ o, (kvs.map (·.1)).Nodup ∧ ∀ kv ∈ kvs, Json kv.2

mutual
/-- all the options in the query are JSON -/
def JsonItem : QItem → Prop
  | .field _ o _ => JsonOpts o
  | .link _ q o _ => JsonOpts o ∧ JsonQuery q
def JsonQuery : QNode → Prop
  | .mk fs _ => JsonItems fs
def JsonItems : List QItem → Prop
  | [] => True
  | i :: r => JsonItem i ∧ JsonItems r
end

/-- GraphQL does not distinguish missing and empty arguments -/
def noEmpty : Opts → Opts
  | some [] => none
  | o => o

mutual
/-- the query with `None` in place of the option dicts `{}` and without `ordered` -/
def gqlItem : QItem → QItem
  | .field n o a => .field n (noEmpty o) a
  | .link n q o a => .link n (gqlQuery q) (noEmpty o) a
def gqlQuery : QNode → QNode
  | .mk fs _ => .mk (gqlItems fs) false
def gqlItems : List QItem → List QItem
  | [] => []
  | i :: r => gqlItem i :: gqlItems r
end

mutual
/-- no `ordered` nodes and no `{}` for options -/
def TidyItem : QItem → Prop
  | .field _ o _ => o ≠ some []
  | .link _ q o _ => o ≠ some [] ∧ TidyQuery q
def TidyQuery : QNode → Prop
  | .mk fs ord => ord = false ∧ TidyItems fs
def TidyItems : List QItem → Prop
  | [] => True
  | i :: r => TidyItem i ∧ TidyItems r
end

end Hiku
