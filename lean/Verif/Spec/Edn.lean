import Verif.Model.Edn

/-! Specification for C28: the EDN values which round-trip -/

namespace Hiku

/-- what is assumed about the Python library: ASCII characters are letters and digits as usual -/
structure PyText.Ok (P : PyText) : Prop where
  alpha : ∀ c : Char, c.toNat < 128 → P.isalpha c = c.isAlpha
  digit : ∀ c : Char, c.toNat < 128 → P.isdigit c = c.isDigit
  /-- `==` is an equivalence, and keywords are equal when their names are -/
  refl : ∀ a, P.eq a a = true
  symm : ∀ a b, P.eq a b = true → P.eq b a = true
  trans : ∀ a b c, P.eq a b = true → P.eq b c = true → P.eq a c = true
  kw : ∀ a b, P.eq (.kw a) (.kw b) = true → a = b

/-- no two of them are equal -/
def Distinct (P : PyText) (l : List Val) : Prop := l.Pairwise fun a b => P.eq a b = false

instance (P : PyText) (l : List Val) : Decidable (Distinct P l) := by unfold Distinct; infer_instance

/-- the text of a finite float: a decimal number with a point or an exponent, which `float` reads back -/
def FloatText (P : PyText) (t : List Char) : Prop :=
  (∃ d r, d ∈ digitChars ∧ (t = d :: r ∨ t = '-' :: d :: r)) ∧
  (∀ c ∈ t, c ∈ digitChars ∨ c ∈ ['.', 'e', '+', '-']) ∧ ('.' ∈ t ∨ 'e' ∈ t) ∧
  P.float (t.map Char.toUpper) = some (String.ofList t)

/-- characters which the encoder does not write as `\uXXXX` -/
def CharOk (ascii : Bool) (c : Char) : Prop :=
  c ∈ ['\n', '\r', '\t', '\x0c', '\x08'] ∨ (32 ≤ c.toNat ∧ (ascii = true → c.toNat ≤ 126))

/-- a symbol starts with a letter, or with `-` or `.` and a character which is not a digit (and may be anything else); the other
characters are not whitespace, commas and closing brackets; and it is not one of `true`, `false`, `nil` -/
def SymOk (P : PyText) (s : List Char) : Prop :=
  ((∃ c r, s = c :: r ∧ P.isalpha c = true ∧ ∀ x ∈ r, x ∉ symEnd) ∨
   (∃ c c' r, s = c :: c' :: r ∧ (c = '-' ∨ c = '.') ∧ P.isdigit c' = false ∧ ∀ x ∈ r, x ∉ symEnd)) ∧
  s ≠ ['t', 'r', 'u', 'e'] ∧ s ≠ ['f', 'a', 'l', 's', 'e'] ∧ s ≠ ['n', 'i', 'l']

/-- the name of a tag without a handler -/
def TagOk (th : String → Option (Val → Except Err Val)) (n : String) : Prop :=
  th n = none ∧ ∃ c r, n.toList = c :: r ∧ c ≠ '{' ∧ ∀ x ∈ r, x ∉ tagEnd

/-- values whose text ends with a bracket or a quote -/
def Val.Delimited : Val → Prop
  | .str _ | .seq .. | .map .. => True
  | .tagged _ v => v.Delimited
  | _ => False

/-- a tagged value whose text does not end with a bracket or a quote: the parser takes the next character, whatever it
is, as the end of the value and drops it -/
def Val.Dangling : Val → Prop
  | .tagged _ v => ¬ v.Delimited
  | _ => False

/-- the last item, which is followed by the closing bracket, is not such a value -/
def LastOk (xs : List Val) : Prop := ∀ x, xs.getLast? = some x → ¬ x.Dangling

mutual
/-- the values -/
def EdnVal (P : PyText) (th : String → Option (Val → Except Err Val)) (ascii : Bool) : Val → Prop
  | .none | .bool _ | .int _ => True
  | .float t => FloatText P t.toList
  | .str s => ∀ c ∈ s.toList, CharOk ascii c
  | .kw s => ∀ c ∈ s.toList, c ∉ symEnd
  | .sym s => SymOk P s.toList
  | .seq .elist xs | .seq .etup xs => EdnVals P th ascii xs ∧ LastOk xs
  | .map .edict kvs => EdnKvs P th ascii kvs ∧ LastOk (kvs.map (·.2)) ∧ Distinct P (kvs.map (·.1)) ∧ ∀ kv ∈ kvs, kv.1.hashable = true
  | .seq .eset xs => EdnVals P th ascii xs ∧ Distinct P xs ∧ hashables xs = true
  | .tagged n v => TagOk th n ∧ EdnVal P th ascii v
  | _ => False
def EdnVals (P : PyText) (th : String → Option (Val → Except Err Val)) (ascii : Bool) : List Val → Prop
  | [] => True
  | x :: r => EdnVal P th ascii x ∧ EdnVals P th ascii r
def EdnKvs (P : PyText) (th : String → Option (Val → Except Err Val)) (ascii : Bool) : List (Val × Val) → Prop
  | [] => True
  | (k, v) :: r => EdnVal P th ascii k ∧ EdnVal P th ascii v ∧ EdnKvs P th ascii r
end

mutual
/-- the values, whatever the last items of the collections are -/
def LooseVal (P : PyText) (th : String → Option (Val → Except Err Val)) (ascii : Bool) : Val → Prop
  | .none | .bool _ | .int _ => True
  | .float t => FloatText P t.toList
  | .str s => ∀ c ∈ s.toList, CharOk ascii c
  | .kw s => ∀ c ∈ s.toList, c ∉ symEnd
  | .sym s => SymOk P s.toList
  | .seq .elist xs | .seq .etup xs => LooseVals P th ascii xs
  | .map .edict kvs => LooseKvs P th ascii kvs ∧ Distinct P (kvs.map (·.1)) ∧ ∀ kv ∈ kvs, kv.1.hashable = true
  | .seq .eset xs => LooseVals P th ascii xs ∧ Distinct P xs ∧ hashables xs = true
  | .tagged n v => TagOk th n ∧ LooseVal P th ascii v
  | _ => False
def LooseVals (P : PyText) (th : String → Option (Val → Except Err Val)) (ascii : Bool) : List Val → Prop
  | [] => True
  | x :: r => LooseVal P th ascii x ∧ LooseVals P th ascii r
def LooseKvs (P : PyText) (th : String → Option (Val → Except Err Val)) (ascii : Bool) : List (Val × Val) → Prop
  | [] => True
  | (k, v) :: r => LooseVal P th ascii k ∧ LooseVal P th ascii v ∧ LooseKvs P th ascii r
end

mutual
/-- somewhere in the value the last item of a list or tuple, or the last value of a map, is a tagged value without
delimiter -/
def Val.EndsBadly : Val → Prop
  | .seq _ xs => ¬ LastOk xs ∨ anyBad xs
  | .map _ kvs => ¬ LastOk (kvs.map (·.2)) ∨ anyBadKvs kvs
  | .tagged _ v => v.EndsBadly
  | _ => False
def anyBad : List Val → Prop
  | [] => False
  | x :: r => x.EndsBadly ∨ anyBad r
def anyBadKvs : List (Val × Val) → Prop
  | [] => False
  | (k, v) :: r => k.EndsBadly ∨ v.EndsBadly ∨ anyBadKvs r
end

end Hiku
