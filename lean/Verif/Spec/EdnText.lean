import Verif.Spec.Edn

/-! Specification for C60: the grammar of EDN text, with the value of each text.

A *word* (number, symbol, keyword, character) extends to the character which ends it; an *item* (string, collection, tagged
element) ends with its own last character.  The libraries are `P : PyText`, the handlers of tags are `th`. -/

namespace Hiku
namespace EdnText

/-- whitespace and commas -/
def Space (c : Char) : Prop := c = ' ' ∨ c = ',' ∨ c = '\n' ∨ c = '\r' ∨ c = '\t'
def Closing (c : Char) : Prop := c = '}' ∨ c = ']' ∨ c = ')'
def Digit (c : Char) : Prop := '0' ≤ c ∧ c ≤ '9'
/-- the characters of a number -/
def NumChar (c : Char) : Prop := Digit c ∨ c = '+' ∨ c = '-' ∨ c = 'e' ∨ c = 'E' ∨ c = 'M' ∨ c = 'N' ∨ c = '.'
/-- the precision suffixes -/
def Suffix (s : List Char) : Prop := ∀ c ∈ s, c = 'M' ∨ c = 'N'

/-- decimal notation -/
def decimal (ds : List Char) : Nat := ds.foldl (fun n c => 10 * n + (c.toNat - '0'.toNat)) 0

/-- numbers -/
inductive Num (P : PyText) : List Char → Val → Prop where
  | int {ds suf} : ds ≠ [] → (∀ c ∈ ds, Digit c) → Suffix suf → Num P (ds ++ suf) (.int (decimal ds))
  | neg {ds suf} : ds ≠ [] → (∀ c ∈ ds, Digit c) → Suffix suf → Num P ('-' :: ds ++ suf) (.int (-(decimal ds : Int)))
  | float {b suf t} : ('.' ∈ b ∨ 'e' ∈ b ∨ 'E' ∈ b) → (∀ c ∈ b.getLast?, c ≠ 'M' ∧ c ≠ 'N') → Suffix suf →
      P.float (b.map Char.toUpper) = some t → Num P (b ++ suf) (.float t)

/-- the value of a symbol -/
inductive Sym : List Char → Val → Prop where
  | kw {s} : Sym (':' :: s) (.kw (String.ofList s))
  | true : Sym "true".toList (.bool true)
  | false : Sym "false".toList (.bool false)
  | nil : Sym "nil".toList .none
  | sym {s} : s.head? ≠ some ':' → s ≠ "true".toList → s ≠ "false".toList → s ≠ "nil".toList → Sym s (.sym (String.ofList s))

/-- the value of a character -/
inductive Chr : List Char → Val → Prop where
  | one {c} : Chr [c] (.str (String.singleton c))
  | newline : Chr "newline".toList (.str "\n")
  | space : Chr "space".toList (.str " ")
  | tab : Chr "tab".toList (.str "\t")

/-- `Word P s v e`: the text `s` has the value `v` if the next character satisfies `e` -/
inductive Word (P : PyText) : List Char → Val → (Char → Prop) → Prop where
  | num {d r v} : Digit d → (∀ c ∈ r, NumChar c) → Num P (d :: r) v → Word P (d :: r) v (fun c => ¬NumChar c)
  /-- a sign or a point, and a digit -/
  | signed {c d r v} : (c = '-' ∨ c = '.') → P.isdigit d = true → (∀ c ∈ r, NumChar c) → Num P (c :: d :: r) v →
      Word P (c :: d :: r) v (fun c => ¬NumChar c)
  | sym {c r v} : (P.isalpha c = true ∨ c = ':') → (∀ c ∈ r, ¬Closing c ∧ ¬Space c) → Sym (c :: r) v →
      Word P (c :: r) v (fun c => Closing c ∨ Space c)
  /-- a symbol which starts with `-` or `.`; its second character can be anything but a digit -/
  | dashed {c d r v} : (c = '-' ∨ c = '.') → P.isdigit d = false → (∀ c ∈ r, ¬Closing c ∧ ¬Space c) →
      Sym (c :: d :: r) v → Word P (c :: d :: r) v (fun c => Closing c ∨ Space c)
  | chr {c r v} : (∀ c ∈ r, P.isalpha c = true) → Chr (c :: r) v → Word P ('\\' :: c :: r) v (fun c => P.isalpha c = false)

/-- escape sequences in strings: `\c` is another character for some `c`, and `c` itself otherwise -/
def Escape (c : Char) : Char :=
  match c with
  | 'a' => '\x07' | 'b' => '\x08' | 'f' => '\x0c' | 'n' => '\n' | 'r' => '\r' | 't' => '\t' | 'v' => '\x0b'
  | c => c

/-- the text between the quotes, and the string -/
inductive StrBody : List Char → List Char → Prop where
  | nil : StrBody [] []
  | plain {c b s} : c ≠ '\\' → c ≠ '"' → StrBody b s → StrBody (c :: b) (c :: s)
  | esc {c b s} : StrBody b s → StrBody ('\\' :: c :: b) (Escape c :: s)

/-- the name of a tag -/
def TagName (n : List Char) : Prop :=
  ∃ c r, n = c :: r ∧ c ≠ '{' ∧ ∀ x ∈ r, ¬(Space x ∨ x ∈ ['{', '"', '[', '(', '\\', '#'])
/-- the name of a tag is followed by one of -/
def TagEnd (c : Char) : Prop := Space c ∨ c ∈ ['{', '"', '[', '(', '\\', '#']

/-- what becomes of a tagged element: the handler of the tag is called with it; an element without a handler is
kept; `none`: nothing, because the handler has returned `None` -/
inductive Tagged (th : String → Option (Val → Except Err Val)) (n : List Char) (x : Val) : Option Val → Prop where
  | plain : th (String.ofList n) = none → Tagged th n x (some (.tagged (String.ofList n) x))
  | handled {f v} : th (String.ofList n) = some f → f x = .ok v → v ≠ .none → Tagged th n x (some v)
  | dropped {f} : th (String.ofList n) = some f → f x = .ok .none → Tagged th n x none

/-- characters which may begin an element, a comment or be between elements -/
def Starts (P : PyText) (c : Char) : Prop :=
  Space c ∨ c ∈ [';', '"', '\\', '-', '.', ':', '#', '[', '(', '{'] ∨ Digit c ∨ P.isalpha c = true

/-- the values without those which are equal to an earlier one -/
def firsts (eq : Val → Val → Bool) : List Val → List Val
  | [] => []
  | x :: r => x :: (firsts eq r).filter fun y => !eq x y
/-- the value of the last of the keys which are equal to `k` -/
def lastOf (eq : Val → Val → Bool) (kvs : List (Val × Val)) (k : Val) : Val :=
  ((kvs.filter fun kv => eq k kv.1).getLast?.map (·.2)).getD .none
/-- the map: of equal keys the first one is kept, with the value of the last one -/
def mapOf (eq : Val → Val → Bool) (kvs : List (Val × Val)) : List (Val × Val) :=
  (firsts eq (kvs.map (·.1))).map fun k => (k, lastOf eq kvs k)

/-- keys and values in turn -/
def alternate (kvs : List (Val × Val)) : List Val := kvs.flatMap fun kv => [kv.1, kv.2]

mutual
/-- items with their values -/
inductive Item (P : PyText) (th : String → Option (Val → Except Err Val)) : List Char → Option Val → Prop where
  | str {b s} : StrBody b s → Item P th ('"' :: b ++ ['"']) (some (.str (String.ofList s)))
  | list {b xs} : Reads P th ']' b xs → Item P th ('[' :: b ++ [']']) (some (.seq .elist xs))
  | tup {b xs} : Reads P th ')' b xs → Item P th ('(' :: b ++ [')']) (some (.seq .etup xs))
  | map {b kvs} : Reads P th '}' b (alternate kvs) → (∀ kv ∈ kvs, kv.1.hashable = true) →
      Item P th ('{' :: b ++ ['}']) (some (.map .edict (mapOf P.eq kvs)))
  | set {b xs} : Reads P th '}' b xs → (∀ x ∈ xs, x.hashable = true) →
      Item P th ('#' :: '{' :: b ++ ['}']) (some (.seq .eset (firsts P.eq xs)))
  /-- a tag and the first element after it -/
  | tag {n c b x v} : TagName n → TagEnd c → First P th (c :: b) x → Tagged th n x v →
      Item P th ('#' :: n ++ c :: b) v
/-- the text up to the first element, with the element -/
inductive First (P : PyText) (th : String → Option (Val → Except Err Val)) : List Char → Val → Prop where
  | space {c t v} : Space c → First P th t v → First P th (c :: t) v
  | comment {b t v} : '\n' ∉ b → First P th t v → First P th (';' :: b ++ '\n' :: t) v
  | skip {i t v} : Item P th i none → First P th t v → First P th (i ++ t) v
  | item {i v} : Item P th i (some v) → First P th i v
  /-- the character which ends a word is swallowed -/
  | word {s v e c} : Word P s v e → e c → Starts P c → First P th (s ++ [c]) v
/-- `Reads P th n t vs`: the text `t`, followed by the character `n`, is the sequence `vs` of elements -/
inductive Reads (P : PyText) (th : String → Option (Val → Except Err Val)) : Char → List Char → List Val → Prop where
  | nil {n} : Reads P th n [] []
  | space {n c t vs} : Space c → Reads P th n t vs → Reads P th n (c :: t) vs
  | comment {n b t vs} : '\n' ∉ b → Reads P th n t vs → Reads P th n (';' :: b ++ '\n' :: t) vs
  | skip {n i t vs} : Item P th i none → Reads P th n t vs → Reads P th n (i ++ t) vs
  | item {n i v t vs} : Item P th i (some v) → Reads P th n t vs → Reads P th n (i ++ t) (v :: vs)
  | word {n s v e t vs} : Word P s v e → e ((t ++ [n]).head (by simp)) → Reads P th n t vs →
      Reads P th n (s ++ t) (v :: vs)
end

/-- the beginning of an element or a comment, up to a place inside of it -/
inductive Begun (P : PyText) (th : String → Option (Val → Except Err Val)) : List Char → Prop where
  | comment {b} : '\n' ∉ b → Begun P th (';' :: b)
  | str {b s} : StrBody b s → Begun P th ('"' :: b)
  | esc {b s} : StrBody b s → Begun P th ('"' :: b ++ ['\\'])
  | num {d r} : Digit d → (∀ c ∈ r, NumChar c) → Begun P th (d :: r)
  | dash {c} : (c = '-' ∨ c = '.') → Begun P th [c]
  | signed {c d r} : (c = '-' ∨ c = '.') → P.isdigit d = true → (∀ c ∈ r, NumChar c) → Begun P th (c :: d :: r)
  | sym {c r} : (P.isalpha c = true ∨ c = ':') → (∀ c ∈ r, ¬Closing c ∧ ¬Space c) → Begun P th (c :: r)
  | dashed {c d r} : (c = '-' ∨ c = '.') → P.isdigit d = false → (∀ c ∈ r, ¬Closing c ∧ ¬Space c) → Begun P th (c :: d :: r)
  | slash : Begun P th ['\\']
  | chr {c r} : (∀ c ∈ r, P.isalpha c = true) → Begun P th ('\\' :: c :: r)
  | hash : Begun P th ['#']
  | tagName {n} : TagName n → Begun P th ('#' :: n)
  /-- a tag without an element yet -/
  | tag {n c b} : TagName n → TagEnd c → Reads P th ' ' (c :: b) [] → Begun P th ('#' :: n ++ c :: b)
  /-- a tag and the beginning of an element, with no other element before it -/
  | tagged {n k u} : TagName n → (∃ c ∈ (k ++ u).head?, TagEnd c) → Reads P th ' ' k [] → Begun P th u →
      Begun P th ('#' :: n ++ k ++ u)
  | coll {o b xs} : o ∈ ["[", "(", "{", "#{"] → Reads P th ' ' b xs → Begun P th (o.toList ++ b)
  | inside {o c b xs u} : o ∈ ["[", "(", "{", "#{"] → Reads P th c b xs → Begun P th (c :: u) → Begun P th (o.toList ++ b ++ c :: u)

/-- the value of a document.  The reader adds a space to the text.  There is one element, and nothing else but comments, space,
and the beginning of an element which is not finished.  (`n`: whatever follows) -/
def Document (P : PyText) (th : String → Option (Val → Except Err Val)) (t : List Char) (v : Val) : Prop :=
  ∃ a u, t ++ [' '] = a ++ u ∧ (∀ n, Reads P th ((u ++ [n]).head (by simp)) a [v]) ∧ (u = [] ∨ Begun P th u)

end EdnText
end Hiku
