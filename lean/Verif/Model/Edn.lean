import Verif.Model.Val
import Std.Data.String.ToInt

/-! # hiku/edn.py

The parser is a Python coroutine which gets the characters one by one.  A suspended coroutine is a value of `PState`
(one constructor for each `yield` of `parser` and of its handlers); `feed` is `send`.

Not modelled: `Decimal`, `datetime` and `UUID` objects (their text conversions are library functions). -/

namespace Hiku

/-- the methods of Python strings which the parser uses: `str.isalpha`, `str.isdigit` (for one character) and
`float`, which returns a float, here the text of its `str`; `none` is ValueError.  `eq` is Python's `==` by which keys of
dicts and items of sets are the same (it also identifies `1`, `True` and `1.0`, and lists and tuples with the same items,
because both are tuples). -/
structure PyText where
  isalpha : Char → Bool
  isdigit : Char → Bool
  float : List Char → Option String
  eq : Val → Val → Bool := fun a b => decide (a = b)

/-- `STOP_CHARS`, edn.py:112 -/
def stopChars : List Char := [' ', ',', '\n', '\r', '\t']
/-- the characters after which a symbol ends, edn.py:193 -/
def symEnd : List Char := ['}', ']', ')'] ++ stopChars
/-- the characters of a number, edn.py:183 -/
def numChars : List Char := ['0', '1', '2', '3', '4', '5', '6', '7', '8', '9', '+', '-', 'e', 'E', 'M', 'N', '.']
/-- edn.py:252 -/
def digitChars : List Char := ['0', '1', '2', '3', '4', '5', '6', '7', '8', '9']
/-- the characters after which the name of a tag ends, edn.py:144 -/
def tagEnd : List Char := stopChars ++ ['{', '"', '[', '(', '\\', '#']

/-- suspended `parser` coroutines -/
inductive PState where
  /-- edn.py:212 without a handler -/
  | idle
  /-- edn.py:232 -/
  | comment
  /-- edn.py:237 -/
  | str (chars : List Char)
  /-- edn.py:239 -/
  | esc (chars : List Char)
  /-- edn.py:255 after `-` or `.` -/
  | dash (c : Char)
  /-- edn.py:264 after `#` -/
  | hash
  /-- with `number_handler` -/
  | num (s : List Char)
  /-- with `symbol_handler` -/
  | sym (s : List Char)
  /-- with `character_handler`; nothing is read yet in the beginning -/
  | chr (r : List Char)
  /-- with `tag_handler`, in the name -/
  | tagName (name : List Char)
  /-- with `tag_handler`, in the element, which is read by another parser -/
  | tagVal (name : List Char) (p : PState)
  /-- in a collection, whose items are read by another parser, edn.py:273 -/
  | coll (c : Char) (lst : List Val) (p : PState)

/-- the outcome of a `send`: the values sent to the target, and the parser, or its end (`return`, edn.py:227-228) -/
inductive PRes where
  | go (out : List Val) (p : PState)
  | stop (out : List Val)

/-- what was sent to the target before -/
def PRes.pre (vs : List Val) : PRes → PRes
  | .go out p => .go (vs ++ out) p
  | .stop out => .stop (vs ++ out)

/-- `_CHAR_MAP`, edn.py:120-128, used in edn.py:239-244 -/
def unescape (c : Char) : Char :=
  if c = 'a' then '\x07' else if c = 'b' then '\x08' else if c = 'f' then '\x0c' else if c = 'n' then '\n'
  else if c = 'r' then '\r' else if c = 't' then '\t' else if c = 'v' then '\x0b' else c

/-- `s.rstrip('MN')` -/
def rstripMN (s : List Char) : List Char := (s.reverse.dropWhile fun c => c = 'M' || c = 'N').reverse

/-- `parse_number`, edn.py:172-176.  `int` accepts also other decimal digits than the ASCII ones, which are not
modelled. -/
def parseNumber (P : PyText) (s : List Char) : Except Err Val :=
  let s := (rstripMN s).map Char.toUpper
  if s.contains 'E' || s.contains '.' then
    match P.float s with
    | some t => .ok (.float t)
    | none => .error .valueError
  else
    match (String.ofList s).toInt? with
    | some i => .ok (.int i)
    | none => .error .valueError

/-- the value of `symbol_handler`, edn.py:194-203 -/
def symVal (s : List Char) : Val :=
  match s with
  | ':' :: r => .kw (String.ofList r)
  | _ =>
      if s = ['t', 'r', 'u', 'e'] then .bool true
      else if s = ['f', 'a', 'l', 's', 'e'] then .bool false
      else if s = ['n', 'i', 'l'] then .none
      else .sym (String.ofList s)

/-- the value of `character_handler`, edn.py:164-168 -/
def chrVal (r : List Char) : Except Err Val :=
  match r with
  | [c] => .ok (.str (String.singleton c))
  | _ =>
      if r = ['n', 'e', 'w', 'l', 'i', 'n', 'e'] then .ok (.str "\n")
      else if r = ['s', 'p', 'a', 'c', 'e'] then .ok (.str " ")
      else if r = ['t', 'a', 'b'] then .ok (.str "\t")
      else .error .keyError

mutual
/-- values which can be hashed (`ImmutableDict.__hash__`, edn.py:14-17; a `TaggedElement` defines `__eq__` only) -/
def Val.hashable : Val → Bool
  | .atom _ => true
  | .seq .list _ | .seq .set _ => false
  | .seq _ xs => hashables xs
  | .map .dict _ => false
  | .map .edict kvs => hashableKvs kvs
  | .tagged .. => false
  | .ref _ i => i.hashable
def hashables : List Val → Bool
  | [] => true
  | x :: r => x.hashable && hashables r
def hashableKvs : List (Val × Val) → Bool
  | [] => true
  | (k, v) :: r => k.hashable && v.hashable && hashableKvs r
end

/-- `_END_CHARS`, edn.py:130-135 -/
def endChar (c : Char) : Char := if c = '[' then ']' else if c = '(' then ')' else '}'

/-- `zip(lst[::2], lst[1::2])` -/
def pairUp : List Val → List (Val × Val)
  | k :: v :: r => (k, v) :: pairUp r
  | _ => []

/-- `Set(lst)` with structural equality of the items; sets are lists without duplicates. -/
def mkSet (lst : List Val) : List Val := lst.foldl (fun acc x => if x ∈ acc then acc else acc ++ [x]) []

/-- `Set(lst)`: an item which is equal to one in the set is dropped -/
def setBy (eq : Val → Val → Bool) (lst : List Val) : List Val :=
  lst.foldl (fun acc x => if acc.any fun y => eq y x then acc else acc ++ [x]) []

/-- `d[k] = v`: the key which is in the dict stays -/
def dsetBy (eq : Val → Val → Bool) : List (Val × Val) → Val → Val → List (Val × Val)
  | [], k, v => [(k, v)]
  | (k', v') :: r, k, v => if eq k' k then (k', v) :: r else (k', v') :: dsetBy eq r k v

/-- `Dict(pairs)` -/
def dictBy (eq : Val → Val → Bool) (kvs : List (Val × Val)) : List (Val × Val) :=
  kvs.foldl (fun d kv => dsetBy eq d kv.1 kv.2) []

/-- the collection, edn.py:276-286 -/
def closeColl (P : PyText) (c : Char) (lst : List Val) : Except Err Val :=
  if c = '[' then .ok (.seq .elist lst)
  else if c = '(' then .ok (.seq .etup lst)
  else if c = '{' then
    if lst.length % 2 = 1 then .error .exception
    else if (pairUp lst).all fun kv => kv.1.hashable then .ok (.map .edict (dictBy P.eq (pairUp lst)))
    else .error .typeError
  else if hashables lst then .ok (.seq .eset (setBy P.eq lst)) else .error .typeError

/-- a `parser` without handler gets a character, edn.py:227-288 -/
def feedIdle (P : PyText) (stop : Option Char) (c : Char) : Except Err PRes :=
  if stop = some c then .ok (.stop [])
  else if c ∈ stopChars then .ok (.go [] .idle)
  else if c = ';' then .ok (.go [] .comment)
  else if c = '"' then .ok (.go [] (.str []))
  else if c = '\\' then .ok (.go [] (.chr []))
  else if c ∈ digitChars then .ok (.go [] (.num [c]))
  else if c = '-' || c = '.' then .ok (.go [] (.dash c))
  else if P.isalpha c || c = ':' then .ok (.go [] (.sym [c]))
  else if c = '#' then .ok (.go [] .hash)
  else if c = '[' || c = '(' || c = '{' then .ok (.go [] (.coll c [] .idle))
  else .error .valueError

/-- the handlers of tags, edn.py:152-155.  `none`: no handler for the tag.  A value `None` is not sent to the target
(edn.py:220). -/
def tagRes (th : String → Option (Val → Except Err Val)) (name : List Char) : PRes → Except Err PRes
  | .go [] p => .ok (.go [] (.tagVal name p))
  | .go (x :: _) _ =>
      match th (String.ofList name) with
      | some f => do
          let v ← f x
          .ok (.go (if v = .none then [] else [v]) .idle)
      | none => .ok (.go [.tagged (String.ofList name) x] .idle)
  | .stop _ => .error .exception

/-- `send`: the next character `c` for the `parser` with the given `stop`, edn.py:208-288 -/
def feed (P : PyText) (th : String → Option (Val → Except Err Val)) : Option Char → PState → Char → Except Err PRes
  | stop, .idle, c => feedIdle P stop c
  | _, .comment, c => .ok (.go [] (if c = '\n' then .idle else .comment))
  | _, .str cs, c =>
      if c = '\\' then .ok (.go [] (.esc cs))
      else if c = '"' then .ok (.go [.str (String.ofList cs)] .idle)
      else .ok (.go [] (.str (cs ++ [c])))
  | _, .esc cs, c => .ok (.go [] (.str (cs ++ [unescape c])))
  | _, .dash c1, c => .ok (.go [] (if P.isdigit c then .num [c1, c] else .sym [c1, c]))
  | _, .hash, c => .ok (.go [] (if c = '{' then .coll '#' [] .idle else .tagName [c]))
  | stop, .num s, c =>
      if c ∈ numChars then .ok (.go [] (.num (s ++ [c])))
      else do
        let v ← parseNumber P s
        let r ← feedIdle P stop c
        .ok (r.pre [v])
  | stop, .sym s, c =>
      if c ∈ symEnd then do
        let r ← feedIdle P stop c
        .ok (r.pre [symVal s])
      else .ok (.go [] (.sym (s ++ [c])))
  | stop, .chr r, c =>
      if r = [] || P.isalpha c then .ok (.go [] (.chr (r ++ [c])))
      else do
        let v ← chrVal r
        let r ← feedIdle P stop c
        .ok (r.pre [v])
  | _, .tagName n, c =>
      if c ∈ tagEnd then do
        let r ← feedIdle P none c
        tagRes th n r
      else .ok (.go [] (.tagName (n ++ [c])))
  | _, .tagVal n p, c => do
      let r ← feed P th none p c
      tagRes th n r
  | _, .coll o lst p, c => do
      let r ← feed P th (some (endChar o)) p c
      match r with
      | .go out p' => .ok (.go [] (.coll o (lst ++ out) p'))
      | .stop out => do
          let v ← closeColl P o (lst ++ out)
          .ok (.go [v] .idle)

/-- the characters one by one; a `send` to a parser which has returned is StopIteration (it does not happen without
`stop`) -/
def feedAll (P : PyText) (th : String → Option (Val → Except Err Val)) (stop : Option Char) :
    PState → List Char → Except Err (List Val × PState)
  | p, [] => .ok ([], p)
  | p, c :: cs => do
      let r ← feed P th stop p c
      match r with
      | .stop _ => .error .exception
      | .go out p' => do
          let r ← feedAll P th stop p' cs
          .ok (out ++ r.1, r.2)

/-- `loads`, edn.py:291-303 -/
def loads (P : PyText) (th : String → Option (Val → Except Err Val)) (s : List Char) : Except Err Val := do
  let r ← feedAll P th none .idle (s ++ [' '])
  match r.1 with
  | [v] => .ok v
  | _ => .error .valueError

/-! ## The encoder -/

def hexDigit (n : Nat) : Char := (['0', '1', '2', '3', '4', '5', '6', '7', '8', '9', 'a', 'b', 'c', 'd', 'e', 'f'].getD n '0')
/-- `'\\u{:04x}'` -/
def hex4 (n : Nat) : List Char :=
  ['\\', 'u', hexDigit (n / 4096 % 16), hexDigit (n / 256 % 16), hexDigit (n / 16 % 16), hexDigit (n % 16)]

/-- one character of `json.encoder.encode_basestring_ascii` (`ascii`) or `encode_basestring` -/
def escChar (ascii : Bool) (c : Char) : List Char :=
  if c = '\\' then ['\\', '\\'] else if c = '"' then ['\\', '"'] else if c = '\n' then ['\\', 'n']
  else if c = '\r' then ['\\', 'r'] else if c = '\t' then ['\\', 't'] else if c = '\x0c' then ['\\', 'f']
  else if c = '\x08' then ['\\', 'b']
  else if c.toNat < 32 then hex4 c.toNat
  else if ascii && decide (126 < c.toNat) then
    if c.toNat < 65536 then hex4 c.toNat
    else hex4 (0xd800 + (c.toNat - 65536) / 1024 % 1024) ++ hex4 (0xdc00 + (c.toNat - 65536) % 1024)
  else [c]

def ednStr (ascii : Bool) (s : List Char) : List Char := '"' :: (s.flatMap (escChar ascii) ++ ['"'])

/-- `' '.join` of the chunks, edn.py:306-321 -/
def joinSp : List (List Char) → List Char
  | [] => []
  | [a] => a
  | a :: b :: r => a ++ ' ' :: joinSp (b :: r)

mutual
/-- `_iterencode`, edn.py:328-384, with the default `default`, which raises ValueError -/
def dumps (ascii : Bool) : Val → Except Err (List Char)
  | .none => .ok ['n', 'i', 'l']
  | .bool true => .ok ['t', 'r', 'u', 'e']
  | .bool false => .ok ['f', 'a', 'l', 's', 'e']
  | .int i => .ok (toString i).toList
  | .float t => .ok t.toList
  | .kw s => .ok (':' :: s.toList)
  | .sym s => .ok s.toList
  | .str s => .ok (ednStr ascii s.toList)
  | .nothing => .error .valueError
  | .seq .list xs | .seq .elist xs => do
      let r ← dumpsList ascii xs
      .ok ('[' :: (joinSp r ++ [']']))
  | .seq .tup xs | .seq .etup xs => do
      let r ← dumpsList ascii xs
      .ok ('(' :: (joinSp r ++ [')']))
  | .map _ kvs => do
      let r ← dumpsKvs ascii kvs
      .ok ('{' :: (joinSp r ++ ['}']))
  | .seq .set xs | .seq .eset xs => do
      let r ← dumpsList ascii xs
      .ok ('#' :: '{' :: (joinSp r ++ ['}']))
  | .tagged n v => do
      let r ← dumps ascii v
      .ok ('#' :: (n.toList ++ ' ' :: r))
  | .ref .. => .error .valueError
def dumpsList (ascii : Bool) : List Val → Except Err (List (List Char))
  | [] => .ok []
  | x :: r => do
      let a ← dumps ascii x
      let b ← dumpsList ascii r
      .ok (a :: b)
/-- `chain.from_iterable(obj.items())`, edn.py:362 -/
def dumpsKvs (ascii : Bool) : List (Val × Val) → Except Err (List (List Char))
  | [] => .ok []
  | (k, v) :: r => do
      let a ← dumps ascii k
      let b ← dumps ascii v
      let c ← dumpsKvs ascii r
      .ok (a :: b :: c)
end

end Hiku
