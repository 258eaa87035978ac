import Verif.Props.EdnText

/-! # C28: what becomes of a string which is written and read back, and C60: which values are keys -/

namespace Hiku
namespace EdnText

variable {P : PyText} {th : String → Option (Val → Except Err Val)}

/-- the value of a hexadecimal digit, in lower case -/
def hexOf (c : Char) : Nat := if '0' ≤ c ∧ c ≤ '9' then c.toNat - '0'.toNat else c.toNat - 'a'.toNat + 10
/-- four hexadecimal digits of a number -/
def Hex4 (n : Nat) (t : List Char) : Prop :=
  ∃ a b c d, t = [a, b, c, d] ∧ (∀ x ∈ t, Digit x ∨ 'a' ≤ x ∧ x ≤ 'f') ∧
    ((hexOf a * 16 + hexOf b) * 16 + hexOf c) * 16 + hexOf d = n

/-- a character of a string, and what it is after it was written and read: itself, or the letter `u` and its code in
hexadecimal; above 65535, twice, for both surrogates -/
inductive Back (ascii : Bool) : Char → List Char → Prop
  | same {c} : CharOk ascii c → Back ascii c [c]
  | code {c t} : ¬CharOk ascii c → c.toNat < 65536 → Hex4 c.toNat t → Back ascii c ('u' :: t)
  | codes {c h l t t'} : ¬CharOk ascii c → h < 1024 → l < 1024 → c.toNat = 65536 + 1024 * h + l → Hex4 (0xd800 + h) t → Hex4 (0xdc00 + l) t' →
      Back ascii c ('u' :: t ++ 'u' :: t')

inductive Backs (ascii : Bool) : List Char → List Char → Prop
  | nil : Backs ascii [] []
  | cons {c t s r} : Back ascii c t → Backs ascii s r → Backs ascii (c :: s) (t ++ r)

theorem hexDigit_ok (n : Nat) (h : n < 16) : (Digit (hexDigit n) ∨ 'a' ≤ hexDigit n ∧ hexDigit n ≤ 'f') ∧ hexOf (hexDigit n) = n ∧
    hexDigit n ≠ '\\' ∧ hexDigit n ≠ '"' := by
  have : ∀ n : Fin 16, (Digit (hexDigit n) ∨ 'a' ≤ hexDigit n ∧ hexDigit n ≤ 'f') ∧ hexOf (hexDigit n) = n ∧
      hexDigit n ≠ '\\' ∧ hexDigit n ≠ '"' := by
    unfold Digit hexOf
    decide
  exact this ⟨n, h⟩

theorem hex4_ok (n : Nat) (h : n < 65536) : ∃ t, hex4 n = '\\' :: 'u' :: t ∧ Hex4 n t ∧ ∀ x ∈ t, x ≠ '\\' ∧ x ≠ '"' := by
  have h1 := hexDigit_ok (n / 4096 % 16) (by omega)
  have h2 := hexDigit_ok (n / 256 % 16) (by omega)
  have h3 := hexDigit_ok (n / 16 % 16) (by omega)
  have h4 := hexDigit_ok (n % 16) (by omega)
  refine ⟨_, rfl, ⟨_, _, _, _, rfl, ?_, ?_⟩, ?_⟩
  · intro x hx
    simp only [List.mem_cons, List.not_mem_nil, or_false] at hx
    rcases hx with rfl | rfl | rfl | rfl
    · exact h1.1
    · exact h2.1
    · exact h3.1
    · exact h4.1
  · rw [h1.2.1, h2.2.1, h3.2.1, h4.2.1]; omega
  · intro x hx
    simp only [List.mem_cons, List.not_mem_nil, or_false] at hx
    rcases hx with rfl | rfl | rfl | rfl
    · exact h1.2.2
    · exact h2.2.2
    · exact h3.2.2
    · exact h4.2.2

theorem body_plain {t b s : List Char} (ht : ∀ x ∈ t, x ≠ '\\' ∧ x ≠ '"') (h : StrBody b s) : StrBody (t ++ b) (t ++ s) := by
  induction t with
  | nil => exact h
  | cons x t ih => exact .plain (ht x (by simp)).1 (ht x (by simp)).2 (ih fun y hy => ht y (List.mem_cons_of_mem _ hy))

theorem body_hex {n : Nat} {t b s : List Char} (he : hex4 n = '\\' :: 'u' :: t) (ht : ∀ x ∈ t, x ≠ '\\' ∧ x ≠ '"') (h : StrBody b s) :
    StrBody (hex4 n ++ b) (('u' :: t) ++ s) := by
  rw [he]
  exact .esc (c := 'u') (body_plain ht h)

theorem escChar_back (ascii : Bool) (c : Char) : ∃ t, Back ascii c t ∧ ∀ {b s : List Char}, StrBody b s → StrBody (escChar ascii c ++ b) (t ++ s) := by
  unfold escChar
  by_cases e1 : c = '\\'
  · rw [if_pos e1]; subst e1; exact ⟨_, .same (.inr ⟨by decide, fun _ => by decide⟩), fun h => .esc (c := '\\') h⟩
  rw [if_neg e1]
  by_cases e2 : c = '"'
  · rw [if_pos e2]; subst e2; exact ⟨_, .same (.inr ⟨by decide, fun _ => by decide⟩), fun h => .esc (c := '"') h⟩
  rw [if_neg e2]
  by_cases e3 : c = '\n'
  · rw [if_pos e3]; subst e3; exact ⟨_, .same (.inl (by decide)), fun h => .esc (c := 'n') h⟩
  rw [if_neg e3]
  by_cases e4 : c = '\r'
  · rw [if_pos e4]; subst e4; exact ⟨_, .same (.inl (by decide)), fun h => .esc (c := 'r') h⟩
  rw [if_neg e4]
  by_cases e5 : c = '\t'
  · rw [if_pos e5]; subst e5; exact ⟨_, .same (.inl (by decide)), fun h => .esc (c := 't') h⟩
  rw [if_neg e5]
  by_cases e6 : c = '\x0c'
  · rw [if_pos e6]; subst e6; exact ⟨_, .same (.inl (by decide)), fun h => .esc (c := 'f') h⟩
  rw [if_neg e6]
  by_cases e7 : c = '\x08'
  · rw [if_pos e7]; subst e7; exact ⟨_, .same (.inl (by decide)), fun h => .esc (c := 'b') h⟩
  rw [if_neg e7]
  have hsp : c ∉ ['\n', '\r', '\t', '\x0c', '\x08'] := by simp [e3, e4, e5, e6, e7]
  by_cases h : c.toNat < 32
  · rw [if_pos h]
    obtain ⟨t, h1, h2, h3⟩ := hex4_ok c.toNat (by omega)
    refine ⟨_, .code ?_ (by omega) h2, fun hb => body_hex h1 h3 hb⟩
    rintro (h4 | h4)
    · exact hsp h4
    · omega
  rw [if_neg h]
  have h0 := h
  clear h
  by_cases h : (ascii && decide (126 < c.toNat)) = true
  · rw [if_pos h]
    simp only [Bool.and_eq_true, decide_eq_true_eq] at h
    have hno : ¬CharOk ascii c := by
      rintro (h4 | h4)
      · exact hsp h4
      · have := h4.2 h.1; omega
    by_cases h5 : c.toNat < 65536
    · rw [if_pos h5]
      obtain ⟨t, h1, h2, h3⟩ := hex4_ok c.toNat h5
      exact ⟨_, .code hno h5 h2, fun hb => body_hex h1 h3 hb⟩
    · rw [if_neg h5]
      have hv : c.toNat < 0x110000 := by
        have := c.valid
        simp only [Char.toNat, UInt32.isValidChar, Nat.isValidChar] at *
        omega
      obtain ⟨t, h1, h2, h3⟩ := hex4_ok (0xd800 + (c.toNat - 65536) / 1024 % 1024) (by omega)
      obtain ⟨t', h1', h2', h3'⟩ := hex4_ok (0xdc00 + (c.toNat - 65536) % 1024) (by omega)
      refine ⟨_, .codes hno (by omega) (by omega) ?_ h2 h2', fun hb => ?_⟩
      · omega
      · have := body_hex h1 h3 (body_hex h1' h3' hb)
        simpa using this
  · rw [if_neg h]
    simp only [Bool.and_eq_true, decide_eq_true_eq, not_and] at h
    exact ⟨[c], .same (.inr ⟨by omega, fun ha => by have := h ha; omega⟩), fun hb => .plain e1 e2 hb⟩

/-- C28 for strings, all of them: `loads(dumps(s))` is `s` with each character which is not in ASCII (with `ascii`), and
each control character without a short escape sequence, replaced by `u` and its code. -/
theorem c28_strings (hP : P.Ok) (ascii : Bool) (s : String) :
    ∃ t s', dumps ascii (.str s) = .ok t ∧ loads P th t = .ok (.str (String.ofList s')) ∧ Backs ascii s.toList s' := by
  have key : ∀ l : List Char, ∃ s', StrBody (l.flatMap (escChar ascii)) s' ∧ Backs ascii l s' := by
    intro l
    induction l with
    | nil => exact ⟨[], .nil, .nil⟩
    | cons c l ih =>
      obtain ⟨s', h1, h2⟩ := ih
      obtain ⟨t, h3, h4⟩ := escChar_back ascii c
      exact ⟨t ++ s', by rw [List.flatMap_cons]; exact h4 h1, .cons h3 h2⟩
  obtain ⟨s', h1, h2⟩ := key s.toList
  refine ⟨_, s', rfl, c60_text hP ?_, h2⟩
  have := Reads.item (P := P) (th := th) (n := ' ') (Item.str h1) .nil
  simpa [ednStr] using this

/-- so it is the same string if and only if it has no such characters -/
theorem c28_strings_iff (hP : P.Ok) (ascii : Bool) (s : String) :
    (∃ t, dumps ascii (.str s) = .ok t ∧ loads P th t = .ok (.str s)) ↔ ∀ c ∈ s.toList, CharOk ascii c := by
  have len : ∀ {l r : List Char}, Backs ascii l r → l.length ≤ r.length ∧ (l.length = r.length → ∀ c ∈ l, CharOk ascii c) ∧
      ((∀ c ∈ l, CharOk ascii c) → r = l) := by
    intro l r h
    induction h with
    | nil => exact ⟨by simp, by simp, fun _ => rfl⟩
    | @cons c t l r hb _ ih =>
      obtain ⟨i1, i2, i3⟩ := ih
      have ht : (t = [c] ∧ CharOk ascii c) ∨ (1 < t.length ∧ ¬CharOk ascii c) := by
        cases hb with
        | same h => exact .inl ⟨rfl, h⟩
        | code h _ h' => obtain ⟨a, b, c, d, rfl, _⟩ := h'; exact .inr ⟨by simp, h⟩
        | codes h _ _ _ h' h'' => obtain ⟨a, b, c, d, rfl, _⟩ := h'; exact .inr ⟨by simp, h⟩
      rcases ht with ⟨rfl, hc⟩ | ⟨ht, hc⟩
      · refine ⟨by simpa using i1, fun he x hx => ?_, fun hall => ?_⟩
        · rcases List.mem_cons.1 hx with rfl | hx
          · exact hc
          · exact i2 (by simpa using he) x hx
        · rw [i3 fun x hx => hall x (List.mem_cons_of_mem _ hx)]; rfl
      · refine ⟨by simp only [List.length_cons, List.length_append]; omega, fun he => ?_, fun hall => ?_⟩
        · simp only [List.length_cons, List.length_append] at he; omega
        · exact absurd (hall c (by simp)) hc
  obtain ⟨t, s', h1, h2, h3⟩ := c28_strings (th := th) hP ascii s
  constructor
  · rintro ⟨t', h4, h5⟩
    rw [h1] at h4; cases h4
    rw [h2] at h5
    simp only [Except.ok.injEq, Val.str, Val.atom.injEq, Atom.str.injEq] at h5
    have : s' = s.toList := by rw [← h5]; simp
    subst this
    exact (len h3).2.1 rfl
  · intro hall
    refine ⟨t, h1, ?_⟩
    rw [h2, (len h3).2.2 hall]
    simp

/-! ### Hashable values -/

/-- a value is inside of another one, or is it -/
inductive Part : Val → Val → Prop
  | self {v} : Part v v
  | item {x y k xs} : Part x y → y ∈ xs → Part x (.seq k xs)
  | key {x y v k kvs} : Part x y → (y, v) ∈ kvs → Part x (.map k kvs)
  | value {x y v k kvs} : Part x v → (y, v) ∈ kvs → Part x (.map k kvs)
  | ident {x n i} : Part x i → Part x (.ref n i)

/-- values whose types have no hash: tagged elements, and Python's mutable containers -/
def Unhashable : Val → Prop
  | .tagged .. | .seq .list _ | .seq .set _ | .map .dict _ => True
  | _ => False

theorem not_hashable_of_part {x v : Val} (hp : Part x v) (hx : x.hashable = false) : v.hashable = false := by
  induction hp with
  | self => exact hx
  | @item y k xs _ hm ih =>
    have : hashables xs = false := by
      cases h : hashables xs with
      | false => rfl
      | true => rw [hashables_iff.1 h _ hm] at ih; cases ih
    cases k <;> simp [Val.hashable, this]
  | @key y v k kvs _ hm ih =>
    cases k with
    | dict => rfl
    | edict =>
      have : ∀ kvs : List (Val × Val), (y, v) ∈ kvs → hashableKvs kvs = false := by
        intro kvs
        induction kvs with
        | nil => intro h; cases h
        | cons kv r ihr =>
          intro h
          rcases List.mem_cons.1 h with rfl | h
          · simp [hashableKvs, ih]
          · simp [hashableKvs, ihr h]
      exact this kvs hm
  | @value y v k kvs _ hm ih =>
    cases k with
    | dict => rfl
    | edict =>
      have : ∀ kvs : List (Val × Val), (y, v) ∈ kvs → hashableKvs kvs = false := by
        intro kvs
        induction kvs with
        | nil => intro h; cases h
        | cons kv r ihr =>
          intro h
          rcases List.mem_cons.1 h with rfl | h
          · simp [hashableKvs, ih]
          · simp [hashableKvs, ihr h]
      exact this kvs hm
  | ident _ ih => simp [Val.hashable, ih]

mutual
theorem part_of_not_hashable : ∀ (v : Val), v.hashable = false → ∃ x, Part x v ∧ Unhashable x
  | .atom _, h => by simp [Val.hashable] at h
  | .seq .list xs, _ => ⟨_, .self, trivial⟩
  | .seq .set xs, _ => ⟨_, .self, trivial⟩
  | .seq .tup xs, h | .seq .elist xs, h | .seq .etup xs, h | .seq .eset xs, h => by
    obtain ⟨y, hy, x, hx, hu⟩ := part_of_hashables xs (by simpa [Val.hashable] using h)
    exact ⟨x, .item hx hy, hu⟩
  | .map .dict kvs, _ => ⟨_, .self, trivial⟩
  | .map .edict kvs, h => by
    obtain ⟨k, v, hm, x, hx, hu⟩ := part_of_hashableKvs kvs (by simpa [Val.hashable] using h)
    rcases hx with hx | hx
    · exact ⟨x, .key hx hm, hu⟩
    · exact ⟨x, .value hx hm, hu⟩
  | .tagged .., _ => ⟨_, .self, trivial⟩
  | .ref n i, h => by
    obtain ⟨x, hx, hu⟩ := part_of_not_hashable i (by simpa [Val.hashable] using h)
    exact ⟨x, .ident hx, hu⟩
theorem part_of_hashables : ∀ (xs : List Val), hashables xs = false → ∃ y ∈ xs, ∃ x, Part x y ∧ Unhashable x
  | [], h => by simp [hashables] at h
  | y :: r, h => by
    cases hy : y.hashable with
    | false =>
      obtain ⟨x, hx, hu⟩ := part_of_not_hashable y hy
      exact ⟨y, by simp, x, hx, hu⟩
    | true =>
      obtain ⟨z, hz, x, hx⟩ := part_of_hashables r (by simpa [hashables, hy] using h)
      exact ⟨z, List.mem_cons_of_mem _ hz, x, hx⟩
theorem part_of_hashableKvs : ∀ (kvs : List (Val × Val)), hashableKvs kvs = false →
    ∃ k v, (k, v) ∈ kvs ∧ ∃ x, (Part x k ∨ Part x v) ∧ Unhashable x
  | [], h => by simp [hashableKvs] at h
  | (k, v) :: r, h => by
    cases hk : k.hashable with
    | false =>
      obtain ⟨x, hx, hu⟩ := part_of_not_hashable k hk
      exact ⟨k, v, by simp, x, .inl hx, hu⟩
    | true =>
      cases hv : v.hashable with
      | false =>
        obtain ⟨x, hx, hu⟩ := part_of_not_hashable v hv
        exact ⟨k, v, by simp, x, .inr hx, hu⟩
      | true =>
        obtain ⟨k', v', hm, hx⟩ := part_of_hashableKvs r (by simpa [hashableKvs, hk, hv] using h)
        exact ⟨k', v', List.mem_cons_of_mem _ hm, hx⟩
end

/-- C60: keys of maps and items of sets may be all values but those which have a tagged element (or a mutable container,
which only a handler of a tag can return) inside, at any depth. -/
theorem c60_hashable (v : Val) : v.hashable = true ↔ ∀ x, Part x v → ¬Unhashable x := by
  constructor
  · intro h x hx hu
    have : x.hashable = false := by
      match x, hu with
      | .tagged .., _ => rfl
      | .seq .list _, _ => rfl
      | .seq .set _, _ => rfl
      | .map .dict _, _ => rfl
    rw [not_hashable_of_part hx this] at h
    cases h
  · intro h
    cases hv : v.hashable with
    | true => rfl
    | false =>
      obtain ⟨x, hx, hu⟩ := part_of_not_hashable v hv
      exact absurd hu (h x hx)

/-- `#{#foo [nil]}` and `{[#foo ()] nil}` are TypeErrors -/
theorem c60_unhashable : loads exPyText noTags "#{#foo [nil]}".toList = .error .typeError ∧
    loads exPyText noTags "{[#foo ()] nil}".toList = .error .typeError := by decide +kernel

end EdnText
end Hiku
