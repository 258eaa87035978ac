import Verif.Proofs.EdnText
import Verif.Props.Edn

/-! # C60: what `loads` reads is exactly the EDN grammar -/

namespace Hiku
namespace EdnText

variable {P : PyText} {th : String → Option (Val → Except Err Val)}

/-- C60: `loads` returns `v` for a text if and only if the text is a document with the value `v`. -/
theorem c60_exact (hP : P.Ok) {t : List Char} {v : Val} : loads P th t = .ok v ↔ Document P th t v := by
  constructor
  · intro h
    unfold loads at h
    rw [bind_ok_iff] at h
    obtain ⟨⟨vs, p⟩, h1, h2⟩ := h
    obtain ⟨a, u, e1, e2, e3⟩ := feedAll_in hP (a := []) (u := []) (vs := []) (fun _ => .nil) .idle h1
    dsimp only at h2
    split at h2
    · cases h2
      exact ⟨a, u, by simpa using e1, by simpa using e2, e3.begun⟩
    · cases h2
  · rintro ⟨a, u, e1, e2, e3⟩
    have key : ∃ p, feedAll P th none .idle (t ++ [' ']) = .ok ([v], p) := by
      rw [e1]
      cases u with
      | nil =>
        rw [List.append_nil]
        exact ⟨_, reads_all hP e2⟩
      | cons c u =>
        rcases e3 with e3 | e3
        · cases e3
        · obtain ⟨p, hp⟩ := begun_run hP e3 stopOk_none
          have := (reads_run hP (e2 ' ')).andThen stopOk_none hp
          exact ⟨p, by simpa using this⟩
    obtain ⟨p, hp⟩ := key
    unfold loads
    rw [hp]
    rfl

/-- C60: a text which is one element, with space and comments, has its value. -/
theorem c60_text (hP : P.Ok) {t : List Char} {v : Val} (h : Reads P th ' ' t [v]) : loads P th t = .ok v := by
  have h1 : feed P th none .idle ' ' = .ok (.go [] .idle) := by rw [feed]; exact idle_space stopOk_none (.inl rfl)
  have := (reads_run hP h).next stopOk_none h1
  unfold loads
  rw [this]
  rfl

/-- C60: a text has at most one value. -/
theorem c60_unique (hP : P.Ok) {t : List Char} {v v' : Val} (h : Document P th t v) (h' : Document P th t v') : v = v' := by
  have := (c60_exact hP).2 h
  rw [(c60_exact hP).2 h'] at this
  cases this; rfl

/-- C60: space and commas before, after and a comment after an element change nothing. -/
theorem c60_space (hP : P.Ok) {t a b : List Char} {v : Val} (h : Reads P th ' ' t [v]) (ha : ∀ c ∈ a, Space c)
    (hb : '\n' ∉ b) : loads P th (a ++ t ++ " ;".toList ++ b ++ ['\n']) = .ok v := by
  apply c60_text hP
  have h1 : Reads P th ' ' (a ++ t) [v] := by
    induction a with
    | nil => exact h
    | cons c a ih => exact .space (ha c (by simp)) (ih fun x hx => ha x (by simp [hx]))
  have h2 : Reads P th ' ' (" ;".toList ++ b ++ ['\n']) [] := .space (c := ' ') (.inl rfl) (.comment hb .nil)
  have := reads_append (n := ' ') h2 rfl h1
  simpa using this

/-! ### The hypotheses are met, and what a user may not expect -/

/-- `[\\newline 12N;c⏎"x\\n"]`: a character, a number with a suffix, a comment which ends the number, a string with an escape sequence -/
def exDocText : List Char :=
  ['[', '\\', 'n', 'e', 'w', 'l', 'i', 'n', 'e', ' ', '1', '2', 'N', ';', 'c', '\n', '"', 'x', '\\', 'n', '"', ']']

theorem exDoc_reads : Reads exPyText noTags ' ' exDocText [.seq .elist [.str "\n", .int 12, .str "x\n"]] := by
  have h3 : Reads exPyText noTags ']' ['"', 'x', '\\', 'n', '"'] [.str "x\n"] :=
    .item (i := ['"', 'x', '\\', 'n', '"']) (t := []) (.str (b := ['x', '\\', 'n']) (s := ['x', '\n']) (.plain (by decide) (by decide) (.esc (c := 'n') .nil))) .nil
  have h2 : Reads exPyText noTags ']' ['1', '2', 'N', ';', 'c', '\n', '"', 'x', '\\', 'n', '"'] [.int 12, .str "x\n"] :=
    .word (s := ['1', '2', 'N']) (t := [';', 'c', '\n', '"', 'x', '\\', 'n', '"'])
      (.num (d := '1') (r := ['2', 'N']) ⟨by decide, by decide⟩
        (by intro c hc; simp at hc; rcases hc with rfl | rfl
            · exact .inl ⟨by decide, by decide⟩
            · exact .inr (by decide))
        (.int (ds := ['1', '2']) (suf := ['N']) (by simp)
          (by intro c hc; simp at hc; rcases hc with rfl | rfl <;> exact ⟨by decide, by decide⟩)
          (by intro c hc; simp at hc; exact .inr hc)))
      (by rintro (h | h)
          · exact absurd h.2 (by decide)
          · revert h; decide)
      (.comment (b := ['c']) (by decide) h3)
  have h1 : Reads exPyText noTags ']' (exDocText.drop 1).dropLast [.str "\n", .int 12, .str "x\n"] :=
    .word (s := ['\\', 'n', 'e', 'w', 'l', 'i', 'n', 'e']) (t := ' ' :: ['1', '2', 'N', ';', 'c', '\n', '"', 'x', '\\', 'n', '"'])
      (.chr (c := 'n') (r := ['e', 'w', 'l', 'i', 'n', 'e']) (by decide) .newline) (by decide) (.space (.inl rfl) h2)
  exact .item (i := exDocText) (t := []) (.list h1) .nil

example : loads exPyText noTags exDocText = .ok (.seq .elist [.str "\n", .int 12, .str "x\n"]) := c60_text exPyText_ok exDoc_reads

/-- what comes after the element and is not finished is silently dropped: `nil [foo "bar` is `nil` -/
theorem c60_truncated : loads exPyText noTags "nil [foo \"bar".toList = .ok .none := by decide +kernel

/-- the character after a tagged word is swallowed: in `[#a \\b"c"]` the quote is lost, and the string becomes a symbol -/
theorem c60_swallowed : loads exPyText noTags "[#a \\b\"c\"]".toList =
    .ok (.seq .elist [.tagged "a" (.str "b"), .sym "c\""]) := by decide +kernel

/-- unknown names of characters are errors, as are characters which begin nothing and unfinished elements; texts which `float` does not
read (here `2.5`); maps with a key without a value -/
theorem c60_rejected : loads exPyText noTags "\\foo".toList = .error .keyError ∧
    loads exPyText noTags "@".toList = .error .valueError ∧ loads exPyText noTags "[nil".toList = .error .valueError ∧
    loads exPyText noTags "nil nil".toList = .error .valueError ∧
    loads exPyText noTags "2.5".toList = .error .valueError ∧ loads exPyText noTags "{nil}".toList = .error .exception := by decide +kernel

/-! ### Keys which are equal in Python -/

mutual
/-- `True` is `1`, and a list equals the tuple of the same items: edn.py:52, 58, both are tuples -/
def norm : Val → Val
  | .bool b => .int (if b then 1 else 0)
  | .seq .elist xs | .seq .etup xs => .seq .tup (norms xs)
  | v => v
def norms : List Val → List Val
  | [] => []
  | x :: r => norm x :: norms r
end

/-- a part of Python's `==` which is not the structural equality -/
def pyPyText : PyText := { exPyText with eq := fun a b => decide (norm a = norm b) }

theorem pyPyText_ok : pyPyText.Ok where
  alpha _ _ := rfl
  digit _ _ := rfl
  refl a := by simp [pyPyText]
  symm a b h := by simp only [pyPyText, decide_eq_true_eq] at *; exact h.symm
  trans a b c h h' := by simp only [pyPyText, decide_eq_true_eq] at *; exact h.trans h'
  kw a b h := by simpa [pyPyText, norm, Val.kw] using h

/-- `{[nil] a (nil) b}` has one entry, with the first key and the last value, and `#{[nil] (nil)}` one item -/
theorem c60_same_key : loads pyPyText noTags "{[nil] :a (nil) :b}".toList = .ok (.map .edict [(.seq .elist [.none], .kw "b")]) ∧
    loads pyPyText noTags "#{[nil] (nil)}".toList = .ok (.seq .eset [.seq .elist [.none]]) := by decide +kernel

end EdnText
end Hiku
