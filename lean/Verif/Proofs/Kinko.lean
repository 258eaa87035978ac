import Verif.Model.Kinko
import Verif.Spec.Kinko
import Verif.Proofs.Basic
import Verif.Proofs.Dict

/-! The text printed by `kinko.dumps`, line by line. -/

namespace Hiku.Kinko

/-! ### Layout -/

def argWords : Doc → List String
  | .atom n => [n]
  | _ => []

mutual
def blockLines : Nat → Doc → List Line
  | _, .atom _ => []
  | ind, .list t => ⟨ind, "List" :: argWords t, none⟩ :: blockLines (ind + 2) t
  | ind, .option t => ⟨ind, "Option" :: argWords t, none⟩ :: blockLines (ind + 2) t
  | ind, .dict k v => ⟨ind, "Dict" :: (argWords k ++ argWords v), none⟩ :: (blockLines (ind + 2) k ++ blockLines (ind + 2) v)
  | ind, .record fs => ⟨ind, ["Record"], none⟩ :: fieldLines (ind + 2) fs
def fieldLines : Nat → List (String × Option String × Doc) → List Line
  | _, [] => []
  | ind, (n, d, t) :: r => ⟨ind, (":" ++ n) :: argWords t, d⟩ :: (blockLines (ind + 2) t ++ fieldLines ind r)
end

def defLines (d : Def) : List Line := ⟨0, "type" :: d.1 :: argWords d.2.2, d.2.1⟩ :: blockLines 2 d.2.2

def defsLines : Bool → List Def → List Line
  | _, [] => []
  | first, d :: r => (if first then [] else [blank]) ++ (defLines d ++ defsLines false r)

def atomDoc : Doc → Bool
  | .atom _ => true
  | _ => false

mutual
def DocOk : Doc → Prop
  | .atom n => Word n
  | .list t => DocOk t
  | .option t => DocOk t
  | .dict k v => DocOk k ∧ DocOk v ∧ (atomDoc k = false → atomDoc v = false)
  | .record fs => FieldsOk fs
def FieldsOk : List (String × Option String × Doc) → Prop
  | [] => True
  | (n, d, t) :: r => Word n ∧ OneLine d ∧ DocOk t ∧ FieldsOk r
end

def DefOk (d : Def) : Prop := Word d.1 ∧ OneLine d.2.1 ∧ DocOk d.2.2

/-! ### Reading the lines -/

/-- what follows does not belong to the fields of a record indented by `ind` -/
def Ends (ind : Nat) : List Line → Prop
  | [] => True
  | l :: _ => l.indent < ind ∧ l.words ≠ []

theorem Ends.mono {i j : Nat} {ls : List Line} (h : Ends i ls) (hij : i ≤ j) : Ends j ls := by
  cases ls with
  | nil => trivial
  | cons l r => exact ⟨Nat.lt_of_lt_of_le h.1 hij, h.2⟩

theorem readArg_atom {block : List Line → Option (Doc × List Line)} {w : String} {ws : List String} {ls : List Line} :
    readArg block (w :: ws) ls = some (.atom w, ws, ls) := rfl

/-- an argument, given that blocks are read back -/
theorem readOnly_arg {block : List Line → Option (Doc × List Line)} {t : Doc} {ind : Nat} {rest : List Line}
    (hb : atomDoc t = false → block (blockLines ind t ++ rest) = some (t, rest)) :
    readOnly block (argWords t) (blockLines ind t ++ rest) = some (t, rest) := by
  cases t with
  | atom n => simp [readOnly, readArg, argWords, blockLines]
  | _ => simp only [readOnly, readArg, argWords, hb rfl]

theorem readArg_arg {block : List Line → Option (Doc × List Line)} {t : Doc} {ind : Nat} {ws : List String} {rest : List Line}
    (hb : atomDoc t = false → block (blockLines ind t ++ rest) = some (t, rest)) (hw : atomDoc t = false → ws = []) :
    readArg block (argWords t ++ ws) (blockLines ind t ++ rest) = some (t, ws, rest) := by
  cases t with
  | atom n => simp [readArg, argWords, blockLines]
  | _ => simp only [readArg, argWords, hw rfl, List.nil_append, hb rfl]

theorem argWords_nil {t : Doc} (h : atomDoc t = false) : argWords t = [] := by
  cases t <;> simp [atomDoc, argWords] at h ⊢

theorem blockLines_ends {t : Doc} {ind : Nat} {rest : List Line} (h : Ends (ind + 2) rest) :
    Ends (ind + 2 + 2) (blockLines (ind + 2) t ++ rest) := by
  have h' := h.mono (Nat.le_add_right _ 2)
  cases t with
  | atom => exact h'
  | _ => simp only [blockLines, List.cons_append]; exact ⟨by simp, by simp⟩

mutual
theorem readBlock_lines (t : Doc) (n ind : Nat) (rest : List Line) (ha : atomDoc t = false)
    (hn : (blockLines ind t).length < n) (ht : DocOk t) (he : Ends (ind + 2) rest) :
    readBlock n ind (blockLines ind t ++ rest) = some (t, rest) := by
  obtain ⟨m, rfl⟩ : ∃ m, n = m + 1 := ⟨n - 1, by omega⟩
  match t with
  | .atom _ => simp [atomDoc] at ha
  | .list t =>
    simp only [blockLines, List.cons_append, List.length_cons, DocOk] at hn ht ⊢
    simp only [readBlock]
    rw [if_neg (by simp), if_pos trivial,
      readOnly_arg fun h => readBlock_lines t m (ind + 2) rest h (by omega) ht (he.mono (by omega))]
    rfl
  | .option t =>
    simp only [blockLines, List.cons_append, List.length_cons, DocOk] at hn ht ⊢
    simp only [readBlock]
    rw [if_neg (by simp), if_neg (by decide), if_pos trivial,
      readOnly_arg fun h => readBlock_lines t m (ind + 2) rest h (by omega) ht (he.mono (by omega))]
    rfl
  | .dict k v =>
    simp only [blockLines, List.cons_append, List.length_cons, List.length_append, DocOk, List.append_assoc] at hn ht ⊢
    obtain ⟨hk, hv, hkv⟩ := ht
    simp only [readBlock]
    rw [if_neg (by simp), if_neg (by decide), if_neg (by decide), if_pos trivial,
      readArg_arg (fun h => readBlock_lines k m (ind + 2) _ h (by omega) hk (blockLines_ends he))
        (fun h => argWords_nil (hkv h))]
    simp only
    rw [readOnly_arg fun h => readBlock_lines v m (ind + 2) rest h (by omega) hv (he.mono (by omega))]
    rfl
  | .record fs =>
    simp only [blockLines, List.cons_append, List.length_cons, DocOk] at hn ht ⊢
    simp only [readBlock]
    rw [if_neg (by simp), if_neg (by decide), if_neg (by decide), if_neg (by decide), if_pos (by simp),
      readFields_lines fs m (ind + 2) rest (by omega) ht he]
    rfl
theorem readFields_lines (fs : List (String × Option String × Doc)) (n ind : Nat) (rest : List Line)
    (hn : (fieldLines ind fs).length < n) (ht : FieldsOk fs) (he : Ends ind rest) :
    readFields n ind (fieldLines ind fs ++ rest) = some (fs, rest) := by
  obtain ⟨m, rfl⟩ : ∃ m, n = m + 1 := ⟨n - 1, by omega⟩
  match fs with
  | [] =>
    simp only [fieldLines, List.nil_append]
    cases rest with
    | nil => simp [readFields]
    | cons l r =>
      obtain ⟨i, ws, note⟩ := l
      cases ws with
      | nil => exact absurd rfl he.2
      | cons w ws =>
        have : i ≠ ind := Nat.ne_of_lt he.1
        simp only [readFields, if_neg this]
  | (name, d, t) :: r =>
    simp only [fieldLines, List.cons_append, List.length_cons, List.length_append, FieldsOk, List.append_assoc] at hn ht ⊢
    obtain ⟨h1, h2, h3, h4⟩ := ht
    have hs : (":" ++ name).toList = ':' :: name.toList := by simp
    have hend : Ends (ind + 2 + 2) (fieldLines ind r ++ rest) := by
      cases r with
      | nil => exact he.mono (by omega)
      | cons x r =>
        obtain ⟨a, b, c⟩ := x
        simp only [fieldLines, List.cons_append]
        exact ⟨by simp only; omega, by simp⟩
    simp only [readFields, if_pos trivial, hs]
    rw [readOnly_arg fun h => readBlock_lines t m (ind + 2) _ h (by omega) h3 hend]
    simp only
    rw [readFields_lines r m ind rest (by omega) h4 he]
    simp
end

theorem ends_blank {n : Nat} (h : 0 < n) (ls : List Line) : Ends n (blank :: ls) := ⟨by simpa [blank] using h, by simp [blank]⟩

theorem defLines_ne_blank {d : Def} : (⟨0, "type" :: d.1 :: argWords d.2.2, d.2.1⟩ : Line) ≠ blank := by
  intro h
  simp [blank] at h

/-- all definitions; the last lines are empty -/
theorem readDefs_lines (ds : List Def) : ∀ (first : Bool) (n k : Nat), (∀ d ∈ ds, DefOk d) →
    (defsLines first ds).length + k < n →
    readDefs n (defsLines first ds ++ List.replicate k blank) = some ds := by
  have hblank : ∀ (k n : Nat), k < n → readDefs n (List.replicate k blank) = some [] := by
    intro k
    induction k with
    | zero => intro n h; obtain ⟨m, rfl⟩ : ∃ m, n = m + 1 := ⟨n - 1, by omega⟩; simp [readDefs]
    | succ k ih =>
      intro n h
      obtain ⟨m, rfl⟩ : ∃ m, n = m + 1 := ⟨n - 1, by omega⟩
      rw [List.replicate_succ]
      simp only [readDefs, if_pos trivial]
      exact ih m (by omega)
  induction ds with
  | nil => intro first n k _ hn; simpa [defsLines] using hblank k n (by simpa [defsLines] using hn)
  | cons d r ih =>
    intro first n k hd hn
    have key : ∀ n, (defLines d ++ defsLines false r).length + k < n →
        readDefs n (defLines d ++ defsLines false r ++ List.replicate k blank) = some (d :: r) := by
      intro n hn
      obtain ⟨m, rfl⟩ : ∃ m, n = m + 1 := ⟨n - 1, by omega⟩
      obtain ⟨h1, h2, h3⟩ := hd d (by simp)
      simp only [defLines, List.cons_append, List.length_cons, List.length_append, List.append_assoc] at hn ⊢
      simp only [readDefs]
      rw [if_neg defLines_ne_blank]
      have hend : Ends 4 (defsLines false r ++ List.replicate k blank) := by
        cases r with
        | nil => cases k with
          | zero => trivial
          | succ k => exact ends_blank (by omega) _
        | cons x r => simp only [defsLines]; exact ends_blank (by omega) _
      rw [readOnly_arg fun h => readBlock_lines d.2.2 (m + 1) 2 _ h (by omega) h3 hend]
      simp only
      rw [ih false m k (fun x hx => hd x (by simp [hx])) (by omega)]
      rfl
    cases first with
    | true => simpa [defsLines] using key n (by simpa [defsLines] using hn)
    | false =>
      simp only [defsLines, Bool.false_eq_true, if_false, List.cons_append, List.nil_append, List.length_cons] at hn ⊢
      obtain ⟨m, rfl⟩ : ∃ m, n = m + 1 := ⟨n - 1, by omega⟩
      simp only [readDefs, if_pos trivial]
      exact key m (by simp at hn ⊢; omega)

/-! ### Text of a line -/

def joinWords : List String → List Char
  | [] => []
  | [w] => w.toList
  | w :: r => w.toList ++ ' ' :: joinWords r

def content (l : Line) : List Char := List.replicate l.indent ' ' ++ joinWords l.words

def noteText : Option String → List Char
  | none => []
  | some d => ' ' :: ' ' :: ';' :: ' ' :: d.toList

def lineText (l : Line) : List Char := content l ++ noteText l.note

/-- a line which can be read back -/
structure LineOk (l : Line) : Prop where
  ne : l.words ≠ []
  words : ∀ w ∈ l.words, Word w
  note : OneLine l.note

theorem joinWords_cons {w : String} {r : List String} (h : r ≠ []) : joinWords (w :: r) = w.toList ++ ' ' :: joinWords r := by
  cases r with
  | nil => exact absurd rfl h
  | cons x r => rfl

theorem joinWords_append {ws : List String} (h : ws ≠ []) (w : String) : joinWords (ws ++ [w]) = joinWords ws ++ ' ' :: w.toList := by
  induction ws with
  | nil => exact absurd rfl h
  | cons x r ih =>
    cases r with
    | nil => rfl
    | cons y r =>
      have := ih (by simp)
      simp only [List.cons_append] at this ⊢
      rw [joinWords_cons (w := x) (by simp), joinWords_cons (w := x) (by simp), this]
      simp

theorem splitNote_other {c : Char} {r : List Char} (h : c ≠ ' ') : splitNote (c :: r) = (c :: (splitNote r).1, (splitNote r).2) := by
  rw [splitNote]
  intro r' e
  exact absurd e h

theorem splitNote_word {w r : List Char} (h : ' ' ∉ w) : splitNote (w ++ r) = (w ++ (splitNote r).1, (splitNote r).2) := by
  induction w with
  | nil => rfl
  | cons c w ih =>
    simp only [List.mem_cons, not_or] at h
    rw [List.cons_append, splitNote_other (Ne.symm h.1), ih h.2]
    rfl

theorem splitNote_space {c : Char} {r : List Char} (h : c ≠ ' ') :
    splitNote (' ' :: c :: r) = (' ' :: (splitNote (c :: r)).1, (splitNote (c :: r)).2) := by
  rw [splitNote]
  intro r' _ e
  simp only [List.cons.injEq] at e
  exact h e.1

theorem word_cons {w : String} (h : Word w) : ∃ c r, w.toList = c :: r ∧ c ≠ ' ' := by
  cases hw : w.toList with
  | nil => exact absurd hw h.1
  | cons c r =>
    refine ⟨c, r, rfl, ?_⟩
    rintro rfl
    exact h.2.1 (by rw [hw]; simp)

theorem joinWords_head {ws : List String} (hne : ws ≠ []) (hw : ∀ w ∈ ws, Word w) : ∃ c r, joinWords ws = c :: r ∧ c ≠ ' ' := by
  cases ws with
  | nil => exact absurd rfl hne
  | cons w r =>
    obtain ⟨c, x, h1, h2⟩ := word_cons (hw w (by simp))
    cases r with
    | nil => exact ⟨c, x, h1, h2⟩
    | cons y r => exact ⟨c, x ++ ' ' :: joinWords (y :: r), by rw [joinWords_cons (by simp), h1]; rfl, h2⟩

theorem splitNote_words {ws : List String} (hne : ws ≠ []) (hw : ∀ w ∈ ws, Word w) (n : Option String) :
    splitNote (joinWords ws ++ noteText n) = (joinWords ws, n.map String.toList) := by
  have hnote : splitNote (noteText n) = ([], n.map String.toList) := by
    cases n with
    | none => rfl
    | some d => rfl
  induction ws with
  | nil => exact absurd rfl hne
  | cons w r ih =>
    have h1 := hw w (by simp)
    cases r with
    | nil =>
      simp only [joinWords]
      rw [splitNote_word h1.2.1, hnote]
      simp
    | cons y r =>
      have hr : ∀ w ∈ y :: r, Word w := fun x hx => hw x (by simp at hx ⊢; exact .inr hx)
      have ih' := ih (by simp) hr
      obtain ⟨c, x, h2, h3⟩ := joinWords_head (by simp) hr
      rw [joinWords_cons (by simp), List.append_assoc, splitNote_word h1.2.1, List.cons_append]
      rw [h2] at ih' ⊢
      rw [List.cons_append] at ih' ⊢
      rw [splitNote_space h3, ih']

theorem splitAt_last {sep : Char} {w : List Char} (h : sep ∉ w) : splitAtChar sep w = [w] := by
  induction w with
  | nil => rfl
  | cons c w ih =>
    simp only [List.mem_cons, not_or] at h
    rw [splitAtChar, if_neg (Ne.symm h.1), ih h.2]

theorem splitAt_cons {sep : Char} {w r : List Char} (h : sep ∉ w) : splitAtChar sep (w ++ sep :: r) = w :: splitAtChar sep r := by
  induction w with
  | nil => simp [splitAtChar]
  | cons c w ih =>
    simp only [List.mem_cons, not_or] at h
    rw [List.cons_append, splitAtChar, if_neg (Ne.symm h.1), ih h.2]

theorem split_words {ws : List String} (hne : ws ≠ []) (hw : ∀ w ∈ ws, Word w) :
    (splitAtChar ' ' (joinWords ws)).map String.ofList = ws := by
  induction ws with
  | nil => exact absurd rfl hne
  | cons w r ih =>
    have h1 := hw w (by simp)
    cases r with
    | nil => simp [joinWords, splitAt_last h1.2.1]
    | cons y r =>
      rw [joinWords_cons (by simp), splitAt_cons h1.2.1, List.map_cons, ih (by simp) fun x hx => hw x (by simp at hx ⊢; exact .inr hx)]
      simp

theorem leading_spaces (n : Nat) {c : Char} {r : List Char} (h : c ≠ ' ') :
    leading (List.replicate n ' ' ++ c :: r) = (n, c :: r) := by
  induction n with
  | zero =>
    simp only [List.replicate_zero, List.nil_append]
    rw [leading]
    intro r' e
    cases e
    exact h rfl
  | succ n ih => simp only [List.replicate_succ, List.cons_append, leading, ih]

theorem readLine_text {l : Line} (h : LineOk l) : readLine (lineText l) = l := by
  obtain ⟨i, ws, n⟩ := l
  obtain ⟨c, r, h1, h2⟩ := joinWords_head h.ne h.words
  simp only at h1
  have hl : leading (lineText ⟨i, ws, n⟩) = (i, joinWords ws ++ noteText n) := by
    simp only [lineText, content, List.append_assoc]
    rw [h1, List.cons_append, leading_spaces i h2]
  simp only [readLine, hl, splitNote_words h.ne h.words, split_words h.ne h.words]
  cases n <;> simp

theorem noNewline_join {ws : List String} (hw : ∀ w ∈ ws, Word w) : '\n' ∉ joinWords ws := by
  induction ws with
  | nil => simp [joinWords]
  | cons w r ih =>
    have h1 := hw w (by simp)
    cases r with
    | nil => exact h1.2.2
    | cons y r =>
      rw [joinWords_cons (by simp)]
      simp only [List.mem_append, List.mem_cons, not_or]
      exact ⟨h1.2.2, by decide, ih fun x hx => hw x (by simp at hx ⊢; exact .inr hx)⟩

theorem noNewline_line {l : Line} (h : LineOk l) : '\n' ∉ lineText l := by
  simp only [lineText, content, List.mem_append, not_or]
  refine ⟨⟨?_, noNewline_join h.words⟩, ?_⟩
  · intro hc
    have := List.eq_of_mem_replicate hc
    exact absurd this (by decide)
  · cases hn : l.note with
    | none => simp [noteText]
    | some d =>
      simp only [noteText, List.mem_cons, not_or]
      exact ⟨by decide, by decide, by decide, by decide, h.note d hn⟩

theorem words_argWords {t : Doc} (h : DocOk t) : ∀ w ∈ argWords t, Word w := by
  cases t <;> simp [argWords]
  simpa [DocOk] using h

theorem word_lit {s : String} {c : Char} {r : List Char} (h : s.toList = c :: r) (h1 : ' ' ∉ c :: r) (h2 : '\n' ∉ c :: r) : Word s := by
  unfold Word; rw [h]; exact ⟨by simp, h1, h2⟩

theorem word_List : Word "List" := by unfold Word; decide
theorem word_Option : Word "Option" := by unfold Word; decide
theorem word_Dict : Word "Dict" := by unfold Word; decide
theorem word_Record : Word "Record" := by unfold Word; decide
theorem word_type : Word "type" := by unfold Word; decide

theorem word_colon {n : String} (h : Word n) : Word (":" ++ n) := by
  have e : (":" ++ n).toList = ':' :: n.toList := by simp
  unfold Word
  rw [e]
  simp only [List.mem_cons, not_or]
  exact ⟨by simp, ⟨by decide, h.2.1⟩, by decide, h.2.2⟩

mutual
theorem blockLines_ok (t : Doc) (ind : Nat) (h : DocOk t) : ∀ l ∈ blockLines ind t, LineOk l := by
  intro l hl
  match t with
  | .atom _ => simp [blockLines] at hl
  | .list t =>
    simp only [blockLines, List.mem_cons] at hl
    rcases hl with rfl | hl
    · refine ⟨by simp, ?_, by simp [OneLine]⟩
      intro w hw
      simp only [List.mem_cons] at hw
      rcases hw with rfl | hw
      · exact word_List
      · exact words_argWords (by simpa [DocOk] using h) w hw
    · exact blockLines_ok t _ (by simpa [DocOk] using h) l hl
  | .option t =>
    simp only [blockLines, List.mem_cons] at hl
    rcases hl with rfl | hl
    · refine ⟨by simp, ?_, by simp [OneLine]⟩
      intro w hw
      simp only [List.mem_cons] at hw
      rcases hw with rfl | hw
      · exact word_Option
      · exact words_argWords (by simpa [DocOk] using h) w hw
    · exact blockLines_ok t _ (by simpa [DocOk] using h) l hl
  | .dict k v =>
    simp only [DocOk] at h
    simp only [blockLines, List.mem_cons, List.mem_append] at hl
    rcases hl with rfl | hl | hl
    · refine ⟨by simp, ?_, by simp [OneLine]⟩
      intro w hw
      simp only [List.mem_cons, List.mem_append] at hw
      rcases hw with rfl | hw | hw
      · exact word_Dict
      · exact words_argWords h.1 w hw
      · exact words_argWords h.2.1 w hw
    · exact blockLines_ok k _ h.1 l hl
    · exact blockLines_ok v _ h.2.1 l hl
  | .record fs =>
    simp only [blockLines, List.mem_cons] at hl
    rcases hl with rfl | hl
    · refine ⟨by simp, ?_, by simp [OneLine]⟩
      intro w hw
      simp only [List.mem_cons, List.not_mem_nil, or_false] at hw
      subst hw
      exact word_Record
    · exact fieldLines_ok fs _ (by simpa [DocOk] using h) l hl
theorem fieldLines_ok (fs : List (String × Option String × Doc)) (ind : Nat) (h : FieldsOk fs) :
    ∀ l ∈ fieldLines ind fs, LineOk l := by
  intro l hl
  match fs with
  | [] => simp [fieldLines] at hl
  | (n, d, t) :: r =>
    simp only [FieldsOk] at h
    obtain ⟨h1, h2, h3, h4⟩ := h
    simp only [fieldLines, List.mem_cons, List.mem_append] at hl
    rcases hl with rfl | hl | hl
    · refine ⟨by simp, ?_, h2⟩
      intro w hw
      simp only [List.mem_cons] at hw
      rcases hw with rfl | hw
      · exact word_colon h1
      · exact words_argWords h3 w hw
    · exact blockLines_ok t _ h3 l hl
    · exact fieldLines_ok r _ h4 l hl
end

theorem defLines_ok {d : Def} (h : DefOk d) : ∀ l ∈ defLines d, LineOk l := by
  obtain ⟨h1, h2, h3⟩ := h
  intro l hl
  simp only [defLines, List.mem_cons] at hl
  rcases hl with rfl | hl
  · refine ⟨by simp, ?_, h2⟩
    intro w hw
    simp only [List.mem_cons] at hw
    rcases hw with rfl | rfl | hw
    · exact word_type
    · exact h1
    · exact words_argWords h3 w hw
  · exact blockLines_ok _ _ h3 l hl

theorem readLine_nil : readLine [] = blank := rfl

theorem lineText_blank : lineText blank = [] := rfl

theorem defsLines_read {ds : List Def} (h : ∀ d ∈ ds, DefOk d) : ∀ first, ∀ l ∈ defsLines first ds,
    readLine (lineText l) = l ∧ '\n' ∉ lineText l := by
  induction ds with
  | nil => intro first l hl; simp [defsLines] at hl
  | cons d r ih =>
    intro first l hl
    simp only [defsLines, List.mem_append] at hl
    rcases hl with hl | hl | hl
    · cases first with
      | true => simp at hl
      | false =>
        simp at hl
        subst hl
        exact ⟨by rw [lineText_blank, readLine_nil], by rw [lineText_blank]; simp⟩
    · have := defLines_ok (h d (by simp)) l hl
      exact ⟨readLine_text this, noNewline_line this⟩
    · exact ih (fun d hd => h d (by simp [hd])) false l hl

/-- the text of all the lines -/
def fileText : List Line → List Char
  | [] => ['\n']
  | l :: r => lineText l ++ '\n' :: (match r with | [] => [] | _ => fileText r)

theorem split_file (ls : List Line) (h : ∀ l ∈ ls, readLine (lineText l) = l ∧ '\n' ∉ lineText l) :
    (splitAtChar '\n' (fileText ls)).map readLine = ls ++ List.replicate (if ls = [] then 2 else 1) blank := by
  induction ls with
  | nil => rfl
  | cons l r ih =>
    obtain ⟨h1, h2⟩ := h l (by simp)
    cases r with
    | nil =>
      simp only [fileText]
      rw [splitAt_cons h2]
      simp [splitAtChar, h1, readLine_nil]
    | cons x r =>
      simp only [fileText]
      rw [splitAt_cons h2, List.map_cons, h1]
      have := ih fun l hl => h l (by simp at hl ⊢; exact .inr hl)
      simp only [fileText] at this
      rw [this]
      simp

/-- reading a file made of definitions -/
theorem readFile_defs {ds : List Def} {text : String} (h : ∀ d ∈ ds, DefOk d)
    (ht : text.toList = fileText (defsLines true ds)) : readFile text = some ds := by
  have := split_file (defsLines true ds) (defsLines_read h true)
  simp only [readFile, ht, this]
  exact readDefs_lines ds true _ _ h (by simp)

/-! ### What is printed -/

mutual
/-- the type expression -/
def kdoc : KTy → Doc
  | .any | .float => .atom "Unknown"
  | .boolean => .atom "Boolean"
  | .string => .atom "String"
  | .integer => .atom "Integer"
  | .ref n => .atom n
  | .optional t => .option (kdoc t)
  | .sequence t => .list (kdoc t)
  | .mapping k v => .dict (kdoc k) (kdoc v)
  | .record fs => .record (kfields fs)
  | .callable _ => .atom ""
  | .doc t _ => kdoc t
def kfields : List (String × KTy) → List (String × Option String × Doc)
  | [] => []
  | (n, t) :: r => (n, knote t, kdoc t) :: kfields r
/-- the description -/
def knote : KTy → Option String
  | .doc t d => match knote t with | some d' => some d' | none => some d
  | _ => none
end

mutual
/-- what can be printed: no functions, descriptions on fields and definitions only, and a mapping with a container as the
key has a container as the value -/
def KOk : KTy → Prop
  | .optional t => knote t = none ∧ KOk t
  | .sequence t => knote t = none ∧ KOk t
  | .mapping k v => knote k = none ∧ knote v = none ∧ KOk k ∧ KOk v ∧ (atomDoc (kdoc k) = false → atomDoc (kdoc v) = false)
  | .record fs => KFieldsOk fs
  | .callable _ => False
  | .doc t _ => KOk t
  | _ => True
def KFieldsOk : List (String × KTy) → Prop
  | [] => True
  | (_, t) :: r => KOk t ∧ KFieldsOk r
end

/-- the printer has printed these lines -/
structure Printed (p : Printer) (L : List Line) : Prop where
  text : p.buffer.map String.toList = L.map content
  notes : ∀ i, dget p.descriptions i = (L[i]?).bind (·.note)

theorem Printed.length {p : Printer} {L : List Line} (h : Printed p L) : p.buffer.length = L.length := by
  have := congrArg List.length h.text
  simpa using this

theorem toList_spaces (n : Nat) : (spaces n).toList = List.replicate n ' ' := by simp [spaces]

theorem Printed.call {p : Printer} {L : List Line} (h : Printed p L) (words : List String) {s : String}
    (hs : s.toList = joinWords words) :
    Printed (printCall s p) (L ++ [⟨2 * p.indent, words, none⟩]) := by
  constructor
  · simp only [printCall, List.map_append, h.text, List.map_cons, List.map_nil, content]
    simp [toList_spaces, hs]
  · intro i
    simp only [printCall, h.notes]
    rcases Nat.lt_trichotomy i L.length with hi | hi | hi
    · rw [List.getElem?_append_left hi]
    · subst hi; simp
    · rw [List.getElem?_eq_none (by omega), List.getElem?_eq_none (by simp; omega)]

theorem modify_last {α : Type} (l : List α) (x : α) (f : α → α) : (l ++ [x]).modify l.length f = l ++ [f x] := by
  induction l with
  | nil => rfl
  | cons y r ih => simp [ih]

theorem Printed.word {p : Printer} {L : List Line} {l : Line} (h : Printed p (L ++ [l])) (hl : l.words ≠ []) (w : String) :
    Printed (appendWord w p) (L ++ [{ l with words := l.words ++ [w] }]) := by
  have hlen := h.length
  constructor
  · have e : p.buffer = p.buffer.take L.length ++ [p.buffer[L.length]'(by simp at hlen; omega)] := by
      have h1 : p.buffer.length = L.length + 1 := by simpa using hlen
      have := List.take_append_getElem (l := p.buffer) (i := L.length) (by omega)
      rw [this, List.take_of_length_le (by omega)]
    have ht : (p.buffer.take L.length).length = L.length := by
      rw [List.length_take]; simp at hlen; omega
    have htext := h.text
    generalize p.buffer.take L.length = bs at e ht
    generalize p.buffer[L.length]'(by simp at hlen; omega) = b at e
    rw [e] at htext
    simp only [List.map_append, List.map_cons, List.map_nil] at htext
    have hh := List.append_inj' htext rfl
    simp only [appendWord]
    rw [e, show (bs ++ [b]).length - 1 = bs.length by simp, modify_last]
    simp only [List.map_append, List.map_cons, List.map_nil, hh.1]
    have hb : b.toList = content l := by simpa using hh.2
    simp only [content, joinWords_append hl]
    simp [hb, content]
  · intro i
    simp only [appendWord, h.notes]
    rcases Nat.lt_trichotomy i L.length with hi | hi | hi
    · rw [List.getElem?_append_left hi, List.getElem?_append_left hi]
    · subst hi; simp
    · rw [List.getElem?_eq_none (by simp; omega), List.getElem?_eq_none (by simp; omega)]

theorem Printed.describe {p : Printer} {L : List Line} {l : Line} (h : Printed p (L ++ [l])) (d : String) :
    Printed (describe d p) (L ++ [{ l with note := some d }]) := by
  have hlen := h.length
  constructor
  · simpa [Kinko.describe, content] using h.text
  · intro i
    have e : p.buffer.length - 1 = L.length := by rw [hlen]; simp
    simp only [Kinko.describe, dget_dset, e, h.notes]
    rcases Nat.lt_trichotomy i L.length with hi | hi | hi
    · rw [if_neg (by omega), List.getElem?_append_left hi, List.getElem?_append_left hi]
    · subst hi; simp
    · rw [if_neg (by omega), List.getElem?_eq_none (by simp; omega), List.getElem?_eq_none (by simp; omega)]

/-- the line of the owner after an argument was printed -/
def withArg (l : Line) (t : KTy) : Line :=
  { l with words := l.words ++ argWords (kdoc t), note := match knote t with | some d => some d | none => l.note }

theorem withArg_none {l : Line} {t : KTy} (h : knote t = none) (ha : atomDoc (kdoc t) = false) : withArg l t = l := by
  simp [withArg, h, argWords_nil ha]

theorem blockLines_last {t : Doc} (ha : atomDoc t = false) (ht : ∀ i, ∀ l ∈ blockLines i t, l.words ≠ []) (ind : Nat) :
    ∃ L l, blockLines ind t = L ++ [l] ∧ l.words ≠ [] := by
  have hne : blockLines ind t ≠ [] := by cases t <;> simp [atomDoc, blockLines] at ha ⊢
  refine ⟨_, _, (List.dropLast_append_getLast hne).symm, ht ind _ (List.getLast_mem hne)⟩

mutual
theorem blockLines_words (t : Doc) (ind : Nat) : ∀ l ∈ blockLines ind t, l.words ≠ [] := by
  intro l hl
  match t with
  | .atom _ => simp [blockLines] at hl
  | .list t =>
    simp only [blockLines, List.mem_cons] at hl
    rcases hl with rfl | hl
    · simp
    · exact blockLines_words t _ l hl
  | .option t =>
    simp only [blockLines, List.mem_cons] at hl
    rcases hl with rfl | hl
    · simp
    · exact blockLines_words t _ l hl
  | .dict k v =>
    simp only [blockLines, List.mem_cons, List.mem_append] at hl
    rcases hl with rfl | hl | hl
    · simp
    · exact blockLines_words k _ l hl
    · exact blockLines_words v _ l hl
  | .record fs =>
    simp only [blockLines, List.mem_cons] at hl
    rcases hl with rfl | hl
    · simp
    · exact fieldLines_words fs _ l hl
theorem fieldLines_words (fs : List (String × Option String × Doc)) (ind : Nat) : ∀ l ∈ fieldLines ind fs, l.words ≠ [] := by
  intro l hl
  match fs with
  | [] => simp [fieldLines] at hl
  | (n, d, t) :: r =>
    simp only [fieldLines, List.mem_cons, List.mem_append] at hl
    rcases hl with rfl | hl | hl
    · simp
    · exact blockLines_words t _ l hl
    · exact fieldLines_words r _ l hl
end

theorem Printed.indent {p : Printer} {L : List Line} (h : Printed p L) (i : Nat) : Printed { p with indent := i } L := ⟨h.text, h.notes⟩

theorem indent_call (s : String) (p : Printer) : (printCall s p).indent = p.indent := rfl

theorem withArg_new {i : Nat} {w : String} {t : KTy} (h : knote t = none) :
    withArg ⟨i, [w], none⟩ t = ⟨i, w :: argWords (kdoc t), none⟩ := by simp [withArg, h]

mutual
/-- `_print_arg` -/
theorem printArg_prints (t : KTy) (p : Printer) (L : List Line) (l : Line) (h : Printed p (L ++ [l])) (hl : l.words ≠ [])
    (ht : KOk t) : ∃ p', printArg t p = .ok p' ∧ p'.indent = p.indent ∧
      Printed p' (L ++ withArg l t :: blockLines (2 * p.indent + 2) (kdoc t)) := by
  match t with
  | .doc t d =>
    obtain ⟨p', h1, h2, h3⟩ := printArg_prints t (describe d p) L _ (h.describe d) hl (by simpa [KOk] using ht)
    refine ⟨p', by simp only [printArg]; exact h1, h2, ?_⟩
    have e : withArg { l with note := some d } t = withArg l (.doc t d) := by
      simp only [withArg, kdoc, knote]
      cases knote t <;> rfl
    rw [e] at h3
    exact h3
  | .optional t =>
    simp only [KOk] at ht
    have h1 := (h.indent (p.indent + 1)).call ["Option"] (s := "Option") rfl
    obtain ⟨p', h2, h3, h4⟩ := printArg_prints t _ (L ++ [l]) _ h1 (by simp) ht.2
    refine ⟨lessIndent p', by simp only [printArg]; rw [show moreIndent p = { p with indent := p.indent + 1 } from rfl, h2]; rfl, ?_, ?_⟩
    · show p'.indent - 1 = p.indent
      rw [h3, indent_call]; simp
    · have := h4.indent (p'.indent - 1)
      rw [withArg_new ht.1] at this
      rw [withArg_none (t := .optional t) rfl rfl]
      simp only [kdoc, blockLines]
      simpa [lessIndent, indent_call, Nat.mul_add] using this
  | .sequence t =>
    simp only [KOk] at ht
    have h1 := (h.indent (p.indent + 1)).call ["List"] (s := "List") rfl
    obtain ⟨p', h2, h3, h4⟩ := printArg_prints t _ (L ++ [l]) _ h1 (by simp) ht.2
    refine ⟨lessIndent p', by simp only [printArg]; rw [show moreIndent p = { p with indent := p.indent + 1 } from rfl, h2]; rfl, ?_, ?_⟩
    · show p'.indent - 1 = p.indent
      rw [h3, indent_call]; simp
    · have := h4.indent (p'.indent - 1)
      rw [withArg_new ht.1] at this
      rw [withArg_none (t := .sequence t) rfl rfl]
      simp only [kdoc, blockLines]
      simpa [lessIndent, indent_call, Nat.mul_add] using this
  | .mapping k v =>
    simp only [KOk] at ht
    obtain ⟨hk, hv, hk1, hv1, hkv⟩ := ht
    have h1 := (h.indent (p.indent + 1)).call ["Dict"] (s := "Dict") rfl
    obtain ⟨p1, h2, h3, h4⟩ := printArg_prints k _ (L ++ [l]) _ h1 (by simp) hk1
    rw [withArg_new hk] at h4
    have hi1 : p1.indent = p.indent + 1 := by rw [h3, indent_call]
    have key : ∃ p2, printArg v p1 = .ok p2 ∧ p2.indent = p1.indent ∧
        Printed p2 (L ++ [l] ++ ⟨2 * (p.indent + 1), "Dict" :: (argWords (kdoc k) ++ argWords (kdoc v)), none⟩ ::
          (blockLines (2 * (p.indent + 1) + 2) (kdoc k) ++ blockLines (2 * (p.indent + 1) + 2) (kdoc v))) := by
      cases ha : atomDoc (kdoc k) with
      | true =>
        have hb : ∀ i, blockLines i (kdoc k) = [] := by
          intro i
          cases hk2 : kdoc k <;> rw [hk2] at ha <;> simp [atomDoc] at ha
          rfl
        rw [hb] at h4
        obtain ⟨p2, h5, h6, h7⟩ := printArg_prints v p1 _ _ h4 (by simp) hv1
        refine ⟨p2, h5, h6, ?_⟩
        rw [hi1] at h7
        rw [hb]
        simpa [withArg, hv] using h7
      | false =>
        have hav := hkv ha
        obtain ⟨L', l', e1, e2⟩ := blockLines_last ha (fun i => blockLines_words _ i) (2 * (p.indent + 1) + 2)
        have h4' : Printed p1 ((L ++ [l] ++ ⟨2 * (p.indent + 1), "Dict" :: argWords (kdoc k), none⟩ :: L') ++ [l']) := by
          have h5 := h4
          simp only [indent_call, e1] at h5
          simpa using h5
        obtain ⟨p2, h5, h6, h7⟩ := printArg_prints v p1 _ _ h4' e2 hv1
        refine ⟨p2, h5, h6, ?_⟩
        rw [withArg_none hv hav, hi1] at h7
        rw [argWords_nil hav, e1]
        simpa using h7
    obtain ⟨p2, h5, h6, h7⟩ := key
    refine ⟨lessIndent p2, ?_, ?_, ?_⟩
    · simp only [printArg]
      rw [show moreIndent p = { p with indent := p.indent + 1 } from rfl, h2]
      simp only [ok_bind', h5]
    · show p2.indent - 1 = p.indent
      rw [h6, hi1]; simp
    · have := h7.indent (p2.indent - 1)
      rw [withArg_none (t := .mapping k v) rfl rfl]
      simp only [kdoc, blockLines]
      simpa [lessIndent, Nat.mul_add] using this
  | .record fs =>
    simp only [KOk] at ht
    have h1 := (h.indent (p.indent + 1)).call ["Record"] (s := "Record") rfl
    obtain ⟨p', h2, h3, h4⟩ := printFields_prints fs _ _ (h1.indent (p.indent + 2)) ht
    refine ⟨lessIndent (lessIndent p'), ?_, ?_, ?_⟩
    · simp only [printArg]
      rw [show moreIndent (printCall "Record" (moreIndent p)) =
        { (printCall "Record" { p with indent := p.indent + 1 }) with indent := p.indent + 2 } from rfl, h2]
      simp only [ok_bind']
    · show p'.indent - 1 - 1 = p.indent
      rw [h3]; simp
    · have := h4.indent (p'.indent - 1 - 1)
      rw [withArg_none (t := .record fs) rfl rfl]
      simp only [kdoc, blockLines]
      simpa [lessIndent, indent_call, Nat.mul_add] using this
  | .boolean => exact ⟨appendWord "Boolean" p, by rw [printArg], rfl, by simpa [withArg, kdoc, knote, argWords, blockLines] using h.word hl "Boolean"⟩
  | .string => exact ⟨appendWord "String" p, by rw [printArg], rfl, by simpa [withArg, kdoc, knote, argWords, blockLines] using h.word hl "String"⟩
  | .integer => exact ⟨appendWord "Integer" p, by rw [printArg], rfl, by simpa [withArg, kdoc, knote, argWords, blockLines] using h.word hl "Integer"⟩
  | .float => exact ⟨appendWord "Unknown" p, by rw [printArg], rfl, by simpa [withArg, kdoc, knote, argWords, blockLines] using h.word hl "Unknown"⟩
  | .any => exact ⟨appendWord "Unknown" p, by rw [printArg], rfl, by simpa [withArg, kdoc, knote, argWords, blockLines] using h.word hl "Unknown"⟩
  | .ref n => exact ⟨appendWord n p, by rw [printArg], rfl, by simpa [withArg, kdoc, knote, argWords, blockLines] using h.word hl n⟩
  | .callable _ => simp [KOk] at ht
/-- the fields of a record -/
theorem printFields_prints (fs : List (String × KTy)) (p : Printer) (L : List Line) (h : Printed p L) (ht : KFieldsOk fs) :
    ∃ p', printFields fs p = .ok p' ∧ p'.indent = p.indent ∧ Printed p' (L ++ fieldLines (2 * p.indent) (kfields fs)) := by
  match fs with
  | [] => exact ⟨p, by simp [printFields], rfl, by simpa [kfields, fieldLines] using h⟩
  | (n, t) :: r =>
    simp only [KFieldsOk] at ht
    have h1 := h.call [":" ++ n] (s := ":" ++ n) (by simp [joinWords])
    obtain ⟨p1, h2, h3, h4⟩ := printArg_prints t _ L _ h1 (by simp) ht.1
    obtain ⟨p2, h5, h6, h7⟩ := printFields_prints r p1 _ h4 ht.2
    refine ⟨p2, ?_, ?_, ?_⟩
    · simp only [printFields, h2, ok_bind', h5]
    · rw [h6, h3, indent_call]
    · have hi : p1.indent = p.indent := by rw [h3, indent_call]
      rw [hi, indent_call] at h7
      have e : withArg ⟨2 * p.indent, [":" ++ n], none⟩ t = ⟨2 * p.indent, (":" ++ n) :: argWords (kdoc t), knote t⟩ := by
        simp only [withArg]
        cases knote t <;> rfl
      rw [e] at h7
      simp only [kfields, fieldLines]
      simpa using h7
end

def kdef (d : String × KTy) : Def := (d.1, knote d.2, kdoc d.2)

theorem printDefs_prints (ds : List (String × KTy)) : ∀ (first : Bool) (p : Printer) (L : List Line), p.indent = 0 → Printed p L →
    (∀ d ∈ ds, KOk d.2) →
    ∃ p', printDefs first ds p = .ok p' ∧ Printed p' (L ++ defsLines first (ds.map kdef)) := by
  induction ds with
  | nil => intro first p L _ h _; exact ⟨p, rfl, by simpa [defsLines] using h⟩
  | cons d r ih =>
    intro first p L hi h hd
    have h1 : Printed (if first then p else { p with buffer := p.buffer ++ [""] }) (L ++ if first then [] else [blank]) := by
      cases first with
      | true => simpa using h
      | false =>
        have := h.call [""] (s := "") rfl
        simpa [printCall, hi, spaces, blank] using this
    have hi1 : (if first then p else { p with buffer := p.buffer ++ [""] }).indent = 0 := by cases first <;> exact hi
    generalize hp1 : (if first then p else { p with buffer := p.buffer ++ [""] }) = p1 at h1 hi1
    have h2 := h1.call ["type", d.1] (s := "type " ++ d.1) (by simp [joinWords])
    obtain ⟨p2, h3, h4, h5⟩ := printArg_prints d.2 _ _ _ h2 (by simp) (hd d (by simp))
    rw [indent_call, hi1] at h4 h5
    obtain ⟨p3, h6, h7⟩ := ih false p2 _ h4 h5 fun x hx => hd x (by simp [hx])
    refine ⟨p3, ?_, ?_⟩
    · simp only [printDefs, printDef, hp1, h3, ok_bind', h6]
    · have e : withArg ⟨0, ["type", d.1], none⟩ d.2 = ⟨0, "type" :: d.1 :: argWords (kdoc d.2), knote d.2⟩ := by
        simp only [withArg]
        cases knote d.2 <;> rfl
      simp only [Nat.mul_zero, Nat.zero_add, e] at h7
      simp only [List.map_cons, defsLines, defLines, kdef]
      cases first <;> simpa [kdef] using h7

/-! ### The text -/

theorem lines_text {p : Printer} {L : List Line} (h : Printed p L) : (iterLines p).map String.toList = L.map lineText := by
  apply List.ext_getElem?
  intro i
  simp only [iterLines, List.map_map, List.getElem?_map, List.getElem?_zipIdx, Nat.zero_add]
  have ht := congrArg (fun l => l[i]?) h.text
  have hn := h.notes i
  simp only [List.getElem?_map] at ht
  cases hL : L[i]? with
  | none => rw [hL] at ht; simp at ht; simp [ht]
  | some l =>
    rw [hL] at ht hn
    cases hb : p.buffer[i]? with
    | none => rw [hb] at ht; simp at ht
    | some b =>
      rw [hb] at ht
      simp only [Option.map_some, Option.some.injEq, Option.bind_some] at ht hn ⊢
      simp only [Function.comp_def, hn]
      cases hl : l.note with
      | none => simp [lineText, noteText, hl, ht]
      | some d => simp [lineText, noteText, hl, ht]

theorem intercalate_text (ls : List String) (L : List Line) (h : ls.map String.toList = L.map lineText) :
    (String.intercalate "\n" ls ++ "\n").toList = fileText L := by
  induction ls generalizing L with
  | nil =>
    cases L with
    | nil => rfl
    | cons l r => simp at h
  | cons x r ih =>
    cases L with
    | nil => simp at h
    | cons l L =>
      simp only [List.map_cons, List.cons.injEq] at h
      have := ih L h.2
      cases r with
      | nil =>
        cases L with
        | nil => simp [fileText, h.1]
        | cons _ _ => simp at h
      | cons y r =>
        cases L with
        | nil => simp at h
        | cons l' L =>
          have e : fileText (l :: l' :: L) = lineText l ++ '\n' :: fileText (l' :: L) := rfl
          rw [e, ← this, ← h.1]
          simp [String.toList_intercalate, List.intercalate, List.intersperse]

/-! ### What is printed for a graph -/

mutual
theorem kdoc_ofTy (t : Ty) : kdoc (ofTy t) = typeDoc t := by
  match t with
  | .any | .boolean | .string | .integer | .float | .callable _ | .ref _ => simp [ofTy, kdoc, typeDoc]
  | .optional t => simp [ofTy, kdoc, typeDoc, kdoc_ofTy t]
  | .sequence t => simp [ofTy, kdoc, typeDoc, kdoc_ofTy t]
  | .mapping k v => simp [ofTy, kdoc, typeDoc, kdoc_ofTy k, kdoc_ofTy v]
  | .record fs => simp [ofTy, kdoc, typeDoc, kfields_ofFields fs]
theorem kfields_ofFields (fs : List (String × Ty)) : kfields (ofFields fs) = fieldDocs fs := by
  match fs with
  | [] => simp [ofFields, kfields, fieldDocs]
  | (n, t) :: r => simp [ofFields, kfields, fieldDocs, kdoc_ofTy t, kfields_ofFields r, knote_ofTy t]
theorem knote_ofTy (t : Ty) : knote (ofTy t) = none := by
  match t with
  | .any | .boolean | .string | .integer | .float | .callable _ | .ref _ => simp [ofTy, knote]
  | .optional _ | .sequence _ | .mapping _ _ | .record _ => simp [ofTy, knote]
end

theorem atomDoc_typeDoc (t : Ty) : atomDoc (typeDoc t) = isAtom t := by cases t <;> simp [typeDoc, atomDoc, isAtom]

mutual
theorem kOk_ofTy (t : Ty) (h : Printable t) : KOk (ofTy t) := by
  match t with
  | .any | .boolean | .string | .integer | .float | .ref _ => simp [ofTy, KOk]
  | .callable _ => simp [Printable] at h
  | .optional t => simp only [Printable] at h; simp [ofTy, KOk, kOk_ofTy t h, knote_ofTy]
  | .sequence t => simp only [Printable] at h; simp [ofTy, KOk, kOk_ofTy t h, knote_ofTy]
  | .mapping k v =>
    simp only [Printable] at h
    simp only [ofTy, KOk, knote_ofTy, kdoc_ofTy, atomDoc_typeDoc]
    exact ⟨trivial, trivial, kOk_ofTy k h.1, kOk_ofTy v h.2.1, h.2.2⟩
  | .record fs => simp only [Printable] at h; simp [ofTy, KOk, kFieldsOk_ofFields fs h]
theorem kFieldsOk_ofFields (fs : List (String × Ty)) (h : PrintableFields fs) : KFieldsOk (ofFields fs) := by
  match fs with
  | [] => simp [ofFields, KFieldsOk]
  | (n, t) :: r =>
    simp only [PrintableFields] at h
    simp [ofFields, KFieldsOk, kOk_ofTy t h.2.1, kFieldsOk_ofFields r h.2.2]
end

theorem word_Unknown : Word "Unknown" := by unfold Word; decide
theorem word_Boolean : Word "Boolean" := by unfold Word; decide
theorem word_String : Word "String" := by unfold Word; decide
theorem word_Integer : Word "Integer" := by unfold Word; decide

theorem oneLine_none : OneLine none := fun _ h => nomatch h

mutual
theorem docOk_typeDoc (t : Ty) (h : Printable t) : DocOk (typeDoc t) := by
  match t with
  | .any | .float => simp [typeDoc, DocOk, word_Unknown]
  | .boolean => simp [typeDoc, DocOk, word_Boolean]
  | .string => simp [typeDoc, DocOk, word_String]
  | .integer => simp [typeDoc, DocOk, word_Integer]
  | .ref n => simp only [Printable] at h; simp [typeDoc, DocOk, h]
  | .callable _ => simp [Printable] at h
  | .optional t => simp only [Printable] at h; simp [typeDoc, DocOk, docOk_typeDoc t h]
  | .sequence t => simp only [Printable] at h; simp [typeDoc, DocOk, docOk_typeDoc t h]
  | .mapping k v =>
    simp only [Printable] at h
    simp only [typeDoc, DocOk, atomDoc_typeDoc]
    exact ⟨docOk_typeDoc k h.1, docOk_typeDoc v h.2.1, h.2.2⟩
  | .record fs => simp only [Printable] at h; simp [typeDoc, DocOk, fieldsOk_fieldDocs fs h]
theorem fieldsOk_fieldDocs (fs : List (String × Ty)) (h : PrintableFields fs) : FieldsOk (fieldDocs fs) := by
  match fs with
  | [] => simp [fieldDocs, FieldsOk]
  | (n, t) :: r =>
    simp only [PrintableFields] at h
    simp only [fieldDocs, FieldsOk]
    exact ⟨h.1, oneLine_none, docOk_typeDoc t h.2.1, fieldsOk_fieldDocs r h.2.2⟩
end

theorem kdoc_withDoc (t : KTy) (d : Option String) : kdoc (withDoc t d) = kdoc t := by cases d <;> simp [withDoc, kdoc]
theorem knote_withDoc {t : KTy} (h : knote t = none) (d : Option String) : knote (withDoc t d) = d := by
  cases d <;> simp [withDoc, knote, h]
theorem kOk_withDoc {t : KTy} (h : KOk t) (d : Option String) : KOk (withDoc t d) := by cases d <;> simp [withDoc, KOk, h]

theorem printable_link (l : GLink) (h : Word l.node) : Printable l.ty := by
  unfold GLink.ty
  cases l.typeEnum <;> simp [Printable, h]

theorem isAny_ofTy (t : Ty) : isAny (ofTy t) = true ↔ t = .any := by cases t <;> simp [ofTy, isAny]

theorem itemDoc_kept (f : GItem) :
    itemDoc f = if isAny (itemType f) then none else some (f.name, knote (itemType f), kdoc (itemType f)) := by
  cases f with
  | link l =>
    have h : isAny (itemType (.link l)) = false := by
      cases hd : l.description with
      | some d => simp [itemType, hd, withDoc, isAny]
      | none =>
        simp only [itemType, hd, withDoc]
        rw [Bool.eq_false_iff, Ne, isAny_ofTy]
        unfold GLink.ty
        cases l.typeEnum <;> simp
    rw [h]
    simp [itemDoc, itemType, kdoc_withDoc, kdoc_ofTy, knote_withDoc (knote_ofTy _), GItem.name]
  | field f =>
    cases hd : f.description with
    | some d =>
      have h : isAny (itemType (.field f)) = false := by simp [itemType, hd, withDoc, isAny]
      rw [h]
      simp only [itemDoc, itemType, kdoc_withDoc, kdoc_ofTy, knote_withDoc (knote_ofTy _), GItem.name, hd]
      cases f.ty.getD .any <;> rfl
    | none =>
      have h : isAny (itemType (.field f)) = isAny (ofTy (f.ty.getD .any)) := by simp [itemType, hd, withDoc]
      rw [h]
      simp only [itemDoc, itemType, kdoc_withDoc, kdoc_ofTy, knote_withDoc (knote_ofTy _), GItem.name, hd]
      cases f.ty.getD .any <;> simp [ofTy, isAny]

theorem itemOk {f : GItem} (h : PrintableItem f) : KOk (itemType f) ∧ DocOk (kdoc (itemType f)) ∧ OneLine (knote (itemType f)) ∧ Word f.name := by
  cases f with
  | field f =>
    obtain ⟨h1, h2, h3⟩ := h
    simp only [itemType, kdoc_withDoc, kdoc_ofTy, knote_withDoc (knote_ofTy _)]
    exact ⟨kOk_withDoc (kOk_ofTy _ h2) _, docOk_typeDoc _ h2, h3, h1⟩
  | link l =>
    obtain ⟨h1, h2, h3⟩ := h
    have h2 := printable_link l h2
    simp only [itemType, kdoc_withDoc, kdoc_ofTy, knote_withDoc (knote_ofTy _)]
    exact ⟨kOk_withDoc (kOk_ofTy _ h2) _, docOk_typeDoc _ h2, h3, h1⟩

/-- the fields of a node which are kept -/
theorem nodeFields_eq {n : GNode} (h : (n.fields.map GItem.name).Nodup) :
    nodeFields n = (n.fields.map fun f => (f.name, itemType f)).filter fun x => !isAny x.2 := by
  have h1 : ((n.fields.map fun f => (f.name, itemType f)).map (·.1)).Nodup := by simpa [List.map_map, Function.comp_def] using h
  unfold nodeFields
  rw [dmk_eq_self _ h1, dmk_eq_self]
  exact (List.filter_sublist.map _).nodup h1

theorem kfields_filter (fs : List GItem) :
    kfields ((fs.map fun f => (f.name, itemType f)).filter fun x => !isAny x.2) = fs.filterMap itemDoc := by
  induction fs with
  | nil => rfl
  | cons f r ih =>
    simp only [List.map_cons, List.filter_cons, List.filterMap_cons, itemDoc_kept f]
    cases h : isAny (itemType f) with
    | true => simpa using ih
    | false => simp [kfields, ih]

theorem kdefs_filter (fs : List GItem) :
    ((fs.map fun f => (f.name, itemType f)).filter fun x => !isAny x.2).map kdef = fs.filterMap itemDoc := by
  induction fs with
  | nil => rfl
  | cons f r ih =>
    simp only [List.map_cons, List.filter_cons, List.filterMap_cons, itemDoc_kept f]
    cases h : isAny (itemType f) with
    | true => simpa using ih
    | false => simp [kdef, ih]

theorem kFieldsOk_iff (fs : List (String × KTy)) : KFieldsOk fs ↔ ∀ x ∈ fs, KOk x.2 := by
  induction fs with
  | nil => simp [KFieldsOk]
  | cons x r ih => obtain ⟨n, t⟩ := x; simp [KFieldsOk, ih]

theorem fieldsOk_iff (fs : List (String × Option String × Doc)) :
    FieldsOk fs ↔ ∀ x ∈ fs, DefOk x := by
  induction fs with
  | nil => simp [FieldsOk]
  | cons x r ih => obtain ⟨n, d, t⟩ := x; simp [FieldsOk, DefOk, ih, and_assoc]

theorem itemDoc_ok {f : GItem} (h : PrintableItem f) {d : Def} (hd : itemDoc f = some d) : DefOk d := by
  obtain ⟨_, h2, h3, h4⟩ := itemOk h
  rw [itemDoc_kept] at hd
  split at hd
  · simp at hd
  · simp at hd; subst hd; exact ⟨h4, h3, h2⟩

/-! ### The definitions of a graph -/

/-- the definition of a node -/
def nodeDef (n : GNode) : Option (String × KTy) := n.name.map fun s => (s, withDoc (.record (nodeFields n)) n.description)

theorem nodeDefs_names (l : List GNode) : (l.filterMap nodeDef).map (·.1) = l.filterMap (·.name) := by
  induction l with
  | nil => rfl
  | cons n r ih =>
    simp only [List.filterMap_cons, nodeDef]
    cases n.name with
    | none => simpa [nodeDef] using ih
    | some s => simpa [nodeDef] using ih

theorem isAny_node {n : GNode} {d : String × KTy} (h : nodeDef n = some d) : isAny d.2 = false := by
  unfold nodeDef at h
  cases hn : n.name with
  | none => simp [hn] at h
  | some s => simp [hn] at h; subst h; cases n.description <;> simp [withDoc, isAny]

theorem kdef_node {n : GNode} (h : (n.fields.map GItem.name).Nodup) :
    (nodeDef n).map kdef = n.name.map fun s => (s, n.description, Doc.record (n.fields.filterMap itemDoc)) := by
  unfold nodeDef
  cases n.name with
  | none => rfl
  | some s =>
    have h1 : knote (withDoc (.record (nodeFields n)) n.description) = n.description := knote_withDoc (by simp [knote]) _
    simp only [Option.map_some, kdef]
    rw [h1, kdoc_withDoc, kdoc, nodeFields_eq h, kfields_filter]

theorem rootFields_eq {g : Graph} (h : PrintableGraph g) :
    dmk ((g.items.filter fun n => n.name.isNone).flatMap nodeFields) =
      (g.root.fields.map fun f => (f.name, itemType f)).filter fun x => !isAny x.2 := by
  have e : (g.items.filter fun n => n.name.isNone).flatMap nodeFields =
      (g.root.fields.map fun f => (f.name, itemType f)).filter fun x => !isAny x.2 := by
    have h1 : ∀ n ∈ g.items.filter fun n => n.name.isNone, (n.fields.map GItem.name).Nodup :=
      fun n hn => h.fieldNames n (List.mem_filter.1 hn).1
    simp only [Graph.root]
    generalize (g.items.filter fun n => n.name.isNone) = l at h1
    induction l with
    | nil => rfl
    | cons n r ih =>
      rw [List.flatMap_cons, List.flatMap_cons, List.map_append, List.filter_append, nodeFields_eq (h1 n (by simp)),
        ih fun x hx => h1 x (by simp [hx])]
  rw [e, dmk_eq_self]
  have h1 : ((g.root.fields.map fun f => (f.name, itemType f)).map (·.1)).Nodup := by
    simpa [List.map_map, Function.comp_def] using h.rootNames
  exact (List.filter_sublist.map _).nodup h1

/-- the definitions, without the dictionaries -/
theorem typeDefs_eq {g : Graph} (h : PrintableGraph g) : typeDefs g =
    (g.dataTypes.map fun x => (x.1, ofTy x.2)).filter (fun x => !isAny x.2) ++ g.items.filterMap nodeDef ++
      (g.root.fields.map fun f => (f.name, itemType f)).filter fun x => !isAny x.2 := by
  unfold typeDefs
  simp only
  rw [rootFields_eq h]
  have e : (g.items.filterMap fun n => n.name.map fun s => (s, withDoc (.record (nodeFields n)) n.description)) =
      g.items.filterMap nodeDef := rfl
  have hk : ((g.dataTypes.map fun x => (x.1, ofTy x.2)) ++ g.items.filterMap nodeDef).map (·.1) =
      g.dataTypes.map (·.1) ++ g.items.filterMap (·.name) := by
    rw [List.map_append, nodeDefs_names, List.map_map]; rfl
  rw [e, dupdate_eq_append _ _ (by rw [hk]; exact h.names), List.filter_append, List.filter_filter]
  have hroot : ∀ x ∈ (g.dataTypes.map fun x => (x.1, ofTy x.2)) ++ g.items.filterMap nodeDef, x.1 ≠ "__root__" := by
    intro x hx he
    apply h.notRoot
    rw [← hk, ← he]
    exact List.mem_map_of_mem hx
  congr 1
  · congr 1
    · apply List.filter_congr
      intro x hx
      simp [hroot x (by simp only [List.mem_append]; exact .inl hx)]
    · rw [List.filter_eq_self]
      intro x hx
      obtain ⟨n, _, hn⟩ := List.mem_filterMap.1 hx
      simp [isAny_node hn, hroot x (by simp only [List.mem_append]; exact .inr hx)]
  · apply List.filter_congr
    simp

theorem kdefs_data (l : List (String × Ty)) :
    ((l.map fun x => (x.1, ofTy x.2)).filter fun x => !isAny x.2).map kdef =
      l.filterMap fun x => (match x.2 with | .any => none | t => some (x.1, none, typeDoc t)) := by
  induction l with
  | nil => rfl
  | cons x r ih =>
    obtain ⟨n, t⟩ := x
    simp only [List.map_cons, List.filter_cons, List.filterMap_cons]
    cases h : isAny (ofTy t) with
    | true =>
      have := (isAny_ofTy t).1 h
      subst this
      simpa using ih
    | false =>
      have : t ≠ .any := fun e => by rw [(isAny_ofTy t).2 e] at h; simp at h
      simp only [Bool.not_false, if_true, List.map_cons, ih, kdef, knote_ofTy, kdoc_ofTy]


theorem typeDefs_defs {g : Graph} (h : PrintableGraph g) : (typeDefs g).map kdef = graphDefs g := by
  rw [typeDefs_eq h, List.map_append, List.map_append, kdefs_data, kdefs_filter]
  unfold graphDefs
  congr 2
  rw [List.map_filterMap]
  apply List.filterMap_congr
  intro n hn
  exact kdef_node (h.fieldNames n hn)

theorem root_items {g : Graph} (h : PrintableGraph g) : ∀ f ∈ g.root.fields, PrintableItem f := by
  intro f hf
  simp only [Graph.root, List.mem_flatMap, List.mem_filter] at hf
  obtain ⟨n, hn, hf⟩ := hf
  exact h.items n hn.1 f hf

theorem typeDefs_ok {g : Graph} (h : PrintableGraph g) : ∀ d ∈ typeDefs g, KOk d.2 := by
  intro d hd
  rw [typeDefs_eq h] at hd
  simp only [List.mem_append, List.mem_filter, List.mem_map, List.mem_filterMap] at hd
  rcases hd with (⟨⟨x, hx, rfl⟩, _⟩ | ⟨n, hn, hd⟩) | ⟨⟨f, hf, rfl⟩, _⟩
  · exact kOk_ofTy _ (h.dataTypes x hx)
  · unfold nodeDef at hd
    cases hs : n.name with
    | none => simp [hs] at hd
    | some s =>
      simp [hs] at hd
      subst hd
      apply kOk_withDoc
      simp only [KOk, kFieldsOk_iff, nodeFields_eq (h.fieldNames n hn), List.mem_filter, List.mem_map]
      rintro _ ⟨⟨f, hf, rfl⟩, _⟩
      exact (itemOk (h.items n hn f hf)).1
  · exact (itemOk (root_items h f hf)).1

theorem graphDefs_ok {g : Graph} (h : PrintableGraph g) : ∀ d ∈ graphDefs g, DefOk d := by
  intro d hd
  unfold graphDefs at hd
  simp only [List.mem_append] at hd
  rcases hd with (hd | hd) | hd
  · obtain ⟨x, hx, hd⟩ := List.mem_filterMap.1 hd
    have hw : Word x.1 := h.words _ (by simp only [List.mem_append]; exact .inl (List.mem_map_of_mem hx))
    have hp := h.dataTypes x hx
    split at hd
    · simp at hd
    · rename_i t _ _
      simp at hd
      subst hd
      exact ⟨hw, oneLine_none, docOk_typeDoc _ hp⟩
  · obtain ⟨n, hn, hd⟩ := List.mem_filterMap.1 hd
    cases hs : n.name with
    | none => simp [hs] at hd
    | some s =>
      simp [hs] at hd
      subst hd
      refine ⟨h.words _ (by simp only [List.mem_append]; exact .inr (List.mem_filterMap.2 ⟨n, hn, hs⟩)), h.descriptions n hn, ?_⟩
      simp only [DocOk, fieldsOk_iff]
      intro x hx
      obtain ⟨f, hf, hx⟩ := List.mem_filterMap.1 hx
      exact itemDoc_ok (h.items n hn f hf) hx
  · obtain ⟨f, hf, hd⟩ := List.mem_filterMap.1 hd
    exact itemDoc_ok (root_items h f hf) hd

end Hiku.Kinko
