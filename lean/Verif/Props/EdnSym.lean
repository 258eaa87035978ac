import Verif.Props.EdnText

/-! # C28: exactly which symbols and keywords are read back -/

namespace Hiku.EdnSym
open Hiku Hiku.EdnText

variable {P : PyText} {th : String → Option (Val → Except Err Val)}

theorem symEnd_iff {c : Char} : c ∉ symEnd ↔ ¬Closing c ∧ ¬Space c := by
  simp only [symEnd, stopChars, Closing, Space, List.mem_append, List.mem_cons, List.not_mem_nil, or_false]
  tauto

/-- a value which is neither a collection, nor a string, nor a tagged element -/
def Wordy : Val → Prop
  | .str _ | .seq .. | .map .. | .tagged .. => False
  | _ => True

theorem item_not (hth : ∀ n, th n = none) {t : List Char} {v : Val} (h : Item P th t (some v)) : ¬ Wordy v := by
  cases h with
  | tag _ _ _ ht =>
    cases ht with
    | plain _ => exact id
    | handled h _ _ => rw [hth] at h; cases h
  | _ => exact id

/-- a document which consists of one word only has the value of the word -/
theorem reads_word (hth : ∀ n, th n = none) : ∀ {n : Char} {t : List Char} {vs : List Val}, Reads P th n t vs →
    ∀ v ∈ vs, Wordy v → ∃ s e, Word P s v e
  | _, _, _, .nil => fun v hv => by cases hv
  | _, _, _, .space _ h => reads_word hth h
  | _, _, _, .comment _ h => reads_word hth h
  | _, _, _, .skip _ h => reads_word hth h
  | _, _, _, .item hi h => fun w hw hww => by
    rcases List.mem_cons.1 hw with rfl | hw
    · exact absurd hww (item_not hth hi)
    · exact reads_word hth h w hw hww
  | _, _, _, .word hword _ h => fun w hw hww => by
    rcases List.mem_cons.1 hw with rfl | hw
    · exact ⟨_, _, hword⟩
    · exact reads_word hth h w hw hww

theorem loads_word (hP : P.Ok) (hth : ∀ n, th n = none) {t : List Char} {v : Val} (hv : Wordy v) (h : loads P th t = .ok v) :
    ∃ s e, Word P s v e := by
  obtain ⟨a, u, _, h2, _⟩ := (c60_exact hP).1 h
  exact reads_word hth (h2 ' ') v (by simp) hv

theorem num_ne_sym {s : List Char} {v : Val} (h : Num P s v) : (∀ x, v ≠ .sym x) ∧ ∀ x, v ≠ .kw x := by
  cases h <;> constructor <;> intro x h <;> cases h

theorem chr_ne {s : List Char} {v : Val} (h : Chr s v) : (∀ x, v ≠ .sym x) ∧ ∀ x, v ≠ .kw x := by
  cases h <;> constructor <;> intro x h <;> cases h

/-- **C28** for symbols, all of them: which ones are read back -/
theorem c28_symbols (hP : P.Ok) (hth : ∀ n, th n = none) (ascii : Bool) (s : String) :
    (∃ t, dumps ascii (.sym s) = .ok t ∧ loads P th t = .ok (.sym s)) ↔ SymOk P s.toList := by
  constructor
  · rintro ⟨t, h1, h2⟩
    obtain ⟨w, e, hw⟩ := loads_word hP hth (by exact trivial) h2
    have key : ∀ {w : List Char}, Sym w (.sym s) → w = s.toList ∧ w.head? ≠ some ':' ∧ w ≠ "true".toList ∧ w ≠ "false".toList ∧
        w ≠ "nil".toList := by
      intro w hs
      generalize hv : Val.sym s = v at hs
      cases hs with
      | sym a b c d =>
        cases hv
        exact ⟨by simp, a, b, c, d⟩
      | _ => cases hv
    cases hw with
    | num _ _ hn => exact absurd rfl ((num_ne_sym hn).1 s)
    | signed _ _ _ hn => exact absurd rfl ((num_ne_sym hn).1 s)
    | chr _ hc => exact absurd rfl ((chr_ne hc).1 s)
    | sym hc hr hs =>
      obtain ⟨e1, e2, e3, e4, e5⟩ := key hs
      rename_i c r
      rw [← e1]
      refine ⟨.inl ⟨c, r, rfl, ?_, fun x hx => symEnd_iff.2 (hr x hx)⟩, by simpa using e3, by simpa using e4, by simpa using e5⟩
      rcases hc with hc | rfl
      · exact hc
      · exact absurd rfl e2
    | dashed hc hd hr hs =>
      obtain ⟨e1, e2, e3, e4, e5⟩ := key hs
      rename_i c c' r
      rw [← e1]
      exact ⟨.inr ⟨c, c', r, rfl, hc, hd, fun x hx => symEnd_iff.2 (hr x hx)⟩, by simpa using e3, by simpa using e4,
        by simpa using e5⟩
  · intro h
    exact c28_partial hP ascii (v := .sym s) (by simpa [EdnVal] using h)

/-- **C28** for keywords -/
theorem c28_keywords (hP : P.Ok) (hth : ∀ n, th n = none) (ascii : Bool) (s : String) :
    (∃ t, dumps ascii (.kw s) = .ok t ∧ loads P th t = .ok (.kw s)) ↔ ∀ c ∈ s.toList, c ∉ symEnd := by
  constructor
  · rintro ⟨t, h1, h2⟩
    obtain ⟨w, e, hw⟩ := loads_word hP hth (by exact trivial) h2
    have key : ∀ {w : List Char}, Sym w (.kw s) → w = ':' :: s.toList := by
      intro w hs
      generalize hv : Val.kw s = v at hs
      cases hs with
      | kw => cases hv; simp
      | _ => cases hv
    cases hw with
    | num _ _ hn => exact absurd rfl ((num_ne_sym hn).2 s)
    | signed _ _ _ hn => exact absurd rfl ((num_ne_sym hn).2 s)
    | chr _ hc => exact absurd rfl ((chr_ne hc).2 s)
    | sym hc hr hs =>
      have := key hs
      simp only [List.cons.injEq] at this
      rw [← this.2]
      exact fun x hx => symEnd_iff.2 (hr x hx)
    | dashed hc hd hr hs =>
      have := key hs
      simp only [List.cons.injEq] at this
      rcases hc with hc | hc <;> (rw [this.1] at hc; exact absurd hc (by decide))
  · intro h
    exact c28_partial hP ascii (v := .kw s) (by simpa [EdnVal] using h)

/-- `Symbol('- x')`: the second character is not looked at -/
theorem c28_second : ∃ t, dumps true (.sym "- x") = .ok t ∧ loads exPyText noTags t = .ok (.sym "- x") :=
  (c28_symbols exPyText_ok (fun _ => rfl) true "- x").2
    ⟨.inr ⟨'-', ' ', ['x'], by decide, .inl rfl, by decide, by decide⟩, by decide, by decide, by decide⟩

/-- `Symbol('+')`, a usual name of a function, is not read back -/
theorem c28_plus : ¬ ∃ t, dumps true (.sym "+") = .ok t ∧ loads exPyText noTags t = .ok (.sym "+") := by
  rw [c28_symbols (th := noTags) exPyText_ok (fun _ => rfl) true "+"]
  rintro ⟨⟨c, r, h, hc, -⟩ | ⟨c, c', r, h, -⟩, -⟩
  · have : "+".toList = ['+'] := by decide
    rw [this] at h; cases h; revert hc; decide
  · have : "+".toList = ['+'] := by decide
    rw [this] at h; cases h

end Hiku.EdnSym
