import Verif.Spec.EdnText
import Verif.Proofs.Edn
import Verif.Proofs.PyEq
import Std.Data.String.ToInt

/-! Proofs for C60 -/

namespace Hiku
namespace EdnText

variable {P : PyText} {th : String → Option (Val → Except Err Val)}

/-! ### Characters -/

theorem space_iff {c : Char} : c ∈ stopChars ↔ Space c := by simp [stopChars, Space]

theorem digit_iff {c : Char} : c ∈ digitChars ↔ Digit c := by
  constructor
  · intro h
    simp only [digitChars, List.mem_cons, List.not_mem_nil, or_false] at h
    rcases h with rfl | rfl | rfl | rfl | rfl | rfl | rfl | rfl | rfl | rfl <;> exact ⟨by decide, by decide⟩
  · rintro ⟨h1, h2⟩
    have h1 : 48 ≤ c.toNat := h1
    have h2 : c.toNat ≤ 57 := h2
    have : c = Char.ofNat c.toNat := (Char.ofNat_toNat c).symm
    rw [this]
    generalize c.toNat = k at h1 h2
    have : k = 48 ∨ k = 49 ∨ k = 50 ∨ k = 51 ∨ k = 52 ∨ k = 53 ∨ k = 54 ∨ k = 55 ∨ k = 56 ∨ k = 57 := by omega
    rcases this with rfl | rfl | rfl | rfl | rfl | rfl | rfl | rfl | rfl | rfl <;> decide

theorem numChars_eq : numChars = digitChars ++ ['+', '-', 'e', 'E', 'M', 'N', '.'] := rfl

theorem num_iff {c : Char} : c ∈ numChars ↔ NumChar c := by
  rw [numChars_eq, List.mem_append, digit_iff]
  simp [NumChar]

theorem symEnd_iff {c : Char} : c ∈ symEnd ↔ Closing c ∨ Space c := by
  simp [symEnd, stopChars, Closing, Space, or_assoc]

theorem symEnd_iff' {c : Char} : c ∉ symEnd ↔ ¬Closing c ∧ ¬Space c := by rw [symEnd_iff]; tauto

theorem tagEnd_iff {c : Char} : c ∈ tagEnd ↔ TagEnd c := by
  rw [tagEnd, List.mem_append, space_iff, TagEnd]

theorem escape_eq (c : Char) : Escape c = unescape c := by
  unfold Escape unescape
  split <;> try rfl
  rename_i h1 h2 h3 h4 h5 h6 h7
  simp_all

theorem digit_lt {c : Char} (h : Digit c) : c.toNat < 128 := by
  have : c.toNat ≤ 57 := h.2
  omega

theorem digit_not_alpha (hP : P.Ok) {c : Char} (h : Digit c) : P.isalpha c = false := by
  rw [hP.alpha c (digit_lt h)]
  have := digit_iff.2 h
  simp only [digitChars, List.mem_cons, List.not_mem_nil, or_false] at this
  rcases this with rfl | rfl | rfl | rfl | rfl | rfl | rfl | rfl | rfl | rfl <;> rfl

/-! ### Numbers -/

theorem isDigit_iff {c : Char} : c.isDigit = true ↔ Digit c := by
  simp only [Char.isDigit, Bool.and_eq_true, decide_eq_true_eq, Digit]
  rfl

theorem upper_cases (c : Char) :
    c.toUpper = c ∨ (97 ≤ c.toNat ∧ c.toNat ≤ 122 ∧ c.toUpper.toNat + 32 = c.toNat) := by
  unfold Char.toUpper
  split
  · rename_i h
    right
    have h1 : 97 ≤ c.val.toNat := h.1
    have h2 : c.val.toNat ≤ 122 := h.2
    refine ⟨h1, h2, ?_⟩
    show (c.val + ('A'.val - 'a'.val)).toNat + 32 = c.val.toNat
    rw [UInt32.toNat_add]
    have : ('A'.val - 'a'.val).toNat = 2 ^ 32 - 32 := by decide
    omega
  · exact .inl rfl

theorem char_ext {c d : Char} (h : c.toNat = d.toNat) : c = d := by
  rw [← Char.ofNat_toNat c, ← Char.ofNat_toNat d, h]

/-- characters which are not capital letters come from themselves -/
theorem upper_eq {c d : Char} (h : c.toUpper = d) (hd : d.toNat < 65 ∨ 90 < d.toNat) : c = d := by
  rcases upper_cases c with h1 | ⟨h1, h2, h3⟩
  · rw [← h, h1]
  · rw [h] at h3; omega

theorem upper_E {c : Char} (h : c.toUpper = 'E') : c = 'e' ∨ c = 'E' := by
  rcases upper_cases c with h1 | ⟨h1, h2, h3⟩
  · exact .inr (by rw [← h, h1])
  · rw [h] at h3
    exact .inl (char_ext h3.symm)

theorem suffix_iff {s : List Char} : Suffix s ↔ ∀ c ∈ s, (decide (c = 'M') || decide (c = 'N')) = true := by
  simp [Suffix]

/-- what `rstrip` leaves -/
theorem rstrip_append {b suf : List Char} (hs : Suffix suf) (hb : ∀ c ∈ b.getLast?, c ≠ 'M' ∧ c ≠ 'N') :
    rstripMN (b ++ suf) = b := by
  unfold rstripMN
  rw [List.reverse_append, List.dropWhile_append_of_pos]
  · have : b.reverse.dropWhile (fun c => decide (c = 'M') || decide (c = 'N')) = b.reverse := by
      have hh : b.reverse.head? = b.getLast? := by simp
      rw [← hh] at hb
      cases hr : b.reverse with
      | nil => rfl
      | cons c r =>
        rw [hr] at hb
        have := hb c (by simp)
        simp [List.dropWhile, this]
    rw [this, List.reverse_reverse]
  · intro c hc
    exact suffix_iff.1 hs c (by simpa using hc)

theorem rstrip_split (s : List Char) : ∃ suf, s = rstripMN s ++ suf ∧ Suffix suf ∧
    ∀ c ∈ (rstripMN s).getLast?, c ≠ 'M' ∧ c ≠ 'N' := by
  refine ⟨(s.reverse.takeWhile fun c => decide (c = 'M') || decide (c = 'N')).reverse, ?_, ?_, ?_⟩
  · unfold rstripMN
    rw [← List.reverse_append, List.takeWhile_append_dropWhile, List.reverse_reverse]
  · rw [suffix_iff]
    intro c hc
    rw [List.mem_reverse] at hc
    exact List.all_eq_true.1 List.all_takeWhile c hc
  · intro c hc
    unfold rstripMN at hc
    rw [List.getLast?_reverse] at hc
    have := List.head?_dropWhile_not (fun c => decide (c = 'M') || decide (c = 'N')) s.reverse
    rw [Option.mem_def] at hc
    rw [hc] at this
    simpa using this

theorem decimal_eq (ds : List Char) : Nat.ofDigitChars 10 ds 0 = decimal ds := by
  rw [Nat.ofDigitChars_eq_foldl]; rfl

theorem toNat_iff {s : List Char} (hu : '_' ∉ s) {n : Nat} :
    (String.ofList s).toNat? = some n ↔ s ≠ [] ∧ (∀ c ∈ s, Digit c) ∧ n = decimal s := by
  have hfil : s.filter (· != '_') = s := List.filter_bne_eq_self_of_not_mem hu
  constructor
  · intro h
    have hn := String.isNat_of_toNat?_eq_some h
    rw [String.toNat?_eq_some_ofDigitChars hn, String.toList_ofList, hfil, decimal_eq] at h
    rw [String.isNat_iff] at hn
    refine ⟨?_, fun c hc => ?_, by simpa using h.symm⟩
    · rintro rfl; exact hn.1 rfl
    · rcases hn.2.1 c (by simpa using hc) with h1 | rfl
      · exact isDigit_iff.1 h1
      · exact absurd hc hu
  · rintro ⟨h1, h2, rfl⟩
    have hn : (String.ofList s).isNat = true := by
      apply String.isNat_of_isDigit
      · intro h
        apply h1
        have := congrArg String.toList h
        simpa using this
      · intro c hc; exact isDigit_iff.2 (h2 c (by simpa using hc))
    rw [String.toNat?_eq_some_ofDigitChars hn, String.toList_ofList, hfil, decimal_eq]

theorem toInt_iff {s : List Char} (hu : '_' ∉ s) {i : Int} :
    (String.ofList s).toInt? = some i ↔ (s ≠ [] ∧ (∀ c ∈ s, Digit c) ∧ i = (decimal s : Int)) ∨
      ∃ r, s = '-' :: r ∧ r ≠ [] ∧ (∀ c ∈ r, Digit c) ∧ i = -(decimal r : Int) := by
  rw [String.toInt?_eq_some_iff]
  constructor
  · rintro (⟨b, h, rfl⟩ | ⟨t, h, b, h', rfl⟩)
    · obtain ⟨h1, h2, rfl⟩ := (toNat_iff hu).1 h
      exact .inl ⟨h1, h2, rfl⟩
    · right
      have hs : s = '-' :: t.toList := by
        have := congrArg String.toList h
        simpa using this
      rw [← String.ofList_toList (s := t)] at h'
      obtain ⟨h1, h2, rfl⟩ := (toNat_iff (by rw [hs] at hu; simp at hu; exact hu)).1 h'
      exact ⟨_, hs, h1, h2, rfl⟩
  · rintro (⟨h1, h2, rfl⟩ | ⟨r, rfl, h1, h2, rfl⟩)
    · exact .inl ⟨_, (toNat_iff hu).2 ⟨h1, h2, rfl⟩, rfl⟩
    · refine .inr ⟨String.ofList r, ?_, _, (toNat_iff (by simp at hu; exact hu)).2 ⟨h1, h2, rfl⟩, rfl⟩
      apply String.toList_injective
      simp

theorem digit_upper {c : Char} (h : Digit c.toUpper) : c.toUpper = c := by
  rcases upper_cases c with h1 | ⟨h1, h2, h3⟩
  · exact h1
  · have : c.toUpper.toNat ≤ 57 := h.2
    omega

theorem digit_upper' {c : Char} (h : Digit c) : c.toUpper = c := by
  rcases upper_cases c with h1 | ⟨h1, h2, h3⟩
  · exact h1
  · have : c.toNat ≤ 57 := h.2
    omega

theorem map_upper {l : List Char} (h : ∀ c ∈ l, c.toUpper = c) : l.map Char.toUpper = l := by
  conv_rhs => rw [← List.map_id l]
  exact List.map_congr_left h

theorem isFloat_iff {b : List Char} : ((b.map Char.toUpper).contains 'E' || (b.map Char.toUpper).contains '.') = true ↔
    ('.' ∈ b ∨ 'e' ∈ b ∨ 'E' ∈ b) := by
  simp only [List.contains_eq_mem, Bool.or_eq_true, decide_eq_true_eq, List.mem_map]
  constructor
  · rintro (⟨c, h, h'⟩ | ⟨c, h, h'⟩)
    · rcases upper_E h' with rfl | rfl
      · exact .inr (.inl h)
      · exact .inr (.inr h)
    · rw [upper_eq h' (by decide)] at h
      exact .inl h
  · rintro (h | h | h)
    · exact .inr ⟨_, h, rfl⟩
    · exact .inl ⟨_, h, rfl⟩
    · exact .inl ⟨_, h, rfl⟩

theorem digits_last {ds : List Char} (h : ∀ c ∈ ds, Digit c) : ∀ c ∈ ds.getLast?, c ≠ 'M' ∧ c ≠ 'N' := by
  intro c hc
  have := h c (List.mem_of_getLast? hc)
  constructor
  · rintro rfl; exact absurd this.2 (by decide)
  · rintro rfl; exact absurd this.2 (by decide)

theorem number_iff {s : List Char} (hu : '_' ∉ s) {v : Val} : parseNumber P s = .ok v ↔ Num P s v := by
  constructor
  · intro h
    obtain ⟨suf, h1, h2, h3⟩ := rstrip_split s
    unfold parseNumber at h
    generalize rstripMN s = b at h h1 h3
    subst h1
    dsimp only at h
    split at h
    · rename_i hf
      split at h
      · cases h
        rename_i t ht
        exact .float (isFloat_iff.1 hf) h3 h2 ht
      · cases h
    · split at h
      · cases h
        rename_i i hi
        have hub : '_' ∉ b.map Char.toUpper := by
          rw [List.mem_map]
          rintro ⟨c, hc, hc'⟩
          rw [upper_eq hc' (by decide)] at hc
          exact hu (by simp [hc])
        rcases (toInt_iff hub).1 hi with ⟨h4, h5, rfl⟩ | ⟨r, h4, h5, h6, rfl⟩
        · have : b.map Char.toUpper = b := map_upper fun c hc => digit_upper (h5 _ (List.mem_map_of_mem hc))
          rw [this] at h4 h5 ⊢
          exact .int h4 h5 h2
        · have : b.map Char.toUpper = b := map_upper fun c hc => by
            have hm : c.toUpper ∈ '-' :: r := h4 ▸ List.mem_map_of_mem hc
            rcases List.mem_cons.1 hm with h | h
            · rw [h, upper_eq h (by decide)]
            · exact digit_upper (h6 _ h)
          rw [this] at h4
          subst h4
          exact .neg h5 h6 h2
      · cases h
  · intro h
    cases h with
    | @int ds suf h1 h2 h3 =>
      have hm : ds.map Char.toUpper = ds := map_upper fun c hc => digit_upper' (h2 c hc)
      have hf : ¬('.' ∈ ds ∨ 'e' ∈ ds ∨ 'E' ∈ ds) := by
        rintro (h | h | h)
        · exact absurd (h2 _ h).1 (by decide)
        · exact absurd (h2 _ h).2 (by decide)
        · exact absurd (h2 _ h).2 (by decide)
      unfold parseNumber
      rw [rstrip_append h3 (digits_last h2), if_neg (by rw [isFloat_iff]; exact hf), hm,
        (toInt_iff (by intro h; exact absurd (h2 _ h).2 (by decide))).2 (.inl ⟨h1, h2, rfl⟩)]
    | @neg ds suf h1 h2 h3 =>
      have hm : ('-' :: ds).map Char.toUpper = '-' :: ds := map_upper fun c hc => by
        rcases List.mem_cons.1 hc with rfl | h
        · rfl
        · exact digit_upper' (h2 c h)
      have hf : ¬('.' ∈ '-' :: ds ∨ 'e' ∈ '-' :: ds ∨ 'E' ∈ '-' :: ds) := by
        simp only [List.mem_cons, show ('.' = '-') = False by decide, show ('e' = '-') = False by decide,
          show ('E' = '-') = False by decide, false_or]
        rintro (h | h | h)
        · exact absurd (h2 _ h).1 (by decide)
        · exact absurd (h2 _ h).2 (by decide)
        · exact absurd (h2 _ h).2 (by decide)
      have hl : ∀ c ∈ ('-' :: ds).getLast?, c ≠ 'M' ∧ c ≠ 'N' := by
        intro c hc
        rcases List.mem_cons.1 (List.mem_of_getLast? hc) with rfl | h
        · decide
        · have := h2 c h
          constructor
          · rintro rfl; exact absurd this.2 (by decide)
          · rintro rfl; exact absurd this.2 (by decide)
      unfold parseNumber
      rw [rstrip_append h3 hl, if_neg (by rw [isFloat_iff]; exact hf), hm,
        (toInt_iff (by simp only [List.mem_cons, show ('_' = '-') = False by decide, false_or]; intro h; exact absurd (h2 _ h).2 (by decide))).2 (.inr ⟨_, rfl, h1, h2, rfl⟩)]
    | @float b suf t h1 h2 h3 h4 =>
      unfold parseNumber
      rw [rstrip_append h3 h2, if_pos (isFloat_iff.2 h1), h4]

/-! ### Words -/

theorem sym_iff {s : List Char} {v : Val} : symVal s = v ↔ Sym s v := by
  constructor
  · rintro rfl
    unfold symVal
    split
    · exact .kw
    · rename_i h
      split
      · rename_i h; subst h; exact .true
      · split
        · rename_i h; subst h; exact .false
        · split
          · rename_i h; subst h; exact .nil
          · rename_i h1 h2 h3
            refine .sym ?_ h1 h2 h3
            intro hc
            cases s with
            | nil => cases hc
            | cons c r => simp at hc; subst hc; exact h _ rfl
  · intro h
    cases h with
    | kw => rfl
    | true => rfl
    | false => rfl
    | nil => rfl
    | sym h1 h2 h3 h4 =>
      unfold symVal
      split
      · simp at h1
      · have h2 : s ≠ ['t', 'r', 'u', 'e'] := h2
        have h3 : s ≠ ['f', 'a', 'l', 's', 'e'] := h3
        have h4 : s ≠ ['n', 'i', 'l'] := h4
        rw [if_neg h2, if_neg h3, if_neg h4]

theorem chr_iff {r : List Char} {v : Val} : chrVal r = .ok v ↔ Chr r v := by
  constructor
  · intro h
    unfold chrVal at h
    split at h
    · cases h; exact .one
    · split at h
      · rename_i h1; subst h1; cases h; exact .newline
      · split at h
        · rename_i h1; subst h1; cases h; exact .space
        · split at h
          · rename_i h1; subst h1; cases h; exact .tab
          · cases h
  · intro h
    cases h <;> rfl

theorem underscore_num {s : List Char} (h : ∀ c ∈ s, NumChar c) : '_' ∉ s := by
  intro hm
  rcases h _ hm with h | h
  · exact absurd h.2 (by decide)
  · revert h; decide

theorem numChar_digit {c : Char} (h : Digit c) : NumChar c := .inl h

theorem isdigit_under (hP : P.Ok) {d : Char} (h : P.isdigit d = true) : d ≠ '_' := by
  rintro rfl
  rw [hP.digit _ (by decide)] at h
  revert h; decide

theorem feed_num_stay {stop : Option Char} {s : List Char} {c : Char} (h : NumChar c) :
    feed P th stop (.num s) c = .ok (.go [] (.num (s ++ [c]))) := by
  rw [feed, if_pos (num_iff.2 h)]

theorem feed_num_end {stop : Option Char} {s : List Char} {c : Char} (h : ¬NumChar c) :
    feed P th stop (.num s) c = (do
      let v ← parseNumber P s
      let r ← feedIdle P stop c
      .ok (r.pre [v])) := by
  rw [feed, if_neg (fun h' => h (num_iff.1 h'))]

theorem feedAll_num {stop : Option Char} {r : List Char} (h : ∀ c ∈ r, NumChar c) : ∀ s,
    feedAll P th stop (.num s) r = .ok ([], .num (s ++ r)) := by
  induction r with
  | nil => intro s; simp [feedAll]
  | cons c r ih =>
    intro s
    have := feedAll_cons (feed_num_stay (P := P) (th := th) (stop := stop) (s := s) (h c (by simp)))
      (ih (fun x hx => h x (by simp [hx])) (s ++ [c]))
    simpa using this

theorem feedAll_sym {stop : Option Char} {r : List Char} (h : ∀ c ∈ r, ¬Closing c ∧ ¬Space c) : ∀ s,
    feedAll P th stop (.sym s) r = .ok ([], .sym (s ++ r)) := by
  induction r with
  | nil => intro s; simp [feedAll]
  | cons c r ih =>
    intro s
    have h1 : feed P th stop (.sym s) c = .ok (.go [] (.sym (s ++ [c]))) := by
      rw [feed, if_neg (symEnd_iff'.2 (h c (by simp)))]
    have := feedAll_cons h1 (ih (fun x hx => h x (by simp [hx])) (s ++ [c]))
    simpa using this

theorem feedAll_chr {stop : Option Char} {r : List Char} (h : ∀ c ∈ r, P.isalpha c = true) : ∀ s,
    feedAll P th stop (.chr s) r = .ok ([], .chr (s ++ r)) := by
  induction r with
  | nil => intro s; simp [feedAll]
  | cons c r ih =>
    intro s
    have h1 : feed P th stop (.chr s) c = .ok (.go [] (.chr (s ++ [c]))) := by
      rw [feed, if_pos (by simp [h c (by simp)])]
    have := feedAll_cons h1 (ih (fun x hx => h x (by simp [hx])) (s ++ [c]))
    simpa using this

/-- what the parser does with a character between elements -/
theorem stop_ne {stop : Option Char} (hs : StopOk stop) {c : Char} (hc : c ∉ ['}', ']', ')']) : stop ≠ some c :=
  fun h => hc (hs c h)

theorem idle_digit {stop : Option Char} (hs : StopOk stop) {d : Char} (hd : Digit d) :
    feedIdle P stop d = .ok (.go [] (.num [d])) := feedIdle_digit hs (digit_iff.2 hd)

theorem idle_dash {stop : Option Char} (hs : StopOk stop) {c : Char} (hc : c = '-' ∨ c = '.') :
    feedIdle P stop c = .ok (.go [] (.dash c)) := feedIdle_dash hs hc

theorem idle_alpha (hP : P.Ok) {stop : Option Char} (hs : StopOk stop) {c : Char} (hc : P.isalpha c = true ∨ c = ':') :
    feedIdle P stop c = .ok (.go [] (.sym [c])) := feedIdle_alpha hP hs hc

theorem idle_slash {stop : Option Char} (hs : StopOk stop) : feedIdle P stop '\\' = .ok (.go [] (.chr [])) := by
  have : stop ≠ some '\\' := stop_ne hs (by decide)
  simp [feedIdle, this, stopChars]

theorem idle_space {stop : Option Char} (hs : StopOk stop) {c : Char} (hc : Space c) :
    feedIdle P stop c = .ok (.go [] .idle) := by
  have : stop ≠ some c := stop_ne hs (by rcases hc with rfl | rfl | rfl | rfl | rfl <;> decide)
  rw [feedIdle, if_neg this, if_pos (space_iff.2 hc)]

/-- a word, and what happens to the next character -/
theorem word_run (hP : P.Ok) {s : List Char} {v : Val} {e : Char → Prop} (h : Word P s v e) {stop : Option Char} (hs : StopOk stop) :
    ∃ p, p ≠ .idle ∧ feedAll P th stop .idle s = .ok ([], p) ∧ ∀ c, e c → feed P th stop p c = (do
      let r ← feedIdle P stop c
      .ok (r.pre [v])) := by
  cases h with
  | @num d r _ h1 h2 h3 =>
    refine ⟨.num (d :: r), by simp, feedAll_cons (p' := .num [d]) (o := []) (by rw [feed]; exact idle_digit hs h1) (feedAll_num h2 _), fun c hc => ?_⟩
    rw [feed_num_end hc, (number_iff ?_).2 h3]; · rfl
    refine underscore_num fun x hx => ?_
    rcases List.mem_cons.1 hx with rfl | hx
    · exact .inl h1
    · exact h2 x hx
  | @signed c d r _ h1 h2 h3 h4 =>
    have hd : feed P th stop (.dash c) d = .ok (.go [] (.num [c, d])) := by simp [feed, h2]
    refine ⟨.num (c :: d :: r), by simp, feedAll_cons (p' := .dash c) (o := []) (by rw [feed]; exact idle_dash hs h1)
      (feedAll_cons hd (feedAll_num h3 _)), fun x hx => ?_⟩
    rw [feed_num_end hx, (number_iff ?_).2 h4]; · rfl
    simp only [List.mem_cons, not_or]
    refine ⟨?_, (isdigit_under hP h2).symm, underscore_num h3⟩
    rcases h1 with rfl | rfl <;> decide
  | @sym c r _ h1 h2 h3 =>
    refine ⟨.sym (c :: r), by simp, feedAll_cons (p' := .sym [c]) (o := []) (by rw [feed]; exact idle_alpha hP hs h1) (feedAll_sym h2 _), fun x hx => ?_⟩
    rw [feed, if_pos (symEnd_iff.2 hx), sym_iff.2 h3]
  | @dashed c d r _ h1 h2 h3 h4 =>
    have hd : feed P th stop (.dash c) d = .ok (.go [] (.sym [c, d])) := by simp [feed, h2]
    refine ⟨.sym (c :: d :: r), by simp, feedAll_cons (p' := .dash c) (o := []) (by rw [feed]; exact idle_dash hs h1)
      (feedAll_cons hd (feedAll_sym h3 _)), fun x hx => ?_⟩
    rw [feed, if_pos (symEnd_iff.2 hx), sym_iff.2 h4]
  | @chr c r _ h1 h2 =>
    have hd : feed P th stop (.chr []) c = .ok (.go [] (.chr [c])) := by simp [feed]
    refine ⟨.chr (c :: r), by simp, feedAll_cons (p' := .chr []) (o := []) (by rw [feed]; exact idle_slash hs)
      (feedAll_cons hd (feedAll_chr h1 _)), fun x hx => ?_⟩
    rw [feed, if_neg (by simp [hx]), chr_iff.2 h2]
    rfl

/-! ### Collections -/

theorem alternate_even (kvs : List (Val × Val)) : (alternate kvs).length % 2 = 0 := by
  unfold alternate
  induction kvs with
  | nil => rfl
  | cons kv r ih => simp only [List.flatMap_cons, List.length_append, List.length_cons, List.length_nil]; omega

theorem pairUp_alternate (kvs : List (Val × Val)) : pairUp (alternate kvs) = kvs := by
  unfold alternate
  induction kvs with
  | nil => rfl
  | cons kv r ih => simp [pairUp, ih]

theorem alternate_pairUp : ∀ (xs : List Val), xs.length % 2 = 0 → alternate (pairUp xs) = xs
  | [], _ => rfl
  | [x], h => by simp at h
  | k :: v :: r, h => by
    have := alternate_pairUp r (by simp only [List.length_cons] at h; omega)
    simpa [pairUp, alternate] using this

theorem hashables_iff {xs : List Val} : hashables xs = true ↔ ∀ x ∈ xs, x.hashable = true := by
  induction xs with
  | nil => simp [hashables]
  | cons x r ih => simp [hashables, ih]

/-- the text which opens a collection -/
def opening (o : Char) : List Char := if o = '#' then ['#', '{'] else [o]
def Opens (o : Char) : Prop := o = '[' ∨ o = '(' ∨ o = '{' ∨ o = '#'

theorem close_item (hP : P.Ok) {o : Char} (ho : Opens o) {b : List Char} {xs : List Val} {v : Val} (hr : Reads P th (endChar o) b xs)
    (h : closeColl P o xs = .ok v) : Item P th (opening o ++ b ++ [endChar o]) (some v) := by
  rcases ho with rfl | rfl | rfl | rfl
  · cases h; exact .list hr
  · cases h; exact .tup hr
  · simp only [closeColl] at h
    simp only [show ('{' = '[') = False by decide, show ('{' = '(') = False by decide, if_true, if_false] at h
    split at h
    · cases h
    · rename_i he
      split at h
      · cases h
        rename_i hk
        have : alternate (pairUp xs) = xs := alternate_pairUp xs (by omega)
        rw [dictBy_eq hP.refl hP.symm hP.trans]
        refine .map (kvs := pairUp xs) (by rw [this]; exact hr) ?_
        simpa using hk
      · cases h
  · simp only [closeColl] at h
    simp only [show ('#' = '[') = False by decide, show ('#' = '(') = False by decide, show ('#' = '{') = False by decide, if_false] at h
    split at h
    · cases h
      rename_i hk
      rw [setBy_eq hP.refl hP.trans]
      exact .set hr (hashables_iff.1 hk)
    · cases h

theorem idle_quote {stop : Option Char} (hs : StopOk stop) : feedIdle P stop '"' = .ok (.go [] (.str [])) := by
  have : stop ≠ some '"' := stop_ne hs (by decide)
  simp [feedIdle, this, stopChars]

theorem idle_semicolon {stop : Option Char} (hs : StopOk stop) : feedIdle P stop ';' = .ok (.go [] .comment) := by
  have : stop ≠ some ';' := stop_ne hs (by decide)
  simp [feedIdle, this, stopChars]

theorem idle_hash (hP : P.Ok) {stop : Option Char} (hs : StopOk stop) : feedIdle P stop '#' = .ok (.go [] .hash) := by
  have : stop ≠ some '#' := stop_ne hs (by decide)
  have ha : P.isalpha '#' = false := by rw [hP.alpha _ (by decide)]; decide
  simp [feedIdle, this, stopChars, digitChars, ha]

theorem opening_run (hP : P.Ok) {o : Char} (ho : Opens o) {stop : Option Char} (hs : StopOk stop) :
    feedAll P th stop .idle (opening o) = .ok ([], .coll o [] .idle) := by
  rcases ho with rfl | rfl | rfl | rfl
  · have : stop ≠ some '[' := stop_ne hs (by decide)
    have ha : P.isalpha '[' = false := by rw [hP.alpha _ (by decide)]; decide
    refine feedAll_one (by simp [feed, feedIdle, this, stopChars, digitChars, ha])
  · have : stop ≠ some '(' := stop_ne hs (by decide)
    have ha : P.isalpha '(' = false := by rw [hP.alpha _ (by decide)]; decide
    refine feedAll_one (by simp [feed, feedIdle, this, stopChars, digitChars, ha])
  · have : stop ≠ some '{' := stop_ne hs (by decide)
    have ha : P.isalpha '{' = false := by rw [hP.alpha _ (by decide)]; decide
    refine feedAll_one (by simp [feed, feedIdle, this, stopChars, digitChars, ha])
  · exact feedAll_cons (p' := .hash) (o := []) (by rw [feed]; exact idle_hash hP hs) (feedAll_one (by simp [feed]))

/-! ### The reader reads the texts of the grammar -/

/-- an item -/
def ItemRun (P : PyText) (th : String → Option (Val → Except Err Val)) (t : List Char) (v : Option Val) : Prop :=
  ∀ stop, StopOk stop → ∃ t' c p, t = t' ++ [c] ∧ feedAll P th stop .idle t' = .ok ([], p) ∧
    feed P th stop p c = .ok (.go v.toList .idle)

def FirstRun (P : PyText) (th : String → Option (Val → Except Err Val)) (t : List Char) (x : Val) : Prop :=
  ∃ t' c p o p', t = t' ++ [c] ∧ feedAll P th none .idle t' = .ok ([], p) ∧
    feed P th none p c = .ok (.go (x :: o) p')

/-- a sequence of elements; the last one may wait for the next character -/
def ReadsRun (P : PyText) (th : String → Option (Val → Except Err Val)) (n : Char) (t : List Char) (vs : List Val) : Prop :=
  ∀ stop, StopOk stop → ∃ vs' w p, feedAll P th stop .idle t = .ok (vs', p) ∧ vs = vs' ++ w ∧
    ((w = [] ∧ p = .idle) ∨ ∃ x, w = [x] ∧ p ≠ .idle ∧ feed P th stop p n = (do
      let r ← feedIdle P stop n
      .ok (r.pre [x])))

theorem feedIdle_silent {stop : Option Char} {c : Char} {r : PRes} (h : feedIdle P stop c = .ok r) :
    r = .stop [] ∨ ∃ p, r = .go [] p := by
  unfold feedIdle at h
  repeat' split at h
  all_goals cases h
  all_goals first | exact .inl rfl | exact .inr ⟨_, rfl⟩

/-- the pending word ends with the next character, which is read as if nothing had been pending -/
theorem ReadsRun.next {n : Char} {t : List Char} {vs : List Val} (h : ReadsRun P th n t vs) {stop : Option Char} (hs : StopOk stop)
    {out : List Val} {p : PState} (hf : feed P th stop .idle n = .ok (.go out p)) :
    feedAll P th stop .idle (t ++ [n]) = .ok (vs ++ out, p) := by
  obtain ⟨vs', w, q, h1, rfl, h3⟩ := h stop hs
  rcases h3 with ⟨rfl, rfl⟩ | ⟨x, rfl, _, h4⟩
  · have := feedAll_app h1 (feedAll_one hf)
    simpa using this
  · rw [feed] at hf
    rw [hf, ok_bind', PRes.pre] at h4
    have := feedAll_app h1 (feedAll_one h4)
    simpa using this

theorem ReadsRun.stop {n : Char} {t : List Char} {vs : List Val} (h : ReadsRun P th n t vs) (hs : StopOk (some n)) :
    ∃ out p w, feedAll P th (some n) .idle t = .ok (out, p) ∧ feed P th (some n) p n = .ok (.stop w) ∧ vs = out ++ w := by
  obtain ⟨vs', w, q, h1, rfl, h3⟩ := h (some n) hs
  have hidle : feedIdle P (some n) n = .ok (.stop []) := by simp [feedIdle]
  rcases h3 with ⟨rfl, rfl⟩ | ⟨x, rfl, _, h4⟩
  · exact ⟨vs', .idle, [], h1, by rw [feed]; exact hidle, rfl⟩
  · rw [hidle, ok_bind', PRes.pre] at h4
    exact ⟨vs', q, _, h1, h4, by simp⟩

theorem comment_run {stop : Option Char} {b : List Char} (h : '\n' ∉ b) :
    feedAll P th stop .comment b = .ok ([], .comment) := by
  induction b with
  | nil => simp [feedAll]
  | cons c b ih =>
    simp only [List.mem_cons, not_or] at h
    have h1 : feed P th stop .comment c = .ok (.go [] .comment) := by
      rw [feed, if_neg (fun h' => h.1 h'.symm)]
    simpa using feedAll_cons h1 (ih h.2)

theorem str_run {stop : Option Char} {b s : List Char} (h : StrBody b s) : ∀ cs,
    feedAll P th stop (.str cs) b = .ok ([], .str (cs ++ s)) := by
  induction h with
  | nil => intro cs; simp [feedAll]
  | @plain c b s h1 h2 _ ih =>
    intro cs
    have h3 : feed P th stop (.str cs) c = .ok (.go [] (.str (cs ++ [c]))) := by
      rw [feed, if_neg h1, if_neg h2]
    have := feedAll_cons h3 (ih (cs ++ [c]))
    simpa using this
  | @esc c b s _ ih =>
    intro cs
    have h3 : feed P th stop (.str cs) '\\' = .ok (.go [] (.esc cs)) := by rw [feed, if_pos rfl]
    have h4 : feed P th stop (.esc cs) c = .ok (.go [] (.str (cs ++ [Escape c]))) := by rw [feed, escape_eq]
    have := feedAll_cons h3 (feedAll_cons h4 (ih (cs ++ [Escape c])))
    simpa using this

theorem coll_run (hP : P.Ok) {o : Char} (ho : Opens o) {b : List Char} {xs : List Val} {v : Val}
    (hr : ReadsRun P th (endChar o) b xs) (hv : closeColl P o xs = .ok v) :
    ItemRun P th (opening o ++ b ++ [endChar o]) (some v) := by
  intro stop hs
  obtain ⟨out, p, w, h1, h2, rfl⟩ := hr.stop (stopOk_end o)
  refine ⟨opening o ++ b, endChar o, .coll o out p, rfl, ?_, ?_⟩
  · have := feedAll_app (opening_run (th := th) hP ho hs) (coll_inner (stop := stop) (lst := []) h1)
    simpa using this
  · simp only [feed, h2, ok_bind', hv, Option.toList]

theorem tagName_run {stop : Option Char} {n : List Char} (h : TagName n) :
    feedAll P th stop .hash n = .ok ([], .tagName n) := by
  obtain ⟨c, r, rfl, hc, hr⟩ := h
  have h1 : feed P th stop .hash c = .ok (.go [] (.tagName [c])) := by rw [feed, if_neg hc]
  have h2 : ∀ (r : List Char) (s : List Char), (∀ x ∈ r, ¬TagEnd x) → feedAll P th stop (.tagName s) r = .ok ([], .tagName (s ++ r)) := by
    intro r
    induction r with
    | nil => intro s _; simp [feedAll]
    | cons x r ih =>
      intro s hr
      have h1 : feed P th stop (.tagName s) x = .ok (.go [] (.tagName (s ++ [x]))) := by
        rw [feed, if_neg (fun h => hr x (by simp) (tagEnd_iff.1 h))]
      have := feedAll_cons h1 (ih (s ++ [x]) fun y hy => hr y (by simp [hy]))
      simpa using this
  exact feedAll_cons h1 (h2 r [c] hr)

theorem tagVal_inner {stop : Option Char} {n : List Char} {cs : List Char} : ∀ {p p'},
    feedAll P th none p cs = .ok ([], p') → feedAll P th stop (.tagVal n p) cs = .ok ([], .tagVal n p') := by
  induction cs with
  | nil => intro p p' h; cases h; simp [feedAll]
  | cons c cs ih =>
    intro p p' h
    simp only [feedAll] at h
    rw [bind_ok_iff] at h
    obtain ⟨r, h1, h⟩ := h
    cases r with
    | stop _ => cases h
    | go o1 p1 =>
      simp only [bind_ok_iff] at h
      obtain ⟨⟨o2, p2⟩, h2, h⟩ := h
      simp only [Except.ok.injEq, Prod.mk.injEq, List.append_eq_nil_iff] at h
      obtain ⟨⟨rfl, rfl⟩, rfl⟩ := h
      have := feedAll_cons (P := P) (th := th) (stop := stop) (p := .tagVal n p) (c := c) (p' := .tagVal n p1) (o := [])
        (by simp only [feed, h1, ok_bind', tagRes]) (ih h2)
      simpa using this

theorem tagRes_first {n : List Char} {x : Val} {o : List Val} {p : PState} {v : Option Val} (h : Tagged th n x v) :
    tagRes th n (.go (x :: o) p) = .ok (.go v.toList .idle) := by
  cases h with
  | plain h => simp [tagRes, h]
  | @handled f v h1 h2 h3 => simp [tagRes, h1, h2, h3]
  | dropped h1 h2 => simp [tagRes, h1, h2]

theorem tag_run (hP : P.Ok) {n : List Char} {c : Char} {b : List Char} {x : Val} {v : Option Val} (hn : TagName n) (hc : TagEnd c)
    (hf : FirstRun P th (c :: b) x) (ht : Tagged th n x v) : ItemRun P th ('#' :: n ++ c :: b) v := by
  intro stop hs
  obtain ⟨t', c', p, o, p', h1, h2, h3⟩ := hf
  cases t' with
  | nil =>
    simp only [List.nil_append, List.cons.injEq] at h1
    simp only [feedAll, Except.ok.injEq, Prod.mk.injEq, true_and] at h2
    subst h2
    rw [feed] at h3
    rcases feedIdle_silent h3 with h | ⟨q, h⟩ <;> cases h
  | cons d t'' =>
    simp only [List.cons_append, List.cons.injEq] at h1
    obtain ⟨rfl, rfl⟩ := h1
    simp only [feedAll] at h2
    rw [bind_ok_iff] at h2
    obtain ⟨r, h4, h2⟩ := h2
    rw [feed] at h4
    rcases feedIdle_silent h4 with rfl | ⟨q, rfl⟩
    · cases h2
    · simp only [bind_ok_iff] at h2
      obtain ⟨⟨o2, p2⟩, h5, h2⟩ := h2
      simp only [List.nil_append, Except.ok.injEq, Prod.mk.injEq] at h2
      obtain ⟨rfl, rfl⟩ := h2
      refine ⟨'#' :: n ++ c :: t'', c', .tagVal n p2, by simp, ?_, ?_⟩
      · have e1 : feed P th stop .idle '#' = .ok (.go [] .hash) := by rw [feed]; exact idle_hash hP hs
        have e2 : feed P th stop (.tagName n) c = .ok (.go [] (.tagVal n q)) := by
          rw [feed, if_pos (tagEnd_iff.2 hc), h4, ok_bind']; rfl
        have := feedAll_cons e1 (feedAll_app (tagName_run (P := P) (th := th) (stop := stop) hn)
          (feedAll_cons e2 (tagVal_inner (stop := stop) (n := n) h5)))
        simpa using this
      · rw [feed, h3, ok_bind', tagRes_first ht]

theorem str_item {b s : List Char} (h : StrBody b s) : ItemRun P th ('"' :: b ++ ['"']) (some (.str (String.ofList s))) := by
  intro stop hs
  refine ⟨'"' :: b, '"', .str s, rfl, ?_, ?_⟩
  · have := feedAll_cons (P := P) (th := th) (p := .idle) (c := '"') (by rw [feed]; exact idle_quote hs)
      (str_run (stop := stop) h [])
    simpa using this
  · rw [feed, if_neg (by decide), if_pos rfl]; rfl

/-- silent text before the first element -/
theorem FirstRun.after {k t : List Char} {x : Val} (hk : ∀ stop, StopOk stop → feedAll P th stop .idle k = .ok ([], .idle))
    (h : FirstRun P th t x) : FirstRun P th (k ++ t) x := by
  obtain ⟨t', c, p, o, p', rfl, h2, h3⟩ := h
  exact ⟨k ++ t', c, p, o, p', by simp, by simpa using feedAll_app (hk none stopOk_none) h2, h3⟩

theorem ReadsRun.after {n : Char} {k t : List Char} {vs ws : List Val}
    (hk : ∀ stop, StopOk stop → feedAll P th stop .idle k = .ok (ws, .idle))
    (h : ReadsRun P th n t vs) : ReadsRun P th n (k ++ t) (ws ++ vs) := by
  intro stop hs
  obtain ⟨vs', w, p, h1, rfl, h3⟩ := h stop hs
  exact ⟨ws ++ vs', w, p, feedAll_app (hk stop hs) h1, by simp, h3⟩

theorem space_silent {c : Char} (hc : Space c) (stop : Option Char) (hs : StopOk stop) :
    feedAll P th stop .idle [c] = .ok ([], .idle) := feedAll_one (by rw [feed]; exact idle_space hs hc)

theorem comment_silent {b : List Char} (hb : '\n' ∉ b) (stop : Option Char) (hs : StopOk stop) :
    feedAll P th stop .idle (';' :: b ++ ['\n']) = .ok ([], .idle) := by
  have e1 : feed P th stop .idle ';' = .ok (.go [] .comment) := by rw [feed]; exact idle_semicolon hs
  have e2 : feed P th stop .comment '\n' = .ok (.go [] .idle) := by rw [feed, if_pos rfl]
  have := feedAll_cons e1 (feedAll_app (comment_run (P := P) (th := th) (stop := stop) hb) (feedAll_one e2))
  simpa using this

theorem ItemRun.all {t : List Char} {v : Option Val} (h : ItemRun P th t v) (stop : Option Char) (hs : StopOk stop) :
    feedAll P th stop .idle t = .ok (v.toList, .idle) := by
  obtain ⟨t', c, p, rfl, h1, h2⟩ := h stop hs
  simpa using feedAll_app h1 (feedAll_one h2)

theorem item_first {t : List Char} {v : Val} (h : ItemRun P th t (some v)) : FirstRun P th t v := by
  obtain ⟨t', c, p, rfl, h1, h2⟩ := h none stopOk_none
  exact ⟨t', c, p, [], .idle, rfl, h1, h2⟩

theorem idle_starts (hP : P.Ok) {c : Char} (h : Starts P c) : ∃ p, feedIdle P none c = .ok (.go [] p) := by
  rcases h with h | h | h | h
  · exact ⟨_, idle_space stopOk_none h⟩
  · simp only [List.mem_cons, List.not_mem_nil, or_false] at h
    rcases h with rfl | rfl | rfl | rfl | rfl | rfl | rfl | rfl | rfl | rfl
    · exact ⟨_, idle_semicolon stopOk_none⟩
    · exact ⟨_, idle_quote stopOk_none⟩
    · exact ⟨_, idle_slash stopOk_none⟩
    · exact ⟨_, idle_dash stopOk_none (.inl rfl)⟩
    · exact ⟨_, idle_dash stopOk_none (.inr rfl)⟩
    · exact ⟨_, idle_alpha hP stopOk_none (.inr rfl)⟩
    · exact ⟨_, idle_hash hP stopOk_none⟩
    · have ha : P.isalpha '[' = false := by rw [hP.alpha _ (by decide)]; decide
      exact ⟨_, by simp [feedIdle, stopChars, digitChars, ha]; rfl⟩
    · have ha : P.isalpha '(' = false := by rw [hP.alpha _ (by decide)]; decide
      exact ⟨_, by simp [feedIdle, stopChars, digitChars, ha]; rfl⟩
    · have ha : P.isalpha '{' = false := by rw [hP.alpha _ (by decide)]; decide
      exact ⟨_, by simp [feedIdle, stopChars, digitChars, ha]; rfl⟩
  · exact ⟨_, idle_digit stopOk_none h⟩
  · exact ⟨_, idle_alpha hP stopOk_none (.inl h)⟩

theorem word_first (hP : P.Ok) {s : List Char} {v : Val} {e : Char → Prop} {c : Char} (h : Word P s v e) (he : e c)
    (hc : Starts P c) : FirstRun P th (s ++ [c]) v := by
  obtain ⟨p, hp, h1, h2⟩ := word_run (th := th) hP h stopOk_none
  obtain ⟨q, h3⟩ := idle_starts hP hc
  refine ⟨s, c, p, [], q, rfl, h1, ?_⟩
  rw [h2 c he, h3, ok_bind']; rfl

theorem word_reads (hP : P.Ok) {n : Char} {s : List Char} {v : Val} {e : Char → Prop} {t : List Char} {vs : List Val}
    (h : Word P s v e) (he : e ((t ++ [n]).head (by simp))) (hr : ReadsRun P th n t vs) : ReadsRun P th n (s ++ t) (v :: vs) := by
  intro stop hs
  obtain ⟨p, hp, h1, h2⟩ := word_run (th := th) hP h hs
  obtain ⟨vs', w, q, h3, rfl, h5⟩ := hr stop hs
  cases t with
  | nil =>
    simp only [feedAll, Except.ok.injEq, Prod.mk.injEq] at h3
    obtain ⟨rfl, rfl⟩ := h3
    rcases h5 with ⟨rfl, _⟩ | ⟨x, rfl, h6, _⟩
    · exact ⟨[], [v], p, by simpa using h1, rfl, .inr ⟨v, rfl, hp, h2 n he⟩⟩
    · exact absurd rfl h6
  | cons c t =>
    refine ⟨v :: vs', w, q, ?_, rfl, h5⟩
    have hc := h2 c he
    simp only [feedAll] at h3
    rw [bind_ok_iff] at h3
    obtain ⟨r, h6, h3⟩ := h3
    rw [feed] at h6
    rw [h6, ok_bind'] at hc
    rcases feedIdle_silent h6 with rfl | ⟨q', rfl⟩
    · cases h3
    · simp only [bind_ok_iff] at h3
      obtain ⟨⟨o2, p2⟩, h7, h8⟩ := h3
      simp only [List.nil_append, Except.ok.injEq, Prod.mk.injEq] at h8
      obtain ⟨rfl, rfl⟩ := h8
      exact feedAll_app h1 (feedAll_cons hc h7)

mutual
theorem item_run (hP : P.Ok) {t : List Char} {v : Option Val} : Item P th t v → ItemRun P th t v
  | .str h => str_item h
  | .list h => coll_run hP (o := '[') (.inl rfl) (reads_run hP h) rfl
  | .tup h => coll_run hP (o := '(') (.inr (.inl rfl)) (reads_run hP h) rfl
  | .map (kvs := kvs) h hk => coll_run hP (o := '{') (.inr (.inr (.inl rfl))) (reads_run hP h) (by
      simp only [closeColl, show ('{' = '[') = False by decide, show ('{' = '(') = False by decide, if_true, if_false]
      rw [if_neg (by rw [alternate_even]; decide), pairUp_alternate, if_pos (by simpa using hk), dictBy_eq hP.refl hP.symm hP.trans])
  | .set h hk => coll_run hP (o := '#') (.inr (.inr (.inr rfl))) (reads_run hP h) (by
      simp only [closeColl, show ('#' = '[') = False by decide, show ('#' = '(') = False by decide,
        show ('#' = '{') = False by decide, if_false]
      rw [if_pos (hashables_iff.2 hk), setBy_eq hP.refl hP.trans])
  | .tag h1 h2 h3 h4 => tag_run hP h1 h2 (first_run hP h3) h4
theorem first_run (hP : P.Ok) {t : List Char} {x : Val} : First P th t x → FirstRun P th t x
  | .space h h' => FirstRun.after (space_silent h) (first_run hP h')
  | .comment h h' => by simpa using FirstRun.after (comment_silent h) (first_run hP h')
  | .skip h h' => FirstRun.after (item_run hP h).all (first_run hP h')
  | .item h => item_first (item_run hP h)
  | .word h1 h2 h3 => word_first hP h1 h2 h3
theorem reads_run (hP : P.Ok) {n : Char} {t : List Char} {vs : List Val} : Reads P th n t vs → ReadsRun P th n t vs
  | .nil => fun _ _ => ⟨[], [], .idle, rfl, rfl, .inl ⟨rfl, rfl⟩⟩
  | .space h h' => ReadsRun.after (space_silent h) (reads_run hP h')
  | .comment h h' => by simpa using ReadsRun.after (comment_silent h) (reads_run hP h')
  | .skip h h' => ReadsRun.after (item_run hP h).all (reads_run hP h')
  | .item h h' => ReadsRun.after (item_run hP h).all (reads_run hP h')
  | .word h1 h2 h3 => word_reads hP h1 h2 (reads_run hP h3)
end

/-! ### What the reader reads is in the grammar -/

/-- a parser in the state `p` has read `u` since the beginning of the element -/
inductive In (P : PyText) (th : String → Option (Val → Except Err Val)) : PState → List Char → Prop where
  | idle : In P th .idle []
  | comment {b} : '\n' ∉ b → In P th .comment (';' :: b)
  | str {b s} : StrBody b s → In P th (.str s) ('"' :: b)
  | esc {b s} : StrBody b s → In P th (.esc s) ('"' :: b ++ ['\\'])
  | num {d r} : Digit d → (∀ c ∈ r, NumChar c) → In P th (.num (d :: r)) (d :: r)
  | dash {c} : (c = '-' ∨ c = '.') → In P th (.dash c) [c]
  | signed {c d r} : (c = '-' ∨ c = '.') → P.isdigit d = true → (∀ c ∈ r, NumChar c) →
      In P th (.num (c :: d :: r)) (c :: d :: r)
  | sym {c r} : (P.isalpha c = true ∨ c = ':') → (∀ c ∈ r, ¬Closing c ∧ ¬Space c) → In P th (.sym (c :: r)) (c :: r)
  | dashed {c d r} : (c = '-' ∨ c = '.') → P.isdigit d = false → (∀ c ∈ r, ¬Closing c ∧ ¬Space c) →
      In P th (.sym (c :: d :: r)) (c :: d :: r)
  | slash : In P th (.chr []) ['\\']
  | chr {c r} : (∀ c ∈ r, P.isalpha c = true) → In P th (.chr (c :: r)) ('\\' :: c :: r)
  | hash : In P th .hash ['#']
  | tagName {n} : TagName n → In P th (.tagName n) ('#' :: n)
  | tagVal {n k u p} : TagName n → (∃ c ∈ (k ++ u).head?, TagEnd c) → (∀ m, Reads P th m k []) → In P th p u →
      In P th (.tagVal n p) ('#' :: n ++ (k ++ u))
  | coll {o b lst u p} : Opens o → (∀ m, Reads P th ((u ++ [m]).head (by simp)) b lst) → In P th p u →
      In P th (.coll o lst p) (opening o ++ b ++ u)

theorem In.begun {p : PState} {u : List Char} (h : In P th p u) : u = [] ∨ Begun P th u := by
  induction h with
  | idle => exact .inl rfl
  | comment h => exact .inr (.comment h)
  | str h => exact .inr (.str h)
  | esc h => exact .inr (.esc h)
  | num h1 h2 => exact .inr (.num h1 h2)
  | dash h => exact .inr (.dash h)
  | signed h1 h2 h3 => exact .inr (.signed h1 h2 h3)
  | sym h1 h2 => exact .inr (.sym h1 h2)
  | dashed h1 h2 h3 => exact .inr (.dashed h1 h2 h3)
  | slash => exact .inr .slash
  | chr h => exact .inr (.chr h)
  | hash => exact .inr .hash
  | tagName h => exact .inr (.tagName h)
  | @tagVal n k u p h1 h2 h3 h4 ih =>
    right
    rcases ih with rfl | ih
    · rw [List.append_nil] at h2 ⊢
      cases k with
      | nil => obtain ⟨c, hc, _⟩ := h2; cases hc
      | cons c k =>
        obtain ⟨d, hd, hd'⟩ := h2
        simp at hd; subst hd
        exact .tag h1 hd' (h3 ' ')
    · have := Begun.tagged h1 h2 (h3 ' ') ih
      simpa using this
  | @coll o b lst u p ho h1 h2 ih =>
    right
    have : ∃ s ∈ ["[", "(", "{", "#{"], opening o = s.toList := by
      rcases ho with rfl | rfl | rfl | rfl
      · exact ⟨"[", by simp, rfl⟩
      · exact ⟨"(", by simp, rfl⟩
      · exact ⟨"{", by simp, rfl⟩
      · exact ⟨"#{", by simp, rfl⟩
    obtain ⟨s, hs, he⟩ := this
    rw [he]
    rcases ih with rfl | ih
    · rw [List.append_nil]; exact .coll hs (h1 ' ')
    · cases u with
      | nil => have := Begun.coll hs (h1 ' '); rwa [List.append_nil]
      | cons c u => exact .inside hs (h1 ' ') ih

/-- one more character -/
inductive Step (P : PyText) (th : String → Option (Val → Except Err Val)) (stop : Option Char) (u : List Char) (c : Char) :
    PRes → Prop where
  | more {p} : In P th p (u ++ [c]) → Step P th stop u c (.go [] p)
  | space : u = [] → Space c → Step P th stop u c (.go [] .idle)
  | comment {b} : u = ';' :: b → '\n' ∉ b → c = '\n' → Step P th stop u c (.go [] .idle)
  | item {v} : Item P th (u ++ [c]) v → Step P th stop u c (.go v.toList .idle)
  | word {v e r} : Word P u v e → e c → feedIdle P stop c = .ok r → Step P th stop u c (r.pre [v])
  | stop : u = [] → stop = some c → Step P th stop u c (.stop [])

/-- a character between elements -/
theorem idle_cases {stop : Option Char} {c : Char} {r : PRes} (h : feedIdle P stop c = .ok r) :
    (stop = some c ∧ r = .stop []) ∨ (Space c ∧ r = .go [] .idle) ∨ (Starts P c ∧ ∃ p, r = .go [] p ∧ In P th p [c]) := by
  unfold feedIdle at h
  split at h
  · cases h; exact .inl ⟨by assumption, rfl⟩
  right
  split at h
  · cases h; rename_i h; exact .inl ⟨space_iff.1 h, rfl⟩
  right
  split at h
  · rename_i h1; subst h1; cases h; exact ⟨.inr (.inl (by simp)), _, rfl, .comment (by simp)⟩
  split at h
  · rename_i h1; subst h1; cases h; exact ⟨.inr (.inl (by simp)), _, rfl, .str .nil⟩
  split at h
  · rename_i h1; subst h1; cases h; exact ⟨.inr (.inl (by simp)), _, rfl, .slash⟩
  split at h
  · rename_i h1; cases h
    exact ⟨.inr (.inr (.inl (digit_iff.1 h1))), _, rfl, .num (digit_iff.1 h1) (by simp)⟩
  split at h
  · rename_i h1; cases h
    simp only [Bool.or_eq_true, decide_eq_true_eq] at h1
    refine ⟨.inr (.inl ?_), _, rfl, .dash h1⟩
    rcases h1 with rfl | rfl <;> simp
  split at h
  · rename_i h1; cases h
    simp only [Bool.or_eq_true, decide_eq_true_eq] at h1
    refine ⟨?_, _, rfl, .sym h1 (by simp)⟩
    rcases h1 with h1 | rfl
    · exact .inr (.inr (.inr h1))
    · exact .inr (.inl (by simp))
  split at h
  · rename_i h1; subst h1; cases h; exact ⟨.inr (.inl (by simp)), _, rfl, .hash⟩
  split at h
  · rename_i h1; cases h
    simp only [Bool.or_eq_true, decide_eq_true_eq] at h1
    refine ⟨.inr (.inl ?_), _, rfl, ?_⟩
    · rcases h1 with (rfl | rfl) | rfl <;> simp
    · rcases h1 with (rfl | rfl) | rfl
      · exact .coll (o := '[') (b := []) (u := []) (.inl rfl) (fun _ => .nil) .idle
      · exact .coll (o := '(') (b := []) (u := []) (.inr (.inl rfl)) (fun _ => .nil) .idle
      · exact .coll (o := '{') (b := []) (u := []) (.inr (.inr (.inl rfl))) (fun _ => .nil) .idle
  · cases h

theorem StrBody.snoc {b s : List Char} (h : StrBody b s) {b' s' : List Char} (h' : StrBody b' s') :
    StrBody (b ++ b') (s ++ s') := by
  induction h with
  | nil => exact h'
  | plain h1 h2 _ ih => exact .plain h1 h2 ih
  | esc _ ih => exact .esc ih

theorem reads_append {n m : Char} {s : List Char} {ws : List Val} (hs : Reads P th m s ws) (hn : n = (s ++ [m]).head (by simp)) :
    {a : List Char} → {vs : List Val} → Reads P th n a vs → Reads P th m (a ++ s) (vs ++ ws)
  | _, _, .nil => hs
  | _, _, .space h h' => .space h (reads_append hs hn h')
  | _, _, .comment h h' => by simpa using Reads.comment h (reads_append hs hn h')
  | _, _, .skip h h' => by simpa using Reads.skip h (reads_append hs hn h')
  | _, _, .item h h' => by simpa using Reads.item h (reads_append hs hn h')
  | _, _, .word (t := t) h h1 h' => by
    have h2 := Reads.word (n := m) h (t := t ++ s) ?_ (reads_append hs hn h')
    · simpa using h2
    · subst hn
      cases t with
      | nil => simpa using h1
      | cons c t => simpa using h1

/-- text which has no elements, before the first one -/
theorem first_append {n : Char} {t : List Char} {x : Val} (h : First P th t x) {k : List Char} {vs : List Val}
    (hk : Reads P th n k vs) (e : vs = []) : First P th (k ++ t) x :=
  Reads.rec (motive_1 := fun _ _ _ => True) (motive_2 := fun _ _ _ => True)
    (motive_3 := fun _ k vs _ => vs = [] → First P th (k ++ t) x)
    (fun _ => trivial) (fun _ _ => trivial) (fun _ _ => trivial) (fun _ _ _ => trivial) (fun _ _ _ => trivial)
    (fun _ _ _ _ _ => trivial) (fun _ _ _ => trivial) (fun _ _ _ => trivial) (fun _ _ _ _ => trivial) (fun _ _ => trivial)
    (fun _ _ _ => trivial) (fun _ => h) (fun h1 _ ih e => .space h1 (ih e))
    (fun h1 _ ih e => by simpa using First.comment h1 (ih e)) (fun h1 _ _ ih e => by simpa using First.skip h1 (ih e))
    (fun _ _ _ _ e => by cases e) (fun _ _ _ _ e => by cases e) hk e

theorem reads_any {n m : Char} {k : List Char} {vs : List Val} (hk : Reads P th n k vs) (e : vs = []) : Reads P th m k vs :=
  Reads.rec (motive_1 := fun _ _ _ => True) (motive_2 := fun _ _ _ => True)
    (motive_3 := fun _ k vs _ => vs = [] → Reads P th m k vs)
    (fun _ => trivial) (fun _ _ => trivial) (fun _ _ => trivial) (fun _ _ _ => trivial) (fun _ _ _ => trivial)
    (fun _ _ _ _ _ => trivial) (fun _ _ _ => trivial) (fun _ _ _ => trivial) (fun _ _ _ _ => trivial) (fun _ _ => trivial)
    (fun _ _ _ => trivial) (fun _ => .nil) (fun h1 _ ih e => .space h1 (ih e))
    (fun h1 _ ih e => .comment h1 (ih e)) (fun h1 _ _ ih e => .skip h1 (ih e))
    (fun _ _ _ _ e => by cases e) (fun _ _ _ _ e => by cases e) hk e

theorem head_snoc (u : List Char) (c m : Char) : (u ++ [c] ++ [m]).head (by simp) = (u ++ [c]).head (by simp) := by
  cases u <;> rfl

theorem item_reads {i : List Char} {v : Option Val} (h : Item P th i v) (m : Char) : Reads P th m i v.toList := by
  cases v with
  | none => have := Reads.skip (n := m) h .nil; simpa using this
  | some v => have := Reads.item (n := m) h .nil; simpa using this

theorem advance {stop : Option Char} {a u : List Char} {vs : List Val} {c : Char} {r : PRes}
    (ha : ∀ m, Reads P th ((u ++ [m]).head (by simp)) a vs) (h : Step P th stop u c r) :
    (∃ out p a' u', r = .go out p ∧ a ++ u ++ [c] = a' ++ u' ∧ (∀ m, Reads P th ((u' ++ [m]).head (by simp)) a' (vs ++ out)) ∧
      In P th p u') ∨
    (∃ out, r = .stop out ∧ stop = some c ∧ Reads P th c (a ++ u) (vs ++ out)) := by
  cases h with
  | @more p h =>
    refine .inl ⟨[], p, a, u ++ [c], rfl, by simp, fun m => ?_, h⟩
    rw [head_snoc, List.append_nil]; exact ha c
  | space hu hc =>
    subst hu
    refine .inl ⟨[], .idle, a ++ [c], [], rfl, by simp, fun m => ?_, .idle⟩
    exact reads_append (.space hc .nil) rfl (ha c)
  | @comment b hu hb hc =>
    subst hu hc
    refine .inl ⟨[], .idle, a ++ (';' :: b ++ ['\n']), [], rfl, by simp, fun m => ?_, .idle⟩
    exact reads_append (.comment hb .nil) rfl (ha '\n')
  | @item v h =>
    refine .inl ⟨v.toList, .idle, a ++ (u ++ [c]), [], rfl, by simp, fun m => ?_, .idle⟩
    refine reads_append (item_reads h _) ?_ (ha c)
    cases u <;> rfl
  | @word v e r0 h1 h2 h3 =>
    rcases idle_cases (th := th) h3 with ⟨hst, rfl⟩ | ⟨hc, rfl⟩ | ⟨hc, p, rfl, hp⟩
    · refine .inr ⟨[v], rfl, hst, reads_append ?_ rfl (ha c)⟩
      have := Reads.word (th := th) (n := c) (t := []) h1 h2 .nil
      simpa using this
    · refine .inl ⟨[v], .idle, a ++ (u ++ [c]), [], rfl, by simp, fun m => ?_, .idle⟩
      refine reads_append (Reads.word (t := [c]) h1 h2 (.space hc .nil)) ?_ (ha c)
      cases u <;> rfl
    · refine .inl ⟨[v], p, a ++ u, [c], rfl, by simp, fun m => ?_, hp⟩
      refine reads_append ?_ rfl (ha c)
      have := Reads.word (th := th) (n := c) (t := []) h1 h2 .nil
      simpa using this
  | stop hu hst =>
    subst hu
    refine .inr ⟨[], rfl, hst, ?_⟩
    have := ha c
    simpa using this

theorem tagRes_inv {n : List Char} {x : Val} {o : List Val} {p : PState} {r : PRes}
    (h : tagRes th n (.go (x :: o) p) = .ok r) : ∃ v, Tagged th n x v ∧ r = .go v.toList .idle := by
  simp only [tagRes] at h
  split at h
  · rename_i f hf
    rw [bind_ok_iff] at h
    obtain ⟨v, h1, h2⟩ := h
    cases h2
    by_cases hv : v = .none
    · subst hv; exact ⟨none, .dropped hf h1, by simp⟩
    · exact ⟨some v, .handled hf h1 hv, by simp [hv]⟩
  · rename_i hf
    cases h
    exact ⟨_, .plain hf, rfl⟩

theorem mem_snoc {Q : Char → Prop} {r : List Char} (h : ∀ c ∈ r, Q c) {c : Char} (hc : Q c) : ∀ x ∈ r ++ [c], Q x := by
  intro x hx
  rcases List.mem_append.1 hx with hx | hx
  · exact h x hx
  · rw [List.mem_singleton.1 hx]; exact hc

theorem step (hP : P.Ok) {p : PState} {u : List Char} (h : In P th p u) : ∀ {stop c r}, feed P th stop p c = .ok r →
    Step P th stop u c r := by
  induction h with
  | idle =>
    intro stop c r h
    rw [feed] at h
    rcases idle_cases (th := th) h with ⟨hst, rfl⟩ | ⟨hc, rfl⟩ | ⟨hc, p, rfl, hp⟩
    · exact .stop rfl hst
    · exact .space rfl hc
    · exact .more hp
  | @comment b hb =>
    intro stop c r h
    rw [feed] at h
    cases h
    by_cases hc : c = '\n'
    · rw [if_pos hc]; exact .comment rfl hb hc
    · rw [if_neg hc]
      refine .more (.comment (b := b ++ [c]) ?_)
      simp only [List.mem_append, List.mem_singleton, not_or]
      exact ⟨hb, fun h => hc h.symm⟩
  | @str b s hb =>
    intro stop c r h
    rw [feed] at h
    split at h
    · rename_i hc; subst hc; cases h; exact .more (.esc hb)
    · rename_i hc
      split at h
      · rename_i hc; subst hc; cases h
        exact .item (v := some _) (.str hb)
      · rename_i hc'
        cases h
        exact .more (.str (b := b ++ [c]) (hb.snoc (.plain hc hc' .nil)))
  | @esc b s hb =>
    intro stop c r h
    rw [feed] at h
    cases h
    refine .more ?_
    have := In.str (P := P) (th := th) (hb.snoc (.esc (c := c) .nil))
    rw [escape_eq] at this
    simpa using this
  | @num d s hd hr =>
    intro stop c r h
    by_cases hc : NumChar c
    · rw [feed_num_stay hc] at h
      cases h
      exact .more (.num hd (mem_snoc hr hc))
    · rw [feed_num_end hc] at h
      simp only [bind_ok_iff] at h
      obtain ⟨v, h1, r0, h2, h3⟩ := h
      cases h3
      refine .word (.num hd hr ((number_iff (underscore_num ?_)).1 h1)) hc h2
      intro x hx
      rcases List.mem_cons.1 hx with rfl | hx
      · exact .inl hd
      · exact hr x hx
  | @dash c0 hc0 =>
    intro stop c r h
    rw [feed] at h
    cases h
    by_cases hd : P.isdigit c = true
    · rw [if_pos hd]; exact .more (.signed hc0 hd (by simp))
    · rw [if_neg hd]; exact .more (.dashed hc0 (by simpa using hd) (by simp))
  | @signed c0 d s hc0 hd hr =>
    intro stop c r h
    by_cases hc : NumChar c
    · rw [feed_num_stay hc] at h
      cases h
      exact .more (.signed hc0 hd (mem_snoc hr hc))
    · rw [feed_num_end hc] at h
      simp only [bind_ok_iff] at h
      obtain ⟨v, h1, r0, h2, h3⟩ := h
      cases h3
      refine .word (.signed hc0 hd hr ((number_iff ?_).1 h1)) hc h2
      simp only [List.mem_cons, not_or]
      refine ⟨?_, (isdigit_under hP hd).symm, underscore_num hr⟩
      rcases hc0 with rfl | rfl <;> decide
  | @sym c0 s hc0 hr =>
    intro stop c r h
    rw [feed] at h
    split at h
    · rename_i hc
      simp only [bind_ok_iff] at h
      obtain ⟨r0, h2, h3⟩ := h
      cases h3
      exact .word (.sym hc0 hr (sym_iff.1 rfl)) (symEnd_iff.1 hc) h2
    · rename_i hc
      cases h
      exact .more (.sym hc0 (mem_snoc hr (symEnd_iff'.1 hc)))
  | @dashed c0 d s hc0 hd hr =>
    intro stop c r h
    rw [feed] at h
    split at h
    · rename_i hc
      simp only [bind_ok_iff] at h
      obtain ⟨r0, h2, h3⟩ := h
      cases h3
      exact .word (.dashed hc0 hd hr (sym_iff.1 rfl)) (symEnd_iff.1 hc) h2
    · rename_i hc
      cases h
      exact .more (.dashed hc0 hd (mem_snoc hr (symEnd_iff'.1 hc)))
  | slash =>
    intro stop c r h
    rw [feed, if_pos (by simp)] at h
    cases h
    exact .more (.chr (by simp))
  | @chr c0 s hr =>
    intro stop c r h
    rw [feed] at h
    split at h
    · rename_i hc
      cases h
      exact .more (.chr (mem_snoc hr (by simpa using hc)))
    · rename_i hc
      simp only [bind_ok_iff] at h
      obtain ⟨v, h1, r0, h2, h3⟩ := h
      cases h3
      exact .word (.chr hr (chr_iff.1 h1)) (by simpa using hc) h2
  | hash =>
    intro stop c r h
    rw [feed] at h
    cases h
    by_cases hc : c = '{'
    · rw [if_pos hc]; subst hc
      exact .more (.coll (o := '#') (b := []) (u := []) (.inr (.inr (.inr rfl))) (fun _ => .nil) .idle)
    · rw [if_neg hc]
      exact .more (.tagName ⟨c, [], rfl, hc, by simp⟩)
  | @tagName n hn =>
    intro stop c r h
    rw [feed] at h
    split at h
    · rename_i hc
      have hc := tagEnd_iff.1 hc
      rw [bind_ok_iff] at h
      obtain ⟨r0, h1, h⟩ := h
      rcases idle_cases (th := th) h1 with ⟨hst, rfl⟩ | ⟨hsp, rfl⟩ | ⟨_, p, rfl, hp⟩
      · cases hst
      · cases h
        refine .more ?_
        have := In.tagVal (P := P) (th := th) (k := [c]) (u := []) hn ⟨c, by simp, hc⟩ (fun _ => .space hsp .nil) .idle
        simpa using this
      · cases h
        refine .more ?_
        have := In.tagVal (P := P) (th := th) (k := []) (u := [c]) hn ⟨c, by simp, hc⟩ (fun _ => .nil) hp
        simpa using this
    · rename_i hc
      cases h
      obtain ⟨c0, s, rfl, h1, h2⟩ := hn
      exact .more (.tagName ⟨c0, s ++ [c], rfl, h1, mem_snoc h2 (fun h => hc (tagEnd_iff.2 h))⟩)
  | @tagVal n k u p hn hte hk _ ih =>
    intro stop c r h
    rw [feed, bind_ok_iff] at h
    obtain ⟨r0, h1, h⟩ := h
    have hs := ih h1
    have hhead : ∀ w : List Char, ∃ c ∈ (k ++ u ++ w).head?, TagEnd c := by
      intro w
      obtain ⟨d, hd, hd'⟩ := hte
      refine ⟨d, ?_, hd'⟩
      cases hku : k ++ u with
      | nil => rw [hku] at hd; cases hd
      | cons x y => rw [hku] at hd; simpa using hd
    have hfirst : ∀ x, First P th (k ++ u ++ [c]) x → ∀ v, Tagged th n x v → Item P th ('#' :: n ++ (k ++ u) ++ [c]) v := by
      intro x hx v hv
      obtain ⟨d, hd, hd'⟩ := hhead [c]
      cases hku : k ++ u ++ [c] with
      | nil => simp at hku
      | cons y z =>
        rw [hku] at hd hx
        simp at hd; subst hd
        have := Item.tag hn hd' hx hv
        rw [← hku] at this
        simpa using this
    have hitem : ∀ x o q, r0 = .go (x :: o) q → First P th (k ++ u ++ [c]) x → Step P th stop ('#' :: n ++ (k ++ u)) c r := by
      rintro x o q rfl hx
      obtain ⟨v, hv, rfl⟩ := tagRes_inv h
      exact .item (hfirst x hx v hv)
    have hmore : (∃ q, r0 = .go [] q) → Step P th stop ('#' :: n ++ (k ++ u)) c r := by
      rintro ⟨q, rfl⟩
      simp only [tagRes] at h
      cases h
      rcases advance (fun m => hk _) hs with ⟨out, p', a', u', e1, e2, e3, e4⟩ | ⟨_, e1, _⟩
      · cases e1
        refine .more ?_
        obtain hh := hhead [c]
        rw [e2] at hh
        have := In.tagVal hn hh (fun m => reads_any (e3 ' ') rfl) e4
        rw [← e2] at this
        simpa using this
      · cases e1
    cases hs with
    | more _ => exact hmore ⟨_, rfl⟩
    | space _ _ => exact hmore ⟨_, rfl⟩
    | comment _ _ _ => exact hmore ⟨_, rfl⟩
    | @item v hv =>
      cases v with
      | none => exact hmore ⟨_, rfl⟩
      | some v =>
        refine hitem v [] .idle rfl ?_
        rw [List.append_assoc]
        exact first_append (.item hv) (hk ' ') rfl
    | @word v e r1 hw he hi =>
      have hst : Starts P c ∧ ∃ q, r1 = .go [] q := by
        rcases idle_cases (th := th) hi with ⟨hst, rfl⟩ | ⟨hsp, rfl⟩ | ⟨hst, p, rfl, hp⟩
        · cases hst
        · exact ⟨.inl hsp, _, rfl⟩
        · exact ⟨hst, _, rfl⟩
      obtain ⟨hst, q, rfl⟩ := hst
      refine hitem v [] q rfl ?_
      rw [List.append_assoc]
      exact first_append (.word hw he hst) (hk ' ') rfl
    | stop _ hst => cases hst
  | @coll o b lst u p ho hb _ ih =>
    intro stop c r h
    rw [feed, bind_ok_iff] at h
    obtain ⟨r0, h1, h⟩ := h
    rcases advance hb (ih h1) with ⟨out, p', a', u', rfl, e2, e3, e4⟩ | ⟨out, rfl, e2, e3⟩
    · cases h
      refine .more ?_
      have := In.coll ho e3 e4
      rw [List.append_assoc, ← e2] at this
      simpa using this
    · simp only [bind_ok_iff] at h
      obtain ⟨v, h2, h⟩ := h
      cases h
      simp only [Option.some.injEq] at e2
      subst e2
      have := close_item hP ho e3 h2
      refine .item (v := some v) ?_
      simpa using this

/-- after any text -/
theorem feedAll_in (hP : P.Ok) {t : List Char} : ∀ {a u : List Char} {vs out : List Val} {p p' : PState},
    (∀ m, Reads P th ((u ++ [m]).head (by simp)) a vs) → In P th p u → feedAll P th none p t = .ok (out, p') →
    ∃ a' u', a ++ u ++ t = a' ++ u' ∧ (∀ m, Reads P th ((u' ++ [m]).head (by simp)) a' (vs ++ out)) ∧ In P th p' u' := by
  induction t with
  | nil =>
    intro a u vs out p p' ha hu h
    cases h
    exact ⟨a, u, by simp, by simpa using ha, hu⟩
  | cons c t ih =>
    intro a u vs out p p' ha hu h
    simp only [feedAll] at h
    rw [bind_ok_iff] at h
    obtain ⟨r, h1, h⟩ := h
    rcases advance ha (step hP hu h1) with ⟨o1, p1, a1, u1, rfl, e2, e3, e4⟩ | ⟨o1, rfl, e2, _⟩
    · simp only [bind_ok_iff] at h
      obtain ⟨⟨o2, p2⟩, h2, h⟩ := h
      cases h
      obtain ⟨a', u', e5, e6, e7⟩ := ih e3 e4 h2
      refine ⟨a', u', ?_, by simpa using e6, e7⟩
      rw [← e5, ← e2]; simp
    · cases e2

/-! ### Beginnings -/

theorem ReadsRun.andThen {n : Char} {t u : List Char} {vs : List Val} (h : ReadsRun P th n t vs) {stop : Option Char}
    (hs : StopOk stop) {out : List Val} {p : PState} (hf : feedAll P th stop .idle (n :: u) = .ok (out, p)) :
    feedAll P th stop .idle (t ++ n :: u) = .ok (vs ++ out, p) := by
  simp only [feedAll] at hf
  rw [bind_ok_iff] at hf
  obtain ⟨r, h1, hf⟩ := hf
  cases r with
  | stop _ => cases hf
  | go o1 p1 =>
    simp only [bind_ok_iff] at hf
    obtain ⟨⟨o2, p2⟩, h2, hf⟩ := hf
    cases hf
    have := feedAll_app (h.next hs h1) h2
    simpa using this

theorem tagged_run (hP : P.Ok) {n w : List Char} (hn : TagName n) (hw : ∃ c ∈ w.head?, TagEnd c) {p : PState}
    (h : feedAll P th none .idle w = .ok ([], p)) {stop : Option Char} (hs : StopOk stop) :
    feedAll P th stop .idle ('#' :: n ++ w) = .ok ([], .tagVal n p) := by
  cases w with
  | nil => obtain ⟨c, hc, _⟩ := hw; cases hc
  | cons c b =>
    obtain ⟨d, hd, hc⟩ := hw
    simp at hd; subst hd
    simp only [feedAll] at h
    rw [bind_ok_iff] at h
    obtain ⟨r, h1, h⟩ := h
    cases r with
    | stop _ => cases h
    | go o1 p1 =>
      simp only [bind_ok_iff] at h
      obtain ⟨⟨o2, p2⟩, h2, h⟩ := h
      simp only [Except.ok.injEq, Prod.mk.injEq, List.append_eq_nil_iff] at h
      obtain ⟨⟨rfl, rfl⟩, rfl⟩ := h
      have e1 : feed P th stop .idle '#' = .ok (.go [] .hash) := by rw [feed]; exact idle_hash hP hs
      have e2 : feed P th stop (.tagName n) c = .ok (.go [] (.tagVal n p1)) := by
        rw [feed] at h1
        rw [feed, if_pos (tagEnd_iff.2 hc), h1, ok_bind']; rfl
      have := feedAll_cons e1 (feedAll_app (tagName_run (P := P) (th := th) (stop := stop) hn)
        (feedAll_cons e2 (tagVal_inner (stop := stop) (n := n) h2)))
      simpa using this

theorem silent_run (hP : P.Ok) {k : List Char} (h : Reads P th ' ' k []) {stop : Option Char} (hs : StopOk stop) :
    feedAll P th stop .idle k = .ok ([], .idle) := by
  obtain ⟨vs', w, p, h1, h2, h3⟩ := reads_run hP h stop hs
  obtain ⟨rfl, rfl⟩ := List.append_eq_nil_iff.1 h2.symm
  rcases h3 with ⟨_, rfl⟩ | ⟨x, h, _⟩
  · exact h1
  · cases h

theorem opens_of {o : String} (ho : o ∈ ["[", "(", "{", "#{"]) : ∃ c, Opens c ∧ o.toList = opening c := by
  simp only [List.mem_cons, List.not_mem_nil, or_false] at ho
  rcases ho with rfl | rfl | rfl | rfl
  · exact ⟨'[', .inl rfl, rfl⟩
  · exact ⟨'(', .inr (.inl rfl), rfl⟩
  · exact ⟨'{', .inr (.inr (.inl rfl)), rfl⟩
  · exact ⟨'#', .inr (.inr (.inr rfl)), rfl⟩

theorem begun_run (hP : P.Ok) {u : List Char} (h : Begun P th u) : ∀ {stop}, StopOk stop → ∃ p, feedAll P th stop .idle u = .ok ([], p) := by
  induction h with
  | comment hb =>
    intro stop hs
    exact ⟨_, feedAll_cons (p := .idle) (o := []) (by rw [feed]; exact idle_semicolon hs) (comment_run hb)⟩
  | str hb =>
    intro stop hs
    exact ⟨_, feedAll_cons (p := .idle) (o := []) (by rw [feed]; exact idle_quote hs) (str_run hb [])⟩
  | @esc b s hb =>
    intro stop hs
    have h3 : feed P th stop (.str ([] ++ s)) '\\' = .ok (.go [] (.esc ([] ++ s))) := by rw [feed, if_pos rfl]
    exact ⟨_, feedAll_cons (p := .idle) (o := []) (by rw [feed]; exact idle_quote hs) (feedAll_app (str_run hb []) (feedAll_one h3))⟩
  | num hd hr =>
    intro stop hs
    exact ⟨_, feedAll_cons (p := .idle) (o := []) (by rw [feed]; exact idle_digit hs hd) (feedAll_num hr _)⟩
  | dash hc =>
    intro stop hs
    exact ⟨_, feedAll_one (by rw [feed]; exact idle_dash hs hc)⟩
  | @signed c d r hc hd hr =>
    intro stop hs
    have h3 : feed P th stop (.dash c) d = .ok (.go [] (.num [c, d])) := by simp [feed, hd]
    exact ⟨_, feedAll_cons (p := .idle) (o := []) (by rw [feed]; exact idle_dash hs hc) (feedAll_cons h3 (feedAll_num hr _))⟩
  | sym hc hr =>
    intro stop hs
    exact ⟨_, feedAll_cons (p := .idle) (o := []) (by rw [feed]; exact idle_alpha hP hs hc) (feedAll_sym hr _)⟩
  | @dashed c d r hc hd hr =>
    intro stop hs
    have h3 : feed P th stop (.dash c) d = .ok (.go [] (.sym [c, d])) := by simp [feed, hd]
    exact ⟨_, feedAll_cons (p := .idle) (o := []) (by rw [feed]; exact idle_dash hs hc) (feedAll_cons h3 (feedAll_sym hr _))⟩
  | slash =>
    intro stop hs
    exact ⟨_, feedAll_one (by rw [feed]; exact idle_slash hs)⟩
  | @chr c r hr =>
    intro stop hs
    have h3 : feed P th stop (.chr []) c = .ok (.go [] (.chr [c])) := by simp [feed]
    exact ⟨_, feedAll_cons (p := .idle) (o := []) (by rw [feed]; exact idle_slash hs) (feedAll_cons h3 (feedAll_chr hr _))⟩
  | hash =>
    intro stop hs
    exact ⟨_, feedAll_one (by rw [feed]; exact idle_hash hP hs)⟩
  | tagName hn =>
    intro stop hs
    exact ⟨_, feedAll_cons (p := .idle) (o := []) (by rw [feed]; exact idle_hash hP hs) (tagName_run hn)⟩
  | @tag n c b hn hc hr =>
    intro stop hs
    exact ⟨_, tagged_run hP hn ⟨c, by simp, hc⟩ (silent_run hP hr stopOk_none) hs⟩
  | @tagged n k u hn hc hr _ ih =>
    intro stop hs
    obtain ⟨p, hp⟩ := ih stopOk_none
    have := tagged_run hP hn hc (by simpa using feedAll_app (silent_run hP hr stopOk_none) hp) hs
    exact ⟨_, by simpa using this⟩
  | @coll o b xs ho hr =>
    intro stop hs
    obtain ⟨c, hc, e⟩ := opens_of ho
    obtain ⟨vs', w, p, h1, h2, h3⟩ := reads_run hP hr (some (endChar c)) (stopOk_end c)
    rw [e]
    exact ⟨_, by simpa using feedAll_app (opening_run hP hc hs) (coll_inner (stop := stop) h1)⟩
  | @inside o c b xs u ho hr _ ih =>
    intro stop hs
    obtain ⟨d, hd, e⟩ := opens_of ho
    obtain ⟨p, hp⟩ := ih (stopOk_end d)
    rw [e, List.append_assoc]
    exact ⟨_, by simpa using feedAll_app (opening_run hP hd hs) (coll_inner (stop := stop) ((reads_run hP hr).andThen (stopOk_end d) hp))⟩

/-- no element ends both before a digit and before a letter, leaving them for the next element -/
theorem not_pending (hP : P.Ok) {p : PState} (hp : p ≠ .idle) {x y : Val}
    (h0 : feed P th none p '0' = .ok (.go [x] (.num ['0']))) (ha : feed P th none p 'a' = .ok (.go [y] (.sym ['a']))) : False := by
  have halpha : P.isalpha 'a' = true := by rw [hP.alpha _ (by decide)]; decide
  cases p with
  | idle => exact hp rfl
  | comment => simp [feed] at h0
  | str s => simp [feed] at h0
  | esc s => simp [feed] at h0
  | dash c => rw [feed] at h0; cases h0
  | hash => simp [feed] at h0
  | num s => rw [feed_num_stay (.inl ⟨by decide, by decide⟩)] at h0; cases h0
  | sym s =>
    rw [feed, if_neg (by decide)] at h0
    cases h0
  | chr s => rw [feed, if_pos (by simp [halpha])] at ha; cases ha
  | tagName n =>
    rw [feed, if_neg (by decide)] at h0
    cases h0
  | tagVal n q =>
    rw [feed, bind_ok_iff] at h0
    obtain ⟨r, _, h⟩ := h0
    cases r with
    | stop _ => cases h
    | go o p1 =>
      cases o with
      | nil => cases h
      | cons z o =>
        obtain ⟨v, _, h⟩ := tagRes_inv h
        simp at h
  | coll o lst q =>
    rw [feed, bind_ok_iff] at h0
    obtain ⟨r, _, h⟩ := h0
    cases r with
    | stop o =>
      simp only [bind_ok_iff] at h
      obtain ⟨v, _, h⟩ := h
      cases h
    | go o p1 => cases h

theorem reads_all (hP : P.Ok) {a : List Char} {vs : List Val} (h : ∀ n, Reads P th n a vs) :
    feedAll P th none .idle a = .ok (vs, .idle) := by
  obtain ⟨vs', w, p, h1, h2, h3⟩ := reads_run hP (h '0') none stopOk_none
  rcases h3 with ⟨rfl, rfl⟩ | ⟨x, rfl, hp, h0⟩
  · rw [h1, h2, List.append_nil]
  · obtain ⟨vs1, w1, p1, h4, h5, h6⟩ := reads_run hP (h 'a') none stopOk_none
    rw [h1] at h4
    cases h4
    rcases h6 with ⟨_, rfl⟩ | ⟨y, rfl, _, ha⟩
    · exact absurd rfl hp
    · rw [idle_digit stopOk_none ⟨by decide, by decide⟩] at h0
      rw [idle_alpha hP stopOk_none (.inl (by rw [hP.alpha _ (by decide)]; decide))] at ha
      exact (not_pending hP hp h0 ha).elim

end EdnText
end Hiku
