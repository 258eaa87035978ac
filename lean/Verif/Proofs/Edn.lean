import Verif.Spec.Edn
import Verif.Proofs.Basic
import Verif.Proofs.Dict

/-! Lemmas about the EDN parser -/

namespace Hiku

variable {P : PyText} {th : String → Option (Val → Except Err Val)}

theorem feedAll_append {stop : Option Char} {a b : List Char} : ∀ {p},
    feedAll P th stop p (a ++ b) = (do
      let r ← feedAll P th stop p a
      let s ← feedAll P th stop r.2 b
      .ok (r.1 ++ s.1, s.2)) := by
  induction a with
  | nil =>
    intro p
    simp only [List.nil_append, feedAll, ok_bind']
    cases feedAll P th stop p b <;> rfl
  | cons c a ih =>
    intro p
    simp only [List.cons_append, feedAll]
    cases feed P th stop p c with
    | error e => rfl
    | ok r =>
      cases r with
      | stop _ => rfl
      | go out p' =>
        simp only [ok_bind', ih]
        cases feedAll P th stop p' a with
        | error e => rfl
        | ok x =>
          simp only [ok_bind']
          cases feedAll P th stop x.2 b with
          | error e => rfl
          | ok y => simp

theorem feedAll_app {stop : Option Char} {a b : List Char} {p p' p'' : PState} {o o' : List Val}
    (h : feedAll P th stop p a = .ok (o, p')) (h' : feedAll P th stop p' b = .ok (o', p'')) :
    feedAll P th stop p (a ++ b) = .ok (o ++ o', p'') := by
  rw [feedAll_append, h, ok_bind', h', ok_bind']

theorem feedAll_cons {stop : Option Char} {c : Char} {b : List Char} {p p' p'' : PState} {o o' : List Val}
    (h : feed P th stop p c = .ok (.go o p')) (h' : feedAll P th stop p' b = .ok (o', p'')) :
    feedAll P th stop p (c :: b) = .ok (o ++ o', p'') := by
  simp only [feedAll, h, ok_bind', h']

theorem feedAll_one {stop : Option Char} {c : Char} {p p' : PState} {o : List Val}
    (h : feed P th stop p c = .ok (.go o p')) : feedAll P th stop p [c] = .ok (o, p') := by
  simp [feedAll, h]

/-- the closing brackets -/
def StopOk (stop : Option Char) : Prop := ∀ c, stop = some c → c ∈ ['}', ']', ')']

theorem stopOk_none : StopOk none := by intro c h; cases h
theorem stopOk_end (o : Char) : StopOk (some (endChar o)) := by
  intro c h
  cases h
  unfold endChar
  split
  · simp
  · split <;> simp

/-- the text ends the value -/
def Closed (P : PyText) (th : String → Option (Val → Except Err Val)) (x : Val) (t : List Char) : Prop :=
  ∀ stop, StopOk stop → ∃ t' c p, t = t' ++ [c] ∧ feedAll P th stop .idle t' = .ok ([], p) ∧
    feed P th stop p c = .ok (.go [x] .idle)

/-- the next delimiter ends the value -/
def Open (P : PyText) (th : String → Option (Val → Except Err Val)) (x : Val) (t : List Char) : Prop :=
  ∀ stop, StopOk stop → ∃ p, feedAll P th stop .idle t = .ok ([], p) ∧
    ∀ d ∈ symEnd, feed P th stop p d = (do
      let r ← feedIdle P stop d
      .ok (r.pre [x]))

def Text (P : PyText) (th : String → Option (Val → Except Err Val)) (x : Val) (t : List Char) : Prop :=
  Closed P th x t ∨ Open P th x t

theorem Text.space {x : Val} {t : List Char} (h : Text P th x t) {stop : Option Char} (hs : StopOk stop) :
    feedAll P th stop .idle (t ++ [' ']) = .ok ([x], .idle) := by
  have hidle : feedIdle P stop ' ' = .ok (.go [] .idle) := by
    have : stop ≠ some ' ' := by intro h; have := hs _ h; simp at this
    simp [feedIdle, this, stopChars]
  rcases h with h | h
  · obtain ⟨t', c, p, rfl, h1, h2⟩ := h stop hs
    have := feedAll_app (feedAll_app h1 (feedAll_one h2)) (feedAll_one (p := .idle) (c := ' ') (by rw [feed]; exact hidle))
    simpa using this
  · obtain ⟨p, h1, h2⟩ := h stop hs
    have h3 := h2 ' ' (by simp [symEnd, stopChars])
    rw [hidle, ok_bind', PRes.pre] at h3
    simpa using feedAll_app h1 (feedAll_one h3)

/-- a space ends the value -/
def Spaced (P : PyText) (th : String → Option (Val → Except Err Val)) (x : Val) (t : List Char) : Prop :=
  ∀ stop, StopOk stop → ∃ p, feedAll P th stop .idle t = .ok ([], p) ∧ feed P th stop p ' ' = .ok (.go [x] .idle)

def Loose (P : PyText) (th : String → Option (Val → Except Err Val)) (x : Val) (t : List Char) : Prop :=
  (Text P th x t ∨ Spaced P th x t) ∧ (¬ x.Dangling → Text P th x t)

theorem Text.loose {x : Val} {t : List Char} (h : Text P th x t) : Loose P th x t := ⟨.inl h, fun _ => h⟩

theorem Loose.space {x : Val} {t : List Char} (h : Loose P th x t) {stop : Option Char} (hs : StopOk stop) :
    feedAll P th stop .idle (t ++ [' ']) = .ok ([x], .idle) := by
  rcases h.1 with h | h
  · exact h.space hs
  · obtain ⟨p, h1, h2⟩ := h stop hs
    simpa using feedAll_app h1 (feedAll_one h2)

/-- the items of a collection -/
theorem items_text {xs : List Val} {ts : List (List Char)} (h : List.Forall₂ (Loose P th) xs ts) (hl : LastOk xs) {e : Char}
    (he : e ∈ ['}', ']', ')']) : ∃ out p rest, feedAll P th (some e) .idle (joinSp ts) = .ok (out, p) ∧
      feed P th (some e) p e = .ok (.stop rest) ∧ out ++ rest = xs := by
  have hs : StopOk (some e) := by intro c h; cases h; exact he
  have hend : e ∈ symEnd := by simp [symEnd] at he ⊢; tauto
  have hidle : feedIdle P (some e) e = .ok (.stop []) := by simp [feedIdle]
  induction h with
  | nil => exact ⟨[], .idle, [], rfl, hidle, rfl⟩
  | @cons x t xs ts hx hr ih =>
    cases hr with
    | nil =>
      rw [joinSp]
      have hx := hx.2 (hl x rfl)
      rcases hx with hx | hx
      · obtain ⟨t', c, p, rfl, h1, h2⟩ := hx (some e) hs
        refine ⟨[x], .idle, [], ?_, hidle, rfl⟩
        simpa using feedAll_app h1 (feedAll_one h2)
      · obtain ⟨p, h1, h2⟩ := hx (some e) hs
        refine ⟨[], p, [x], h1, ?_, rfl⟩
        rw [h2 e hend, hidle]; rfl
    | @cons y u ys us hy hr =>
      obtain ⟨out, p, rest, h1, h2, h3⟩ := ih (fun z hz => hl z (by rw [List.getLast?_cons_cons]; exact hz))
      refine ⟨x :: out, p, rest, ?_, h2, by simp [h3]⟩
      have := feedAll_app (hx.space hs) h1
      simpa [joinSp] using this

/-- a parser inside of a collection -/
theorem coll_inner {stop : Option Char} {o : Char} {cs : List Char} : ∀ {lst p out p'},
    feedAll P th (some (endChar o)) p cs = .ok (out, p') →
    feedAll P th stop (.coll o lst p) cs = .ok ([], .coll o (lst ++ out) p') := by
  induction cs with
  | nil => intro lst p out p' h; cases h; simp [feedAll]
  | cons c cs ih =>
    intro lst p out p' h
    simp only [feedAll] at h
    rw [bind_ok_iff] at h
    obtain ⟨r, h1, h⟩ := h
    cases r with
    | stop _ => cases h
    | go o1 p1 =>
      simp only [bind_ok_iff] at h
      obtain ⟨r2, h2, h⟩ := h
      cases h
      have := feedAll_cons (P := P) (th := th) (stop := stop) (p := .coll o lst p) (c := c) (p' := .coll o (lst ++ o1) p1) (o := [])
        (by simp only [feed, h1, ok_bind']) (ih h2)
      simpa using this

theorem coll_text {o : Char} {pre : List Char} {xs : List Val} {ts : List (List Char)} (h : List.Forall₂ (Loose P th) xs ts) (hl : LastOk xs) {v : Val}
    (hpre : ∀ stop, StopOk stop → feedAll P th stop .idle pre = .ok ([], .coll o [] .idle))
    (hv : closeColl P o xs = .ok v) : Closed P th v (pre ++ (joinSp ts ++ [endChar o])) := by
  intro stop hs
  obtain ⟨out, p, rest, h1, h2, h3⟩ := items_text h hl (stopOk_end o _ rfl)
  refine ⟨pre ++ joinSp ts, endChar o, .coll o out p, by simp, ?_, ?_⟩
  · have := feedAll_app (hpre stop hs) (coll_inner (lst := []) h1)
    simpa using this
  · simp only [feed, h2, ok_bind', h3, hv]

/-! ### Atoms -/

theorem mem_digits_of_isDigit {c : Char} (h : c.isDigit = true) : c ∈ digitChars := by
  have h' : 48 ≤ c.toNat ∧ c.toNat ≤ 57 := by
    simp [Char.isDigit] at h
    exact h
  have : ∀ n ∈ [48, 49, 50, 51, 52, 53, 54, 55, 56, 57], Char.ofNat n ∈ digitChars := by decide
  have h2 := this c.toNat (by simp; omega)
  rwa [Char.ofNat_toNat] at h2

theorem digit_ne {stop : Option Char} (hs : StopOk stop) {d : Char} (hd : d ∈ digitChars) : stop ≠ some d := by
  intro h
  have := hs _ h
  simp [digitChars] at hd
  rcases hd with rfl | rfl | rfl | rfl | rfl | rfl | rfl | rfl | rfl | rfl <;> simp at this

theorem feedIdle_digit {stop : Option Char} (hs : StopOk stop) {d : Char} (hd : d ∈ digitChars) :
    feedIdle P stop d = .ok (.go [] (.num [d])) := by
  have h1 := digit_ne hs hd
  rw [feedIdle, if_neg h1]
  simp only [digitChars, List.mem_cons, List.not_mem_nil, or_false] at hd
  rcases hd with rfl | rfl | rfl | rfl | rfl | rfl | rfl | rfl | rfl | rfl <;> rfl

theorem feedIdle_dash {stop : Option Char} (hs : StopOk stop) {c : Char} (hc : c = '-' ∨ c = '.') :
    feedIdle P stop c = .ok (.go [] (.dash c)) := by
  have h1 : stop ≠ some c := by
    intro h; have := hs _ h; rcases hc with rfl | rfl <;> simp at this
  rw [feedIdle, if_neg h1]
  rcases hc with rfl | rfl <;> rfl

theorem num_run {stop : Option Char} {r : List Char} : ∀ {s}, (∀ c ∈ r, c ∈ numChars) →
    feedAll P th stop (.num s) r = .ok ([], .num (s ++ r)) := by
  induction r with
  | nil => intro s _; simp [feedAll]
  | cons c r ih =>
    intro s h
    have hc : c ∈ numChars := h c List.mem_cons_self
    have := feedAll_cons (P := P) (th := th) (stop := stop) (p := .num s) (c := c) (o := []) (p' := .num (s ++ [c]))
      (by rw [feed, if_pos hc]) (ih fun x hx => h x (List.mem_cons_of_mem _ hx))
    simpa using this

theorem symEnd_not_num {d : Char} (hd : d ∈ symEnd) : d ∉ numChars := by
  simp only [symEnd, stopChars, List.mem_append, List.mem_cons, List.not_mem_nil, or_false] at hd
  rcases hd with (rfl | rfl | rfl) | (rfl | rfl | rfl | rfl | rfl) <;> decide

theorem num_text (hP : P.Ok) {t : List Char} {d : Char} {r : List Char} (hd : d ∈ digitChars) (ht : t = d :: r ∨ t = '-' :: d :: r)
    (hr : ∀ c ∈ t, c ∈ numChars) {v : Val} (hv : parseNumber P t = .ok v) : Open P th v t := by
  intro stop hs
  refine ⟨.num t, ?_, ?_⟩
  · rcases ht with rfl | rfl
    · have := feedAll_cons (P := P) (th := th) (stop := stop) (p := .idle) (by rw [feed]; exact feedIdle_digit hs hd)
        (num_run (s := [d]) fun c hc => hr c (List.mem_cons_of_mem _ hc))
      simpa using this
    · have hdig : P.isdigit d = true := by
        simp only [digitChars, List.mem_cons, List.not_mem_nil, or_false] at hd
        rcases hd with rfl | rfl | rfl | rfl | rfl | rfl | rfl | rfl | rfl | rfl <;> rw [hP.digit _ (by decide)] <;> decide
      have := feedAll_cons (P := P) (th := th) (stop := stop) (p := .idle) (by rw [feed]; exact feedIdle_dash hs (.inl rfl))
        (feedAll_cons (p := .dash '-') (c := d) (o := []) (p' := .num ['-', d]) (by rw [feed, if_pos hdig])
          (num_run (s := ['-', d]) (r := r) fun c hc => hr c (by simp [hc])))
      simpa using this
  · intro d hd
    rw [feed, if_neg (symEnd_not_num hd), hv]
    rfl

theorem sym_run {stop : Option Char} {r : List Char} : ∀ {s}, (∀ c ∈ r, c ∉ symEnd) →
    feedAll P th stop (.sym s) r = .ok ([], .sym (s ++ r)) := by
  induction r with
  | nil => intro s _; simp [feedAll]
  | cons c r ih =>
    intro s h
    have hc : c ∉ symEnd := h c List.mem_cons_self
    have := feedAll_cons (P := P) (th := th) (stop := stop) (p := .sym s) (c := c) (o := []) (p' := .sym (s ++ [c]))
      (by rw [feed, if_neg hc]) (ih fun x hx => h x (List.mem_cons_of_mem _ hx))
    simpa using this

theorem feedIdle_alpha (hP : P.Ok) {stop : Option Char} (hs : StopOk stop) {c : Char} (hc : P.isalpha c = true ∨ c = ':') :
    feedIdle P stop c = .ok (.go [] (.sym [c])) := by
  have key : ∀ x : Char, x.toNat < 128 → x.isAlpha = false → x ≠ ':' → c ≠ x := by
    intro x h1 h2 h3 e
    subst e
    rcases hc with hc | hc
    · rw [hP.alpha c h1, h2] at hc; cases hc
    · exact h3 hc
  have h1 : stop ≠ some c := by
    intro h
    have := hs _ h
    simp only [List.mem_cons, List.not_mem_nil, or_false] at this
    rcases this with h | h | h <;> exact key _ (by decide) (by decide) (by decide) h
  have h2 : c ∉ stopChars := by
    intro h
    simp only [stopChars, List.mem_cons, List.not_mem_nil, or_false] at h
    rcases h with h | h | h | h | h <;> exact key _ (by decide) (by decide) (by decide) h
  have h3 : c ∉ digitChars := by
    intro h
    simp only [digitChars, List.mem_cons, List.not_mem_nil, or_false] at h
    rcases h with h | h | h | h | h | h | h | h | h | h <;> exact key _ (by decide) (by decide) (by decide) h
  have h4 : c ≠ '-' := key _ (by decide) (by decide) (by decide)
  have h5 : c ≠ '.' := key _ (by decide) (by decide) (by decide)
  have h6 : c ≠ ';' := key _ (by decide) (by decide) (by decide)
  have h7 : c ≠ '"' := key _ (by decide) (by decide) (by decide)
  have h8 : c ≠ '\\' := key _ (by decide) (by decide) (by decide)
  rw [feedIdle, if_neg h1, if_neg h2, if_neg h6, if_neg h7, if_neg h8, if_neg h3, if_neg (by simp [h4, h5]), if_pos (by simpa using hc)]

theorem sym_open {stop : Option Char} {s : List Char} {v : Val} (hv : symVal s = v) : ∀ d ∈ symEnd, feed P th stop (.sym s) d = (do
      let r ← feedIdle P stop d
      .ok (r.pre [v])) := by
  intro d hd
  rw [feed, if_pos hd, hv]

theorem alpha_text (hP : P.Ok) {c : Char} {r : List Char} (hc : P.isalpha c = true ∨ c = ':') (hr : ∀ x ∈ r, x ∉ symEnd) {v : Val}
    (hv : symVal (c :: r) = v) : Open P th v (c :: r) := by
  intro stop hs
  refine ⟨.sym (c :: r), ?_, sym_open hv⟩
  have := feedAll_cons (P := P) (th := th) (stop := stop) (p := .idle) (by rw [feed]; exact feedIdle_alpha hP hs hc)
    (sym_run (s := [c]) hr)
  simpa using this

theorem dash_text {c c' : Char} {r : List Char} (hc : c = '-' ∨ c = '.') (hd : P.isdigit c' = false) (hr : ∀ x ∈ r, x ∉ symEnd) {v : Val}
    (hv : symVal (c :: c' :: r) = v) : Open P th v (c :: c' :: r) := by
  intro stop hs
  refine ⟨.sym (c :: c' :: r), ?_, sym_open hv⟩
  have := feedAll_cons (P := P) (th := th) (stop := stop) (p := .idle) (by rw [feed]; exact feedIdle_dash hs hc)
    (feedAll_cons (p := .dash c) (c := c') (o := []) (p' := .sym [c, c']) (by rw [feed, hd]; rfl) (sym_run (s := [c, c']) hr))
  simpa using this

/-! ### Strings -/

theorem str_char {ascii : Bool} {stop : Option Char} {c : Char} (h : CharOk ascii c) {cs : List Char} :
    feedAll P th stop (.str cs) (escChar ascii c) = .ok ([], .str (cs ++ [c])) := by
  have esc : ∀ x y, unescape x = y → feedAll P th stop (.str cs) ['\\', x] = .ok ([], .str (cs ++ [y])) := by
    intro x y hxy
    subst hxy
    exact feedAll_cons (o := []) (p' := .esc cs) (by rw [feed, if_pos rfl]) (feedAll_one (by rw [feed]))
  unfold escChar
  by_cases h1 : c = '\\'
  · rw [if_pos h1, h1]; exact esc _ _ rfl
  rw [if_neg h1]
  by_cases h2 : c = '"'
  · rw [if_pos h2, h2]; exact esc _ _ rfl
  rw [if_neg h2]
  by_cases h3 : c = '\n'
  · rw [if_pos h3, h3]; exact esc _ _ rfl
  rw [if_neg h3]
  by_cases h4 : c = '\r'
  · rw [if_pos h4, h4]; exact esc _ _ rfl
  rw [if_neg h4]
  by_cases h5 : c = '\t'
  · rw [if_pos h5, h5]; exact esc _ _ rfl
  rw [if_neg h5]
  by_cases h6 : c = '\x0c'
  · rw [if_pos h6, h6]; exact esc _ _ rfl
  rw [if_neg h6]
  by_cases h7 : c = '\x08'
  · rw [if_pos h7, h7]; exact esc _ _ rfl
  rw [if_neg h7]
  have h8 : 32 ≤ c.toNat ∧ (ascii = true → c.toNat ≤ 126) := by
    rcases h with h | h
    · simp only [List.mem_cons, List.not_mem_nil, or_false] at h
      tauto
    · exact h
  rw [if_neg (by omega), if_neg (by
    simp only [Bool.and_eq_true, decide_eq_true_eq, not_and]
    intro ha
    have := h8.2 ha
    omega)]
  exact feedAll_one (by rw [feed, if_neg h1, if_neg h2])

theorem str_run {ascii : Bool} {stop : Option Char} {s : List Char} : ∀ {cs}, (∀ c ∈ s, CharOk ascii c) →
    feedAll P th stop (.str cs) (s.flatMap (escChar ascii)) = .ok ([], .str (cs ++ s)) := by
  induction s with
  | nil => intro cs _; simp [feedAll]
  | cons c s ih =>
    intro cs h
    have := feedAll_app (str_char (P := P) (th := th) (stop := stop) (h c List.mem_cons_self) (cs := cs))
      (ih (cs := cs ++ [c]) fun x hx => h x (List.mem_cons_of_mem _ hx))
    simpa using this

theorem str_text {ascii : Bool} {s : String} (h : ∀ c ∈ s.toList, CharOk ascii c) : Closed P th (.str s) (ednStr ascii s.toList) := by
  intro stop hs
  refine ⟨'"' :: s.toList.flatMap (escChar ascii), '"', .str s.toList, by simp [ednStr], ?_, ?_⟩
  · have h1 : stop ≠ some '"' := by intro h; have := hs _ h; simp at this
    have := feedAll_cons (P := P) (th := th) (stop := stop) (p := .idle) (c := '"') (o := []) (p' := .str []) (by
      rw [feed, feedIdle, if_neg h1, if_neg (by decide), if_neg (by decide), if_pos rfl]) (str_run (cs := []) h)
    simpa using this
  · simp [feed]

/-! ### Tags -/

theorem tagName_run {stop : Option Char} {r : List Char} : ∀ {s}, (∀ c ∈ r, c ∉ tagEnd) →
    feedAll P th stop (.tagName s) r = .ok ([], .tagName (s ++ r)) := by
  induction r with
  | nil => intro s _; simp [feedAll]
  | cons c r ih =>
    intro s h
    have hc : c ∉ tagEnd := h c List.mem_cons_self
    have := feedAll_cons (P := P) (th := th) (stop := stop) (p := .tagName s) (c := c) (o := []) (p' := .tagName (s ++ [c]))
      (by rw [feed, if_neg hc]) (ih fun x hx => h x (List.mem_cons_of_mem _ hx))
    simpa using this

theorem tagVal_run {stop : Option Char} {n : List Char} {cs : List Char} : ∀ {p p'},
    feedAll P th none p cs = .ok ([], p') → feedAll P th stop (.tagVal n p) cs = .ok ([], .tagVal n p') := by
  induction cs with
  | nil => intro p p' h; cases h; rfl
  | cons c cs ih =>
    intro p p' h
    simp only [feedAll] at h
    rw [bind_ok_iff] at h
    obtain ⟨r, h1, h⟩ := h
    cases r with
    | stop _ => cases h
    | go o1 p1 =>
      simp only [bind_ok_iff] at h
      obtain ⟨r2, h2, h⟩ := h
      simp only [Except.ok.injEq, Prod.mk.injEq, List.append_eq_nil_iff] at h
      obtain ⟨⟨rfl, h3⟩, h4⟩ := h
      obtain ⟨o2, p2⟩ := r2
      simp only at h3 h4
      subst h3 h4
      exact feedAll_cons (o := []) (p' := .tagVal n p1) (by simp only [feed, h1, ok_bind', tagRes]) (ih h2)

theorem tag_text (hP : P.Ok) {n : String} (hn : TagOk th n) {v : Val} {t : List Char} (h : Closed P th v t) :
    Closed P th (.tagged n v) ('#' :: (n.toList ++ ' ' :: t)) := by
  intro stop hs
  obtain ⟨t', c, p, rfl, h1, h2⟩ := h none stopOk_none
  obtain ⟨hth, c0, r, hn, hc0, hr⟩ := hn
  refine ⟨'#' :: (n.toList ++ ' ' :: t'), c, .tagVal n.toList p, by simp, ?_, ?_⟩
  · rw [hn]
    have hne : stop ≠ some '#' := by intro h; have := hs _ h; simp at this
    have hcons := feedAll_cons (P := P) (th := th) (stop := stop) (p := .idle) (c := '#') (o := []) (p' := .hash) (by
        rw [feed, feedIdle, if_neg hne, if_neg (by decide), if_neg (by decide), if_neg (by decide), if_neg (by decide),
          if_neg (by decide), if_neg (by decide)]
        have ha : P.isalpha '#' = false := by rw [hP.alpha _ (by decide)]; decide
        rw [if_neg (by simp [ha]), if_pos rfl])
      (feedAll_cons (p := .hash) (c := c0) (o := []) (p' := .tagName [c0]) (by rw [feed, if_neg hc0])
        (feedAll_app (tagName_run (s := [c0]) hr)
          (feedAll_cons (p := .tagName ([c0] ++ r)) (c := ' ') (o := []) (p' := .tagVal ([c0] ++ r) .idle) (by
            rw [feed, if_pos (by decide)]
            rfl) (tagVal_run h1))))
    simpa using hcons
  · simp only [feed, h2, ok_bind', tagRes]
    simp [hth]

theorem Text.spaced {x : Val} {t : List Char} (h : Open P th x t) : Spaced P th x t := by
  intro stop hs
  obtain ⟨p, h1, h2⟩ := h stop hs
  refine ⟨p, h1, ?_⟩
  have : stop ≠ some ' ' := by intro h; have := hs _ h; simp at this
  rw [h2 ' ' (by simp [symEnd, stopChars]), show feedIdle P stop ' ' = .ok (.go [] .idle) by simp [feedIdle, this, stopChars]]
  rfl

theorem tag_spaced (hP : P.Ok) {n : String} (hn : TagOk th n) {v : Val} {t : List Char} (h : Spaced P th v t) :
    Spaced P th (.tagged n v) ('#' :: (n.toList ++ ' ' :: t)) := by
  intro stop hs
  obtain ⟨p, h1, h2⟩ := h none stopOk_none
  obtain ⟨hth, c0, r, hn, hc0, hr⟩ := hn
  refine ⟨.tagVal n.toList p, ?_, ?_⟩
  · rw [hn]
    have hne : stop ≠ some '#' := by intro h; have := hs _ h; simp at this
    have hcons := feedAll_cons (P := P) (th := th) (stop := stop) (p := .idle) (c := '#') (o := []) (p' := .hash) (by
        rw [feed, feedIdle, if_neg hne, if_neg (by decide), if_neg (by decide), if_neg (by decide), if_neg (by decide),
          if_neg (by decide), if_neg (by decide)]
        have ha : P.isalpha '#' = false := by rw [hP.alpha _ (by decide)]; decide
        rw [if_neg (by simp [ha]), if_pos rfl])
      (feedAll_cons (p := .hash) (c := c0) (o := []) (p' := .tagName [c0]) (by rw [feed, if_neg hc0])
        (feedAll_app (tagName_run (s := [c0]) hr)
          (feedAll_cons (p := .tagName ([c0] ++ r)) (c := ' ') (o := []) (p' := .tagVal ([c0] ++ r) .idle) (by
            rw [feed, if_pos (by decide)]
            rfl) (tagVal_run h1))))
    simpa using hcons
  · simp only [feed, h2, ok_bind', tagRes]
    simp [hth]

end Hiku
