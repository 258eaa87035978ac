import Verif.Proofs.Edn
import Verif.Proofs.PyEq

/-! # C28: EDN text round-trips -/

namespace Hiku

variable {P : PyText} {th : String → Option (Val → Except Err Val)}

/-! ### Numbers -/

theorem nat_digits (n : Nat) : (∃ d r, d ∈ digitChars ∧ n.repr.toList = d :: r) ∧ ∀ c ∈ n.repr.toList, c ∈ digitChars := by
  have h : ∀ c ∈ n.repr.toList, c ∈ digitChars := by
    intro c hc
    refine mem_digits_of_isDigit ?_
    rw [Nat.toList_repr] at hc
    exact Nat.isDigit_of_mem_toDigits (by decide) (by decide) hc
  refine ⟨?_, h⟩
  cases hl : n.repr.toList with
  | nil =>
    rw [Nat.toList_repr] at hl
    exact absurd hl (Nat.toDigits_ne_nil)
  | cons d r => exact ⟨d, r, h d (by rw [hl]; simp), rfl⟩

theorem int_digits (i : Int) : (∃ d r, d ∈ digitChars ∧ ((toString i).toList = d :: r ∨ (toString i).toList = '-' :: d :: r)) ∧
    ∀ c ∈ (toString i).toList, c ∈ digitChars ∨ c = '-' := by
  cases i with
  | ofNat n =>
    have he : (toString (Int.ofNat n)).toList = n.repr.toList := rfl
    rw [he]
    obtain ⟨⟨d, r, h1, h2⟩, h3⟩ := nat_digits n
    exact ⟨⟨d, r, h1, .inl h2⟩, fun c hc => .inl (h3 c hc)⟩
  | negSucc n =>
    have he : (toString (Int.negSucc n)).toList = '-' :: (n + 1).repr.toList := by
      show ("-" ++ (n + 1).repr).toList = _
      rw [String.toList_append]; rfl
    rw [he]
    obtain ⟨⟨d, r, h1, h2⟩, h3⟩ := nat_digits (n + 1)
    refine ⟨⟨d, r, h1, .inr (by rw [h2])⟩, fun c hc => ?_⟩
    rcases List.mem_cons.1 hc with rfl | hc
    · exact .inr rfl
    · exact .inl (h3 c hc)

theorem rstrip_none {t : List Char} (h : ∀ c ∈ t, c ≠ 'M' ∧ c ≠ 'N') : rstripMN t = t := by
  unfold rstripMN
  have : ∀ l : List Char, (∀ c ∈ l, c ≠ 'M' ∧ c ≠ 'N') → l.dropWhile (fun c => c = 'M' || c = 'N') = l := by
    intro l hl
    cases l with
    | nil => rfl
    | cons c r =>
      have := hl c List.mem_cons_self
      simp [List.dropWhile, this]
  rw [this _ (by simpa using h)]
  simp

theorem upper_digits {t : List Char} (h : ∀ c ∈ t, c ∈ digitChars ∨ c = '-') : t.map Char.toUpper = t := by
  have : ∀ c ∈ t, Char.toUpper c = c := by
    intro c hc
    have h := h c hc
    simp only [digitChars, List.mem_cons, List.not_mem_nil, or_false] at h
    rcases h with (rfl | rfl | rfl | rfl | rfl | rfl | rfl | rfl | rfl | rfl) | rfl <;> rfl
  simpa using List.map_congr_left this

theorem parse_int (i : Int) : parseNumber P (toString i).toList = .ok (.int i) := by
  obtain ⟨_, h⟩ := int_digits i
  have hno : ∀ x : Char, x ∉ digitChars → x ≠ '-' → x ∉ (toString i).toList := by
    intro x h1 h2 hx
    rcases h x hx with h | h
    · exact h1 h
    · exact h2 h
  have h1 : ∀ c ∈ (toString i).toList, c ≠ 'M' ∧ c ≠ 'N' := by
    intro c hc
    constructor
    · rintro rfl; exact hno _ (by decide) (by decide) hc
    · rintro rfl; exact hno _ (by decide) (by decide) hc
  unfold parseNumber
  rw [rstrip_none h1, upper_digits h]
  have hE := hno 'E' (by decide) (by decide)
  have hd := hno '.' (by decide) (by decide)
  simp only [List.contains_eq_mem, hE, hd, decide_false, Bool.or_false, Bool.false_eq_true, if_false, String.ofList_toList]
  have := Int.toInt?_repr i
  rw [show toString i = i.repr from rfl, this]

theorem int_text (hP : P.Ok) (i : Int) : Open P th (.int i) (toString i).toList := by
  obtain ⟨⟨d, r, h1, h2⟩, h3⟩ := int_digits i
  refine num_text hP h1 h2 (fun c hc => ?_) (parse_int i)
  have h := h3 c hc
  simp only [digitChars, List.mem_cons, List.not_mem_nil, or_false] at h
  rcases h with (rfl | rfl | rfl | rfl | rfl | rfl | rfl | rfl | rfl | rfl) | rfl <;> decide

theorem float_text (hP : P.Ok) {t : String} (h : FloatText P t.toList) : Open P th (.float t) t.toList := by
  obtain ⟨⟨d, r, h1, h2⟩, h3, h4, h5⟩ := h
  have hmem : ∀ c ∈ t.toList, c ∈ numChars ∧ c ≠ 'M' ∧ c ≠ 'N' := by
    intro c hc
    have h := h3 c hc
    simp only [digitChars, List.mem_cons, List.not_mem_nil, or_false] at h
    rcases h with (rfl | rfl | rfl | rfl | rfl | rfl | rfl | rfl | rfl | rfl) | (rfl | rfl | rfl | rfl) <;> decide
  refine num_text hP h1 h2 (fun c hc => (hmem c hc).1) ?_
  unfold parseNumber
  rw [rstrip_none fun c hc => (hmem c hc).2]
  have hc : ((t.toList.map Char.toUpper).contains 'E' || (t.toList.map Char.toUpper).contains '.') = true := by
    simp only [List.contains_eq_mem, Bool.or_eq_true, decide_eq_true_eq, List.mem_map]
    rcases h4 with h | h
    · exact .inr ⟨'.', h, rfl⟩
    · exact .inl ⟨'e', h, rfl⟩
  simp only [hc, if_true, h5, String.ofList_toList]

/-! ### Dicts and sets -/

theorem mkSet_nodup {xs : List Val} (h : xs.Nodup) : mkSet xs = xs := by
  unfold mkSet
  have : ∀ (xs acc : List Val), (acc ++ xs).Nodup →
      xs.foldl (fun acc x => if x ∈ acc then acc else acc ++ [x]) acc = acc ++ xs := by
    intro xs
    induction xs with
    | nil => intro acc _; simp
    | cons x r ih =>
      intro acc h
      have hx : x ∉ acc := by
        rw [List.nodup_append] at h
        intro hm
        exact h.2.2 x hm x List.mem_cons_self rfl
      simp only [List.foldl_cons, if_neg hx]
      rw [ih (acc ++ [x]) (by simpa using h)]
      simp
  simpa using this xs [] (by simpa using h)

/-- the items of a dict, one after another -/
def flattenKvs : List (Val × Val) → List Val
  | [] => []
  | (k, v) :: r => k :: v :: flattenKvs r

theorem pairUp_flatten (kvs : List (Val × Val)) : pairUp (flattenKvs kvs) = kvs := by
  induction kvs with
  | nil => rfl
  | cons kv r ih => obtain ⟨k, v⟩ := kv; simp [flattenKvs, pairUp, ih]

theorem flatten_even (kvs : List (Val × Val)) : (flattenKvs kvs).length % 2 = 0 := by
  induction kvs with
  | nil => rfl
  | cons kv r ih => obtain ⟨k, v⟩ := kv; simp [flattenKvs]; omega

theorem dmk_nodup {α β : Type} [DecidableEq α] {l : List (α × β)} (h : (l.map (·.1)).Nodup) : dmk l = l := by
  have hset : ∀ (l : List (α × β)) k v, k ∉ l.map (·.1) → dset l k v = l ++ [(k, v)] := by
    intro l k v
    induction l with
    | nil => intro _; rfl
    | cons kv r ih =>
      intro hk
      obtain ⟨k', v'⟩ := kv
      simp at hk
      rw [dset, if_neg (fun e => hk.1 e.symm), ih (by simpa using hk.2)]
      rfl
  have : ∀ (l acc : List (α × β)), ((acc ++ l).map (·.1)).Nodup → l.foldl (fun d kv => dset d kv.1 kv.2) acc = acc ++ l := by
    intro l
    induction l with
    | nil => intro acc _; simp
    | cons kv r ih =>
      intro acc h
      have hk : kv.1 ∉ acc.map (·.1) := by
        rw [List.map_append, List.nodup_append] at h
        intro hm
        exact h.2.2 _ hm _ (by simp) rfl
      simp only [List.foldl_cons]
      rw [hset acc _ _ hk, ih (acc ++ [kv]) (by simpa using h)]
      simp
  simpa [dmk, dupdate] using this l [] (by simpa using h)

/-! ### The round trip -/

theorem coll_start {o : Char} (ho : o = '[' ∨ o = '(' ∨ o = '{') (hP : P.Ok) {stop : Option Char} (hs : StopOk stop) :
    feedAll P th stop .idle [o] = .ok ([], .coll o [] .idle) := by
  refine feedAll_one ?_
  have hne : stop ≠ some o := by intro h; have := hs _ h; rcases ho with rfl | rfl | rfl <;> simp at this
  rw [feed, feedIdle, if_neg hne]
  rcases ho with rfl | rfl | rfl
  · have ha : P.isalpha '[' = false := by rw [hP.alpha _ (by decide)]; decide
    rw [if_neg (by decide), if_neg (by decide), if_neg (by decide), if_neg (by decide), if_neg (by decide), if_neg (by decide),
      if_neg (by simp [ha]), if_neg (by decide), if_pos (by decide)]
  · have ha : P.isalpha '(' = false := by rw [hP.alpha _ (by decide)]; decide
    rw [if_neg (by decide), if_neg (by decide), if_neg (by decide), if_neg (by decide), if_neg (by decide), if_neg (by decide),
      if_neg (by simp [ha]), if_neg (by decide), if_pos (by decide)]
  · have ha : P.isalpha '{' = false := by rw [hP.alpha _ (by decide)]; decide
    rw [if_neg (by decide), if_neg (by decide), if_neg (by decide), if_neg (by decide), if_neg (by decide), if_neg (by decide),
      if_neg (by simp [ha]), if_neg (by decide), if_pos (by decide)]

theorem set_start (hP : P.Ok) {stop : Option Char} (hs : StopOk stop) :
    feedAll P th stop .idle ['#', '{'] = .ok ([], .coll '#' [] .idle) := by
  have hne : stop ≠ some '#' := by intro h; have := hs _ h; simp at this
  have ha : P.isalpha '#' = false := by rw [hP.alpha _ (by decide)]; decide
  refine feedAll_cons (o := []) (o' := []) (p' := .hash) ?_ (feedAll_one ?_)
  · rw [feed, feedIdle, if_neg hne, if_neg (by decide), if_neg (by decide), if_neg (by decide), if_neg (by decide),
      if_neg (by decide), if_neg (by decide), if_neg (by simp [ha]), if_pos rfl]
  · rw [feed, if_pos rfl]

theorem kw_text (hP : P.Ok) {s : String} (h : ∀ c ∈ s.toList, c ∉ symEnd) : Open P th (.kw s) (':' :: s.toList) :=
  alpha_text hP (.inr rfl) h (by simp [symVal])

theorem symVal_ne {s : List Char} (h : ∀ r, s ≠ ':' :: r) : symVal s =
    if s = ['t', 'r', 'u', 'e'] then .bool true
    else if s = ['f', 'a', 'l', 's', 'e'] then .bool false
    else if s = ['n', 'i', 'l'] then .none
    else .sym (String.ofList s) := by
  unfold symVal
  split
  · exact absurd rfl (h _)
  · rfl

theorem sym_text (hP : P.Ok) {s : String} (h : SymOk P s.toList) : Open P th (.sym s) s.toList := by
  obtain ⟨hs, h1, h2, h3⟩ := h
  have hv : (∀ r, s.toList ≠ ':' :: r) → symVal s.toList = .sym s := by
    intro hne
    rw [symVal_ne hne, if_neg h1, if_neg h2, if_neg h3, String.ofList_toList]
  rcases hs with ⟨c, r, hcr, hc, hr⟩ | ⟨c, c', r, hcr, hc, hd, hr⟩
  · have hcolon : c ≠ ':' := by
      rintro rfl
      rw [hP.alpha _ (by decide)] at hc; revert hc; decide
    rw [hcr] at hv ⊢
    exact alpha_text hP (.inl hc) hr (hv (fun r' he => by cases he; exact absurd rfl hcolon))
  · have hcolon : c ≠ ':' := by
      rintro rfl
      rcases hc with hc | hc <;> (revert hc; decide)
    rw [hcr] at hv ⊢
    exact dash_text hc hd hr (hv (fun r' he => by cases he; exact absurd rfl hcolon))

theorem alpha_true (hP : P.Ok) {c : Char} (h : c.isAlpha = true) (h' : c.toNat < 128) : P.isalpha c = true := by
  rw [hP.alpha c h', h]

theorem lastOk_all {xs : List Val} (h : ∀ x ∈ xs, x.hashable = true) : LastOk xs := by
  intro x hx
  have := h x (List.mem_of_getLast? hx)
  cases x <;> simp [Val.Dangling, Val.hashable] at this ⊢

theorem lastOk_hashables {xs : List Val} (h : hashables xs = true) : LastOk xs := by
  have key : ∀ x ∈ xs, x.hashable = true := by
    induction xs with
    | nil => simp
    | cons y r ih =>
      simp only [hashables, Bool.and_eq_true] at h
      intro x hx
      rcases List.mem_cons.1 hx with rfl | hx
      · exact h.1
      · exact ih h.2 x hx
  intro x hx
  have := key x (List.mem_of_getLast? hx)
  cases x <;> simp [Val.Dangling, Val.hashable] at this ⊢

theorem lastOk_flatten {kvs : List (Val × Val)} (h : LastOk (kvs.map (·.2))) : LastOk (flattenKvs kvs) := by
  induction kvs with
  | nil => intro x hx; cases hx
  | cons kv r ih =>
    obtain ⟨k, v⟩ := kv
    cases r with
    | nil =>
      intro x hx
      exact h x hx
    | cons kv' r =>
      obtain ⟨k', v'⟩ := kv'
      have := ih (fun x hx => h x (by simp only [List.map_cons, List.getLast?_cons_cons] at hx ⊢; exact hx))
      intro x hx
      apply this x
      simp only [flattenKvs, List.getLast?_cons_cons] at hx ⊢
      exact hx

mutual
theorem dumps_text (hP : P.Ok) (ascii : Bool) : (v : Val) → EdnVal P th ascii v → ∃ t, dumps ascii v = .ok t ∧
    Loose P th v t ∧ (v.Delimited → Closed P th v t)
  | .none, _ => ⟨_, rfl, Text.loose (.inr (alpha_text hP (.inl (alpha_true hP (by decide) (by decide))) (by decide) rfl)), fun h => h.elim⟩
  | .bool true, _ => ⟨_, rfl, Text.loose (.inr (alpha_text hP (.inl (alpha_true hP (by decide) (by decide))) (by decide) rfl)), fun h => h.elim⟩
  | .bool false, _ => ⟨_, rfl, Text.loose (.inr (alpha_text hP (.inl (alpha_true hP (by decide) (by decide))) (by decide) rfl)), fun h => h.elim⟩
  | .int i, _ => ⟨_, rfl, Text.loose (.inr (int_text hP i)), fun h => h.elim⟩
  | .float t, h => ⟨_, rfl, Text.loose (.inr (float_text hP (by simpa [EdnVal] using h))), fun h => h.elim⟩
  | .str s, h => ⟨_, rfl, Text.loose (.inl (str_text (by simpa [EdnVal] using h))), fun _ => str_text (by simpa [EdnVal] using h)⟩
  | .kw s, h => ⟨_, rfl, Text.loose (.inr (kw_text hP (by simpa [EdnVal] using h))), fun h => h.elim⟩
  | .sym s, h => ⟨_, rfl, Text.loose (.inr (sym_text hP (by simpa [EdnVal] using h))), fun h => h.elim⟩
  | .nothing, h => by simp [EdnVal] at h
  | .seq .elist xs, h => by
    simp only [EdnVal] at h
    obtain ⟨ts, h1, h2⟩ := dumpsList_text hP ascii xs h.1
    have := coll_text (o := '[') (pre := ['[']) h2 h.2 (fun stop hs => coll_start (.inl rfl) hP hs) (v := .seq .elist xs) rfl
    exact ⟨_, by simp [dumps, h1, endChar], Text.loose (.inl this), fun _ => this⟩
  | .seq .etup xs, h => by
    simp only [EdnVal] at h
    obtain ⟨ts, h1, h2⟩ := dumpsList_text hP ascii xs h.1
    have := coll_text (o := '(') (pre := ['(']) h2 h.2 (fun stop hs => coll_start (.inr (.inl rfl)) hP hs) (v := .seq .etup xs) rfl
    exact ⟨_, by simp [dumps, h1, endChar], Text.loose (.inl this), fun _ => this⟩
  | .seq .eset xs, h => by
    simp only [EdnVal] at h
    obtain ⟨h0, hn, hh⟩ := h
    obtain ⟨ts, h1, h2⟩ := dumpsList_text hP ascii xs h0
    have := coll_text (o := '#') (pre := ['#', '{']) h2 (lastOk_hashables hh) (fun stop hs => set_start hP hs) (v := .seq .eset xs) (by
      simp [closeColl, hh, EdnText.setBy_eq hP.refl hP.trans, EdnText.firsts_distinct hn])
    exact ⟨_, by simp [dumps, h1, endChar], Text.loose (.inl this), fun _ => this⟩
  | .seq .list xs, h | .seq .tup xs, h | .seq .set xs, h => by simp [EdnVal] at h
  | .map .edict kvs, h => by
    simp only [EdnVal] at h
    obtain ⟨h0, hl, hn, hh⟩ := h
    obtain ⟨ts, h1, h2⟩ := dumpsKvs_text hP ascii kvs h0
    have := coll_text (o := '{') (pre := ['{']) h2 (lastOk_flatten hl) (fun stop hs => coll_start (.inr (.inr rfl)) hP hs) (v := .map .edict kvs) (by
      have he := flatten_even kvs
      rw [closeColl, if_neg (by decide), if_neg (by decide), if_pos rfl, if_neg (by omega), pairUp_flatten, if_pos (by simpa using hh),
        EdnText.dictBy_eq hP.refl hP.symm hP.trans, EdnText.mapOf_distinct hP.refl hP.symm hn])
    exact ⟨_, by simp [dumps, h1, endChar], Text.loose (.inl this), fun _ => this⟩
  | .map .dict kvs, h => by simp [EdnVal] at h
  | .tagged n v, h => by
    simp only [EdnVal] at h
    obtain ⟨h0, h1⟩ := h
    obtain ⟨t, h3, h5, h4⟩ := dumps_text hP ascii v h1
    refine ⟨_, by simp [dumps, h3], ⟨?_, fun hd => .inl (tag_text hP h0 (h4 (Classical.not_not.1 hd)))⟩,
      fun hd => tag_text hP h0 (h4 hd)⟩
    rcases h5.1 with (h | h) | h
    · exact .inl (.inl (tag_text hP h0 h))
    · exact .inr (tag_spaced hP h0 (Text.spaced h))
    · exact .inr (tag_spaced hP h0 h)
  | .ref n i, h => by simp [EdnVal] at h
theorem dumpsList_text (hP : P.Ok) (ascii : Bool) : (xs : List Val) → EdnVals P th ascii xs → ∃ ts, dumpsList ascii xs = .ok ts ∧
    List.Forall₂ (Loose P th) xs ts
  | [], _ => ⟨[], rfl, .nil⟩
  | x :: r, h => by
    simp only [EdnVals] at h
    obtain ⟨t, h1, h2, _⟩ := dumps_text hP ascii x h.1
    obtain ⟨ts, h3, h4⟩ := dumpsList_text hP ascii r h.2
    exact ⟨t :: ts, by simp [dumpsList, h1, h3], .cons h2 h4⟩
theorem dumpsKvs_text (hP : P.Ok) (ascii : Bool) : (kvs : List (Val × Val)) → EdnKvs P th ascii kvs → ∃ ts, dumpsKvs ascii kvs = .ok ts ∧
    List.Forall₂ (Loose P th) (flattenKvs kvs) ts
  | [], _ => ⟨[], rfl, .nil⟩
  | (k, v) :: r, h => by
    simp only [EdnKvs] at h
    obtain ⟨t, h1, h2, _⟩ := dumps_text hP ascii k h.1
    obtain ⟨t', h1', h2', _⟩ := dumps_text hP ascii v h.2.1
    obtain ⟨ts, h3, h4⟩ := dumpsKvs_text hP ascii r h.2.2
    exact ⟨t :: t' :: ts, by simp [dumpsKvs, h1, h1', h3], .cons h2 (.cons h2' h4)⟩
end

/-- C28: `loads(dumps(v)) == v` for all values of the EDN types (`EdnVal`): scalars, keywords, symbols, strings,
`List`, `Tuple`, `Dict`, `Set`, tagged values, nested to any depth.  Missing from the full statement, because it is
false there (`c28_*` below): strings with characters which the encoder writes as `\uXXXX`, infinite and undefined
floats, tagged values without delimiter as the last item of a collection, symbols which the parser does not read as such. -/
theorem c28_partial (hP : P.Ok) (ascii : Bool) {v : Val} (h : EdnVal P th ascii v) :
    ∃ t, dumps ascii v = .ok t ∧ loads P th t = .ok v := by
  obtain ⟨t, h1, h2, _⟩ := dumps_text hP ascii v h
  refine ⟨t, h1, ?_⟩
  rw [loads, h2.space stopOk_none]
  rfl

/-- C28: different values have different texts -/
theorem c28_injective (hP : P.Ok) (ascii : Bool) {v v' : Val} (h : EdnVal P th ascii v) (h' : EdnVal P th ascii v')
    (he : dumps ascii v = dumps ascii v') : v = v' := by
  obtain ⟨t, h1, h2⟩ := c28_partial hP ascii h
  obtain ⟨t', h1', h2'⟩ := c28_partial hP ascii h'
  rw [h1, h1'] at he
  cases he
  rw [h2] at h2'
  cases h2'
  rfl

/-! ### The assumptions can be met, and counterexamples -/

/-- ASCII only -/
def exPyText : PyText where
  isalpha := Char.isAlpha
  isdigit := Char.isDigit
  float s := if s = "1.5".toList then some "1.5" else if s = "1E+16".toList then some "1e+16" else none

theorem exPyText_ok : exPyText.Ok where
  alpha _ _ := rfl
  digit _ _ := rfl
  refl a := by simp [exPyText]
  symm a b h := by simp only [exPyText, decide_eq_true_eq] at *; exact h.symm
  trans a b c h h' := by simp only [exPyText, decide_eq_true_eq] at *; exact h.trans h'
  kw a b h := by simpa [exPyText, Val.kw] using h

/-- no tag has a handler -/
def noTags : String → Option (Val → Except Err Val) := fun _ => none

/-- `{:a [#k 7 1 -2 1e+16 "x\n\"y" nil] (true foo) #{1 -x} "" #t #u/v #{}}` -/
def exEdn : Val :=
  .edict [(.kw "a", .elist [.tagged "k" (.int 7), .int 1, .int (-2), .float "1e+16", .str "x\n\"y", .none]),
    (.etup [.bool true, .sym "foo"], .seq .eset [.int 1, .sym "-x"]), (.str "", .tagged "t" (.tagged "u/v" (.seq .eset [])))]

theorem exEdn_ok : EdnVal exPyText noTags true exEdn := by
  simp only [exEdn, EdnVal, EdnVals, EdnKvs, and_true, true_and]
  refine ⟨⟨by decide, ⟨⟨⟨rfl, 'k', [], by decide, by decide, by simp⟩,
        ⟨⟨'1', "e+16".toList, by decide, .inl (by decide)⟩, by decide, .inr (by decide), by decide⟩, ?_⟩, ?_⟩,
      ⟨⟨.inl ⟨'f', ['o', 'o'], by decide, by decide, by decide⟩, by decide, by decide, by decide⟩, ?_⟩,
      ⟨⟨.inr ⟨'-', 'x', [], by decide, .inl rfl, by decide, by simp⟩, by decide, by decide, by decide⟩, by decide, by decide⟩,
      by simp, ⟨⟨rfl, 't', [], by decide, by decide, by simp⟩, ⟨rfl, 'u', ['/', 'v'], by decide, by decide, by decide⟩, ⟨by decide, by decide⟩⟩⟩,
    ?_, by decide, by decide⟩
  rotate_left
  · intro x hx; cases hx; exact id
  · intro x hx; cases hx; exact id
  · intro x hx
    simp only [List.map_cons, List.map_nil, List.getLast?_cons_cons, List.getLast?_singleton, Option.some.injEq] at hx
    subst hx
    simp [Val.Dangling, Val.Delimited]
  intro c hc
  have : c ∈ ['x', '\n', '"', 'y'] := by simpa using hc
  simp only [List.mem_cons, List.not_mem_nil, or_false] at this
  rcases this with rfl | rfl | rfl | rfl
  · exact .inr (by decide)
  · exact .inl (by decide)
  · exact .inr (by decide)
  · exact .inr (by decide)

example : ∃ t, dumps true exEdn = .ok t ∧ loads exPyText noTags t = .ok exEdn := c28_partial exPyText_ok true exEdn_ok

/-- a control character in a string: `"\u0000"` is read as `u0000` -/
theorem c28_control : ∃ t, dumps true (.str "\x00") = .ok t ∧ loads exPyText noTags t = .ok (.str "u0000") :=
  ⟨"\"\\u0000\"".toList, by decide, by decide⟩

/-- `float('inf')` is read as a symbol -/
theorem c28_inf : ∃ t, dumps true (.float "inf") = .ok t ∧ loads exPyText noTags t = .ok (.sym "inf") :=
  ⟨"inf".toList, by decide, by decide⟩

/-- `List([TaggedElement('foo', None)])` cannot be read: ValueError -/
theorem c28_tagged : ∃ t, dumps true (.elist [.tagged "foo" .none]) = .ok t ∧ loads exPyText noTags t = .error .valueError :=
  ⟨"[#foo nil]".toList, by decide, by decide⟩

/-- the symbol `-` cannot be read -/
theorem c28_dash : ∃ t, dumps true (.sym "-") = .ok t ∧ loads exPyText noTags t = .error .valueError :=
  ⟨"-".toList, by decide, by decide⟩

/-- a Python list is read as `List`, which is a tuple -/
theorem c28_list : ∃ t, dumps true (.list [.none]) = .ok t ∧ loads exPyText noTags t = .ok (.elist [.none]) :=
  ⟨"[nil]".toList, by decide, by decide⟩

end Hiku
