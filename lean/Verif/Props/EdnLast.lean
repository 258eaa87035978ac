import Verif.Props.Edn

/-! # C28: exactly which collections are not read back because of a tagged value at the end -/

namespace Hiku.EdnLast
open Hiku

variable {P : PyText} {th : String → Option (Val → Except Err Val)}

/-- reading stops with ValueError at a character of the text, before a value is produced -/
def Breaks (P : PyText) (th : String → Option (Val → Except Err Val)) (t : List Char) : Prop :=
  ∀ stop, StopOk stop → ∃ t1 c t2 p, t = t1 ++ c :: t2 ∧ feedAll P th stop .idle t1 = .ok ([], p) ∧
    feed P th stop p c = .error .valueError

/-- a closing bracket after the text is an error -/
def Hangs (P : PyText) (th : String → Option (Val → Except Err Val)) (t : List Char) : Prop :=
  ∀ stop, StopOk stop → ∃ p, feedAll P th stop .idle t = .ok ([], p) ∧
    ∀ d ∈ ['}', ']', ')'], feed P th stop p d = .error .valueError

theorem feedIdle_close (hP : P.Ok) {d : Char} (hd : d ∈ ['}', ']', ')']) : feedIdle P none d = .error .valueError := by
  have ha : P.isalpha d = false := by
    simp only [List.mem_cons, List.not_mem_nil, or_false] at hd
    rcases hd with rfl | rfl | rfl <;> (rw [hP.alpha _ (by decide)]; decide)
  simp only [List.mem_cons, List.not_mem_nil, or_false] at hd
  rcases hd with rfl | rfl | rfl <;> simp [feedIdle, stopChars, digitChars, ha]

/-- the beginning of a tagged value -/
theorem tag_start (hP : P.Ok) {n : String} (hn : TagOk th n) {stop : Option Char} (hs : StopOk stop) :
    feedAll P th stop .idle ('#' :: (n.toList ++ [' '])) = .ok ([], .tagVal n.toList .idle) := by
  obtain ⟨hth, c0, r, hn, hc0, hr⟩ := hn
  rw [hn]
  have hne : stop ≠ some '#' := by intro h; have := hs _ h; simp at this
  have hcons := feedAll_cons (P := P) (th := th) (stop := stop) (p := .idle) (c := '#') (o := []) (p' := .hash) (by
      rw [feed, feedIdle, if_neg hne, if_neg (by decide), if_neg (by decide), if_neg (by decide), if_neg (by decide),
        if_neg (by decide), if_neg (by decide)]
      have ha : P.isalpha '#' = false := by rw [hP.alpha _ (by decide)]; decide
      rw [if_neg (by simp [ha]), if_pos rfl])
    (feedAll_cons (p := .hash) (c := c0) (o := []) (p' := .tagName [c0]) (by rw [feed, if_neg hc0])
      (feedAll_app (tagName_run (s := [c0]) hr)
        (feedAll_one (p := .tagName ([c0] ++ r)) (c := ' ') (o := []) (p' := .tagVal ([c0] ++ r) .idle) (by
          rw [feed, if_pos (by decide)]
          rfl))))
  simpa using hcons

theorem open_hangs (hP : P.Ok) {n : String} (hn : TagOk th n) {v : Val} {t : List Char} (h : Open P th v t) :
    Hangs P th ('#' :: (n.toList ++ ' ' :: t)) := by
  intro stop hs
  obtain ⟨p, h1, h2⟩ := h none stopOk_none
  refine ⟨.tagVal n.toList p, by simpa using feedAll_app (tag_start hP hn hs) (tagVal_run h1), ?_⟩
  intro d hd
  have hm : d ∈ symEnd := by simp [symEnd] at hd ⊢; tauto
  simp only [feed, h2 d hm, feedIdle_close hP hd, error_bind']

theorem hangs_tag (hP : P.Ok) {n : String} (hn : TagOk th n) {t : List Char} (h : Hangs P th t) :
    Hangs P th ('#' :: (n.toList ++ ' ' :: t)) := by
  intro stop hs
  obtain ⟨p, h1, h2⟩ := h none stopOk_none
  refine ⟨.tagVal n.toList p, by simpa using feedAll_app (tag_start hP hn hs) (tagVal_run h1), ?_⟩
  intro d hd
  simp only [feed, h2 d hd, error_bind']

theorem breaks_tag (hP : P.Ok) {n : String} (hn : TagOk th n) {t : List Char} (h : Breaks P th t) :
    Breaks P th ('#' :: (n.toList ++ ' ' :: t)) := by
  intro stop hs
  obtain ⟨t1, c, t2, p, rfl, h1, h2⟩ := h none stopOk_none
  refine ⟨'#' :: (n.toList ++ ' ' :: t1), c, t2, .tagVal n.toList p, by simp,
    by simpa using feedAll_app (tag_start hP hn hs) (tagVal_run h1), ?_⟩
  simp only [feed, h2, error_bind']

/-- an atom ends with the next delimiter -/
theorem open_text (hP : P.Ok) (ascii : Bool) : (v : Val) → EdnVal P th ascii v → ¬ v.Delimited → (∀ n u, v ≠ .tagged n u) →
    ∃ t, dumps ascii v = .ok t ∧ Open P th v t
  | .none, _, _, _ => ⟨_, rfl, alpha_text hP (.inl (alpha_true hP (by decide) (by decide))) (by decide) rfl⟩
  | .bool true, _, _, _ => ⟨_, rfl, alpha_text hP (.inl (alpha_true hP (by decide) (by decide))) (by decide) rfl⟩
  | .bool false, _, _, _ => ⟨_, rfl, alpha_text hP (.inl (alpha_true hP (by decide) (by decide))) (by decide) rfl⟩
  | .int i, _, _, _ => ⟨_, rfl, int_text hP i⟩
  | .float t, h, _, _ => ⟨_, rfl, float_text hP (by simpa [EdnVal] using h)⟩
  | .str s, _, hd, _ => absurd trivial hd
  | .kw s, h, _, _ => ⟨_, rfl, kw_text hP (by simpa [EdnVal] using h)⟩
  | .sym s, h, _, _ => ⟨_, rfl, sym_text hP (by simpa [EdnVal] using h)⟩
  | .nothing, h, _, _ => by simp [EdnVal] at h
  | .seq _ _, _, hd, _ => absurd trivial hd
  | .map _ _, _, hd, _ => absurd trivial hd
  | .tagged n v, _, _, hn => absurd rfl (hn n v)
  | .ref n i, h, _, _ => by simp [EdnVal] at h

theorem dangling_hangs (hP : P.Ok) (ascii : Bool) : (v : Val) → EdnVal P th ascii v → v.Dangling →
    ∃ t, dumps ascii v = .ok t ∧ Hangs P th t
  | .tagged n (.tagged n' u), h, hd => by
    simp only [EdnVal] at h
    obtain ⟨t, h1, h2⟩ := dangling_hangs hP ascii (.tagged n' u) (by simp only [EdnVal]; exact h.2) hd
    exact ⟨_, by rw [dumps, h1]; rfl, hangs_tag hP h.1 h2⟩
  | .tagged n v, h, hd => by
    by_cases ht : ∃ n' u, v = .tagged n' u
    · obtain ⟨n', u, rfl⟩ := ht
      simp only [EdnVal] at h
      obtain ⟨t, h1, h2⟩ := dangling_hangs hP ascii (.tagged n' u) (by simp only [EdnVal]; exact h.2) hd
      exact ⟨_, by rw [dumps, h1]; rfl, hangs_tag hP h.1 h2⟩
    · simp only [EdnVal] at h
      obtain ⟨t, h1, h2⟩ := open_text hP ascii v h.2 hd (fun n' u he => ht ⟨n', u, he⟩)
      exact ⟨_, by rw [dumps, h1]; rfl, open_hangs hP h.1 h2⟩
  | .atom _, _, hd => by simp [Val.Dangling] at hd
  | .seq .., _, hd => by simp [Val.Dangling] at hd
  | .map .., _, hd => by simp [Val.Dangling] at hd
  | .ref .., _, hd => by simp [Val.Dangling] at hd

/-- the items of a collection break, or their closing bracket does -/
def ItemsBreak (P : PyText) (th : String → Option (Val → Except Err Val)) (t : List Char) : Prop :=
  ∀ e, e ∈ ['}', ']', ')'] → ∃ t1 c t2 out p, t ++ [e] = t1 ++ c :: t2 ∧ feedAll P th (some e) .idle t1 = .ok (out, p) ∧
    feed P th (some e) p c = .error .valueError

theorem breaks_items {x t : List Char} (h : Breaks P th x) : ItemsBreak P th (x ++ t) := by
  intro e he
  obtain ⟨t1, c, t2, p, rfl, h1, h2⟩ := h (some e) (by intro c h; cases h; exact he)
  exact ⟨t1, c, t2 ++ (t ++ [e]), [], p, by simp, h1, h2⟩

theorem itemsBreak_cons {x : Val} {t : List Char} {ts : List Char} (hx : Loose P th x t) (h : ItemsBreak P th ts) :
    ItemsBreak P th (t ++ ' ' :: ts) := by
  intro e he
  obtain ⟨t1, c, t2, out, p, h0, h1, h2⟩ := h e he
  have hs : StopOk (some e) := by intro c h; cases h; exact he
  refine ⟨t ++ [' '] ++ t1, c, t2, x :: out, p, ?_, ?_, h2⟩
  · simp [h0]
  · simpa using feedAll_app (hx.space hs) h1

/-- a collection whose items break -/
theorem coll_breaks {o : Char} {pre t : List Char} (h : ItemsBreak P th t)
    (hpre : ∀ stop, StopOk stop → feedAll P th stop .idle pre = .ok ([], .coll o [] .idle)) :
    Breaks P th (pre ++ (t ++ [endChar o])) := by
  intro stop hs
  obtain ⟨t1, c, t2, out, p, h0, h1, h2⟩ := h (endChar o) (stopOk_end o _ rfl)
  refine ⟨pre ++ t1, c, t2, .coll o out p, ?_, ?_, ?_⟩
  · rw [h0]; simp
  · simpa using feedAll_app (hpre stop hs) (coll_inner (lst := []) h1)
  · simp only [feed, h2, error_bind']

theorem last_breaks {xs : List Val} {ts : List (List Char)}
    (h : List.Forall₂ (fun x t => Loose P th x t ∧ (x.Dangling → Hangs P th t)) xs ts) (hl : ¬ LastOk xs) :
    ItemsBreak P th (joinSp ts) := by
  induction h with
  | nil => exact absurd (fun x hx => by cases hx) hl
  | @cons x t xs ts hx hr ih =>
    cases hr with
    | nil =>
      have hd : x.Dangling := by
        by_contra hd
        exact hl (fun y hy => by simp at hy; subst hy; exact hd)
      intro e he
      obtain ⟨p, h1, h2⟩ := hx.2 hd (some e) (by intro c h; cases h; exact he)
      exact ⟨t, e, [], [], p, by simp [joinSp], h1, h2 e he⟩
    | @cons y u ys us hy hr =>
      rw [joinSp]
      exact itemsBreak_cons hx.1 (ih (fun h => hl (fun z hz => h z (by simpa using hz))))

theorem lastOk_unflatten {kvs : List (Val × Val)} (h : LastOk (flattenKvs kvs)) : LastOk (kvs.map (·.2)) := by
  induction kvs with
  | nil => intro x hx; cases hx
  | cons kv r ih =>
    obtain ⟨k, v⟩ := kv
    cases r with
    | nil => intro x hx; exact h x hx
    | cons kv' r =>
      obtain ⟨k', v'⟩ := kv'
      have := ih (fun x hx => h x (by simp only [flattenKvs, List.getLast?_cons_cons] at hx ⊢; exact hx))
      intro x hx
      exact this x (by simp only [List.map_cons, List.getLast?_cons_cons] at hx ⊢; exact hx)

/-- the outcome for a value and its text -/
def Settled (P : PyText) (th : String → Option (Val → Except Err Val)) (ascii : Bool) (v : Val) (t : List Char) : Prop :=
  (EdnVal P th ascii v ∧ ¬ v.EndsBadly) ∨ (v.EndsBadly ∧ Breaks P th t)

theorem good_pair (hP : P.Ok) (ascii : Bool) {v : Val} (h : EdnVal P th ascii v) {t : List Char} (ht : dumps ascii v = .ok t) :
    Loose P th v t ∧ (v.Dangling → Hangs P th t) := by
  constructor
  · obtain ⟨t', h1, h2, _⟩ := dumps_text hP ascii v h
    rw [ht] at h1; cases h1; exact h2
  · intro hd
    obtain ⟨t', h1, h2⟩ := dangling_hangs hP ascii v h hd
    rw [ht] at h1; cases h1; exact h2

mutual
theorem settled (hP : P.Ok) (ascii : Bool) : (v : Val) → LooseVal P th ascii v → ∃ t, dumps ascii v = .ok t ∧
    Settled P th ascii v t
  | .none, _ => ⟨_, rfl, .inl ⟨by simp [EdnVal], by simp [Val.EndsBadly]⟩⟩
  | .bool true, _ => ⟨_, rfl, .inl ⟨by simp [EdnVal], by simp [Val.EndsBadly]⟩⟩
  | .bool false, _ => ⟨_, rfl, .inl ⟨by simp [EdnVal], by simp [Val.EndsBadly]⟩⟩
  | .int i, _ => ⟨_, rfl, .inl ⟨by simp [EdnVal], by simp [Val.EndsBadly]⟩⟩
  | .float t, h => ⟨_, rfl, .inl ⟨by simpa [EdnVal, LooseVal] using h, by simp [Val.EndsBadly]⟩⟩
  | .str s, h => ⟨_, rfl, .inl ⟨by simpa [EdnVal, LooseVal] using h, by simp [Val.EndsBadly]⟩⟩
  | .kw s, h => ⟨_, rfl, .inl ⟨by simpa [EdnVal, LooseVal] using h, by simp [Val.EndsBadly]⟩⟩
  | .sym s, h => ⟨_, rfl, .inl ⟨by simpa [EdnVal, LooseVal] using h, by simp [Val.EndsBadly]⟩⟩
  | .nothing, h => by simp [LooseVal] at h
  | .seq .elist xs, h => by
    simp only [LooseVal] at h
    obtain ⟨ts, h1, h2⟩ := settledList hP ascii xs h
    refine ⟨'[' :: (joinSp ts ++ [']']), by simp [dumps, h1], ?_⟩
    have hb : ItemsBreak P th (joinSp ts) → Breaks P th ('[' :: (joinSp ts ++ [']'])) := fun h =>
      coll_breaks (o := '[') (pre := ['[']) h (fun stop hs => coll_start (.inl rfl) hP hs)
    rcases h2 with ⟨h3, h4, h5⟩ | ⟨h3, h4⟩
    · by_cases hl : LastOk xs
      · exact .inl ⟨by simp only [EdnVal]; exact ⟨h3, hl⟩, by simp only [Val.EndsBadly]; tauto⟩
      · exact .inr ⟨by simp only [Val.EndsBadly]; exact .inl hl, hb (last_breaks h5 hl)⟩
    · exact .inr ⟨by simp only [Val.EndsBadly]; exact .inr h3, hb h4⟩
  | .seq .etup xs, h => by
    simp only [LooseVal] at h
    obtain ⟨ts, h1, h2⟩ := settledList hP ascii xs h
    refine ⟨'(' :: (joinSp ts ++ [')']), by simp [dumps, h1], ?_⟩
    have hb : ItemsBreak P th (joinSp ts) → Breaks P th ('(' :: (joinSp ts ++ [')'])) := fun h =>
      coll_breaks (o := '(') (pre := ['(']) h (fun stop hs => coll_start (.inr (.inl rfl)) hP hs)
    rcases h2 with ⟨h3, h4, h5⟩ | ⟨h3, h4⟩
    · by_cases hl : LastOk xs
      · exact .inl ⟨by simp only [EdnVal]; exact ⟨h3, hl⟩, by simp only [Val.EndsBadly]; tauto⟩
      · exact .inr ⟨by simp only [Val.EndsBadly]; exact .inl hl, hb (last_breaks h5 hl)⟩
    · exact .inr ⟨by simp only [Val.EndsBadly]; exact .inr h3, hb h4⟩
  | .seq .eset xs, h => by
    simp only [LooseVal] at h
    obtain ⟨h0, hn, hh⟩ := h
    obtain ⟨ts, h1, h2⟩ := settledList hP ascii xs h0
    refine ⟨'#' :: '{' :: (joinSp ts ++ ['}']), by simp [dumps, h1], ?_⟩
    have hl := lastOk_hashables hh
    rcases h2 with ⟨h3, h4, h5⟩ | ⟨h3, h4⟩
    · exact .inl ⟨by simp only [EdnVal]; exact ⟨h3, hn, hh⟩, by simp only [Val.EndsBadly]; tauto⟩
    · exact .inr ⟨by simp only [Val.EndsBadly]; exact .inr h3,
        coll_breaks (o := '#') (pre := ['#', '{']) h4 (fun stop hs => set_start hP hs)⟩
  | .seq .list xs, h | .seq .tup xs, h | .seq .set xs, h => by simp [LooseVal] at h
  | .map .edict kvs, h => by
    simp only [LooseVal] at h
    obtain ⟨h0, hn, hh⟩ := h
    obtain ⟨ts, h1, h2⟩ := settledKvs hP ascii kvs h0
    refine ⟨'{' :: (joinSp ts ++ ['}']), by simp [dumps, h1], ?_⟩
    have hb : ItemsBreak P th (joinSp ts) → Breaks P th ('{' :: (joinSp ts ++ ['}'])) := fun h =>
      coll_breaks (o := '{') (pre := ['{']) h (fun stop hs => coll_start (.inr (.inr rfl)) hP hs)
    rcases h2 with ⟨h3, h4, h5⟩ | ⟨h3, h4⟩
    · by_cases hl : LastOk (kvs.map (·.2))
      · exact .inl ⟨by simp only [EdnVal]; exact ⟨h3, hl, hn, hh⟩, by simp only [Val.EndsBadly]; tauto⟩
      · exact .inr ⟨by simp only [Val.EndsBadly]; exact .inl hl, hb (last_breaks h5 fun h => hl (lastOk_unflatten h))⟩
    · exact .inr ⟨by simp only [Val.EndsBadly]; exact .inr h3, hb h4⟩
  | .map .dict kvs, h => by simp [LooseVal] at h
  | .tagged n v, h => by
    simp only [LooseVal] at h
    obtain ⟨t, h1, h2⟩ := settled hP ascii v h.2
    refine ⟨'#' :: (n.toList ++ ' ' :: t), by simp [dumps, h1], ?_⟩
    rcases h2 with ⟨h3, h4⟩ | ⟨h3, h4⟩
    · exact .inl ⟨by simp only [EdnVal]; exact ⟨h.1, h3⟩, by simpa only [Val.EndsBadly] using h4⟩
    · exact .inr ⟨by simpa only [Val.EndsBadly] using h3, breaks_tag hP h.1 h4⟩
  | .ref n i, h => by simp [LooseVal] at h
theorem settledList (hP : P.Ok) (ascii : Bool) : (xs : List Val) → LooseVals P th ascii xs → ∃ ts, dumpsList ascii xs = .ok ts ∧
    ((EdnVals P th ascii xs ∧ ¬ anyBad xs ∧
      List.Forall₂ (fun x t => Loose P th x t ∧ (x.Dangling → Hangs P th t)) xs ts) ∨
    (anyBad xs ∧ ItemsBreak P th (joinSp ts)))
  | [], _ => ⟨[], rfl, .inl ⟨trivial, id, .nil⟩⟩
  | x :: r, h => by
    simp only [LooseVals] at h
    obtain ⟨t, h1, h2⟩ := settled hP ascii x h.1
    obtain ⟨ts, h3, h4⟩ := settledList hP ascii r h.2
    refine ⟨t :: ts, by simp [dumpsList, h1, h3], ?_⟩
    rcases h2 with ⟨h5, h6⟩ | ⟨h5, h6⟩
    · have hg := good_pair hP ascii h5 h1
      rcases h4 with ⟨h7, h8, h9⟩ | ⟨h7, h8⟩
      · exact .inl ⟨⟨h5, h7⟩, by simp only [anyBad]; tauto, .cons hg h9⟩
      · refine .inr ⟨by simp only [anyBad]; exact .inr h7, ?_⟩
        cases r with
        | nil => simp [anyBad] at h7
        | cons y r =>
          cases ts with
          | nil =>
            simp only [dumpsList, bind_ok_iff] at h3
            obtain ⟨a, -, b, -, h3⟩ := h3
            cases h3
          | cons u us => rw [joinSp]; exact itemsBreak_cons hg.1 h8
    · refine .inr ⟨by simp only [anyBad]; exact .inl h5, ?_⟩
      cases ts with
      | nil => rw [joinSp]; simpa using breaks_items (t := []) h6
      | cons u us => rw [joinSp]; exact breaks_items h6
theorem settledKvs (hP : P.Ok) (ascii : Bool) : (kvs : List (Val × Val)) → LooseKvs P th ascii kvs → ∃ ts, dumpsKvs ascii kvs = .ok ts ∧
    ((EdnKvs P th ascii kvs ∧ ¬ anyBadKvs kvs ∧
      List.Forall₂ (fun x t => Loose P th x t ∧ (x.Dangling → Hangs P th t)) (flattenKvs kvs) ts) ∨
    (anyBadKvs kvs ∧ ItemsBreak P th (joinSp ts)))
  | [], _ => ⟨[], rfl, .inl ⟨trivial, id, .nil⟩⟩
  | (k, v) :: r, h => by
    simp only [LooseKvs] at h
    obtain ⟨t, h1, h2⟩ := settled hP ascii k h.1
    obtain ⟨t', h1', h2'⟩ := settled hP ascii v h.2.1
    obtain ⟨ts, h3, h4⟩ := settledKvs hP ascii r h.2.2
    refine ⟨t :: t' :: ts, by simp [dumpsKvs, h1, h1', h3], ?_⟩
    rcases h2 with ⟨h5, h6⟩ | ⟨h5, h6⟩
    · have hg := good_pair hP ascii h5 h1
      rcases h2' with ⟨h5', h6'⟩ | ⟨h5', h6'⟩
      · have hg' := good_pair hP ascii h5' h1'
        rcases h4 with ⟨h7, h8, h9⟩ | ⟨h7, h8⟩
        · exact .inl ⟨⟨h5, h5', h7⟩, by simp only [anyBadKvs]; tauto, .cons hg (.cons hg' h9)⟩
        · refine .inr ⟨by simp only [anyBadKvs]; exact .inr (.inr h7), ?_⟩
          cases r with
          | nil => simp [anyBadKvs] at h7
          | cons y r =>
            cases ts with
            | nil =>
              obtain ⟨a, b⟩ := y
              simp only [dumpsKvs, bind_ok_iff] at h3
              obtain ⟨a, -, b, -, c, -, h3⟩ := h3
              cases h3
            | cons u us =>
              rw [joinSp, joinSp]
              exact itemsBreak_cons hg.1 (itemsBreak_cons hg'.1 h8)
      · refine .inr ⟨by simp only [anyBadKvs]; exact .inr (.inl h5'), ?_⟩
        rw [joinSp]
        refine itemsBreak_cons hg.1 ?_
        cases ts with
        | nil => rw [joinSp]; simpa using breaks_items (t := []) h6'
        | cons u us => rw [joinSp]; exact breaks_items h6'
    · refine .inr ⟨by simp only [anyBadKvs]; exact .inl h5, ?_⟩
      rw [joinSp]; exact breaks_items h6
end

/-- **C28.**  Values of the EDN types (with strings, floats and symbols which are read back): `loads(dumps(v))` is `v`, unless
somewhere in `v` a collection ends with a tagged value without delimiter, like `[#foo nil]`, and then it is ValueError. -/
theorem c28_exact (hP : P.Ok) (ascii : Bool) {v : Val} (h : LooseVal P th ascii v) :
    ∃ t, dumps ascii v = .ok t ∧ (¬ v.EndsBadly → loads P th t = .ok v) ∧
      (v.EndsBadly → loads P th t = .error .valueError) := by
  obtain ⟨t, h1, h2⟩ := settled hP ascii v h
  refine ⟨t, h1, ?_, ?_⟩
  · intro hb
    rcases h2 with ⟨h2, -⟩ | ⟨h2, -⟩
    · obtain ⟨t', h3, h4⟩ := c28_partial hP ascii h2
      rw [h1] at h3; cases h3; exact h4
    · exact absurd h2 hb
  · intro hb
    rcases h2 with ⟨-, h2⟩ | ⟨-, h2⟩
    · exact absurd hb h2
    · obtain ⟨t1, c, t2, p, rfl, h3, h4⟩ := h2 none stopOk_none
      have : feedAll P th none .idle (t1 ++ c :: t2 ++ [' ']) = .error .valueError := by
        rw [List.append_assoc, feedAll_append, h3]
        simp only [List.cons_append, feedAll, h4, error_bind', ok_bind']
      rw [loads, this]; rfl

/-! ### Example -/

/-- `List([Dict({:a: Tuple([TaggedElement('foo', None)])}), 1])`: the bad end is inside, the list itself ends with a number -/
def exBad : Val := .elist [.edict [(.kw "a", .etup [.tagged "foo" .none])], .int 1]

theorem exBad_loose : LooseVal exPyText noTags true exBad := by
  refine ⟨⟨⟨?_, ⟨⟨⟨rfl, 'f', ['o', 'o'], by decide, by decide, by decide⟩, trivial⟩, trivial⟩, trivial⟩, ?_, ?_⟩, trivial, trivial⟩
  · show ∀ c ∈ "a".toList, c ∉ symEnd
    decide
  · exact List.pairwise_singleton _ _
  · intro kv h
    simp only [List.mem_singleton] at h
    subst h
    rfl

theorem exBad_bad : exBad.EndsBadly := by
  refine .inr (.inl (.inr (.inr (.inl (.inl ?_)))))
  intro h
  exact h (.tagged "foo" .none) rfl (by simp [Val.Dangling, Val.Delimited])

example : ∃ t, dumps true exBad = .ok t ∧ loads exPyText noTags t = .error .valueError := by
  obtain ⟨t, h1, -, h2⟩ := c28_exact exPyText_ok true exBad_loose
  exact ⟨t, h1, h2 exBad_bad⟩

end Hiku.EdnLast
