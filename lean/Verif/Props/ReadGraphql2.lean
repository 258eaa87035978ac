import Verif.Props.ReadGraphql

/-! # C33-C35: termination, cyclic fragments, directives, variables -/

namespace Hiku

variable {vars : List (String × Val)} {frags : List (String × List Sel)}

/-! ### What is visited is read -/

theorem Reads.mem {ss : List Sel} : ∀ {items}, Reads vars frags ss items → ∀ s ∈ ss, ∃ its, ReadsSel vars frags s its := by
  induction ss with
  | nil => intro _ _ s hs; cases hs
  | cons s r ih =>
    intro items h t ht
    cases h with
    | cons h1 h2 =>
      rcases List.mem_cons.1 ht with rfl | ht
      · exact ⟨_, h1⟩
      · exact ih h2 t ht

theorem ReadsSel.skips {s : Sel} {items : List QItem} (h : ReadsSel vars frags s items) : ∃ b, shouldSkip vars s.dirs = .ok b := by
  cases h with
  | skip h => exact ⟨_, h⟩
  | leaf h _ => exact ⟨_, h⟩
  | obj h _ _ => exact ⟨_, h⟩
  | spread h _ _ => exact ⟨_, h⟩
  | inline h _ => exact ⟨_, h⟩

theorem VisitedIn.reads {ss : List Sel} {s : Sel} (hv : VisitedIn vars ss s) : ∀ {items}, Reads vars frags ss items →
    ∃ its, ReadsSel vars frags s its := by
  induction hv with
  | here h => intro items hr; exact hr.mem _ h
  | obj hm he _ ih =>
    intro items hr
    obtain ⟨its, h⟩ := hr.mem _ hm
    cases h with
    | skip h => exact absurd (shouldSkip_excluded h) he
    | obj _ _ h => exact ih h
  | inline hm he _ ih =>
    intro items hr
    obtain ⟨its, h⟩ := hr.mem _ hm
    cases h with
    | skip h => exact absurd (shouldSkip_excluded h) he
    | inline _ h => exact ih h

theorem Visited.reads {ss : List Sel} {s : Sel} (hv : Visited vars frags ss s) : ∀ {items}, Reads vars frags ss items →
    ∃ its, ReadsSel vars frags s its := by
  induction hv with
  | here h => intro items hr; exact h.reads hr
  | spread h he hb _ ih =>
    intro items hr
    obtain ⟨its, h⟩ := h.reads hr
    cases h with
    | skip h => exact absurd (shouldSkip_excluded h) he
    | spread _ hb' h => rw [hb] at hb'; cases hb'; exact ih h

/-! ### Live spreads -/

/-- a fragment is spread somewhere in the selections or in the fragments they spread -/
def Live (vars : List (String × Val)) (frags : List (String × List Sel)) (ss : List Sel) (f : String) : Prop :=
  ∃ dirs, Visited vars frags ss (.spread f dirs) ∧ ¬ Excluded vars dirs

theorem VisitedIn.mono {ss ss' : List Sel} {s : Sel} (hs : ∀ x ∈ ss, x ∈ ss') (hv : VisitedIn vars ss s) : VisitedIn vars ss' s := by
  cases hv with
  | here h => exact .here (hs _ h)
  | obj h1 h2 h3 => exact .obj (hs _ h1) h2 h3
  | inline h1 h2 h3 => exact .inline (hs _ h1) h2 h3

theorem Visited.mono {ss ss' : List Sel} {s : Sel} (hs : ∀ x ∈ ss, x ∈ ss') (hv : Visited vars frags ss s) : Visited vars frags ss' s := by
  cases hv with
  | here h => exact .here (h.mono hs)
  | spread h1 h2 h3 h4 => exact .spread (h1.mono hs) h2 h3 h4

theorem visitedIn_cons {t : Sel} {ss : List Sel} {s : Sel} (hv : VisitedIn vars (t :: ss) s) :
    VisitedIn vars [t] s ∨ VisitedIn vars ss s := by
  cases hv with
  | here h =>
    rcases List.mem_cons.1 h with rfl | h
    · exact .inl (.here (by simp))
    · exact .inr (.here h)
  | obj h1 h2 h3 =>
    rcases List.mem_cons.1 h1 with rfl | h
    · exact .inl (.obj List.mem_cons_self h2 h3)
    · exact .inr (.obj h h2 h3)
  | inline h1 h2 h3 =>
    rcases List.mem_cons.1 h1 with rfl | h
    · exact .inl (.inline (by simp) h2 h3)
    · exact .inr (.inline h h2 h3)

theorem visited_cons {t : Sel} {ss : List Sel} {s : Sel} (hv : Visited vars frags (t :: ss) s) :
    Visited vars frags [t] s ∨ Visited vars frags ss s := by
  cases hv with
  | here h => exact (visitedIn_cons h).imp .here .here
  | spread h1 h2 h3 h4 => exact (visitedIn_cons h1).imp (fun h => .spread h h2 h3 h4) (fun h => .spread h h2 h3 h4)

theorem visitedIn_obj {n a args dirs ss s} (hv : VisitedIn vars [.obj n a args dirs ss] s) :
    s = .obj n a args dirs ss ∨ (¬ Excluded vars dirs ∧ VisitedIn vars ss s) := by
  cases hv with
  | here h => simp at h; exact .inl h
  | obj h1 h2 h3 => simp at h1; obtain ⟨rfl, rfl, rfl, rfl, rfl⟩ := h1; exact .inr ⟨h2, h3⟩
  | inline h1 h2 h3 => simp at h1

theorem visitedIn_inline {dirs ss s} (hv : VisitedIn vars [.inline dirs ss] s) :
    s = .inline dirs ss ∨ (¬ Excluded vars dirs ∧ VisitedIn vars ss s) := by
  cases hv with
  | here h => simp at h; exact .inl h
  | inline h1 h2 h3 => simp at h1; obtain ⟨rfl, rfl⟩ := h1; exact .inr ⟨h2, h3⟩
  | obj h1 h2 h3 => simp at h1

theorem visitedIn_leaf {n a args dirs s} (hv : VisitedIn vars [.leaf n a args dirs] s) : s = .leaf n a args dirs := by
  cases hv with
  | here h => simpa using h
  | inline h1 h2 h3 => simp at h1
  | obj h1 h2 h3 => simp at h1

theorem visitedIn_spread {n dirs s} (hv : VisitedIn vars [.spread n dirs] s) : s = .spread n dirs := by
  cases hv with
  | here h => simpa using h
  | inline h1 h2 h3 => simp at h1
  | obj h1 h2 h3 => simp at h1

theorem live_cons {t : Sel} {ss : List Sel} {f : String} (h : Live vars frags (t :: ss) f) :
    Live vars frags [t] f ∨ Live vars frags ss f := by
  obtain ⟨d, h1, h2⟩ := h
  exact (visited_cons h1).imp (fun h => ⟨d, h, h2⟩) (fun h => ⟨d, h, h2⟩)

theorem Live.mono {ss ss' : List Sel} {f : String} (hs : ∀ x ∈ ss, x ∈ ss') (h : Live vars frags ss f) : Live vars frags ss' f := by
  obtain ⟨d, h1, h2⟩ := h
  exact ⟨d, h1.mono hs, h2⟩

theorem live_leaf {n a args dirs f} (h : Live vars frags [.leaf n a args dirs] f) : False := by
  obtain ⟨d, h1, h2⟩ := h
  cases h1 with
  | here h => cases visitedIn_leaf h
  | spread h _ _ _ => cases visitedIn_leaf h

theorem live_obj {n a args dirs ss f} (h : Live vars frags [.obj n a args dirs ss] f) :
    ¬ Excluded vars dirs ∧ Live vars frags ss f := by
  obtain ⟨d, h1, h2⟩ := h
  cases h1 with
  | here h =>
    rcases visitedIn_obj h with h | ⟨h, h'⟩
    · cases h
    · exact ⟨h, d, .here h', h2⟩
  | spread h h3 h4 h5 =>
    rcases visitedIn_obj h with h | ⟨h, h'⟩
    · cases h
    · exact ⟨h, d, .spread h' h3 h4 h5, h2⟩

theorem live_inline {dirs ss f} (h : Live vars frags [.inline dirs ss] f) :
    ¬ Excluded vars dirs ∧ Live vars frags ss f := by
  obtain ⟨d, h1, h2⟩ := h
  cases h1 with
  | here h =>
    rcases visitedIn_inline h with h | ⟨h, h'⟩
    · cases h
    · exact ⟨h, d, .here h', h2⟩
  | spread h h3 h4 h5 =>
    rcases visitedIn_inline h with h | ⟨h, h'⟩
    · cases h
    · exact ⟨h, d, .spread h' h3 h4 h5, h2⟩

theorem live_spread {n dirs f} (h : Live vars frags [.spread n dirs] f) :
    ¬ Excluded vars dirs ∧ (f = n ∨ ∃ body, dget frags n = some body ∧ Live vars frags body f) := by
  obtain ⟨d, h1, h2⟩ := h
  cases h1 with
  | here h =>
    cases visitedIn_spread h
    exact ⟨h2, .inl rfl⟩
  | spread h h3 h4 h5 =>
    cases visitedIn_spread h
    exact ⟨h3, .inr ⟨_, h4, d, h5, h2⟩⟩

theorem live_excluded {s : Sel} {f : String} (he : Excluded vars s.dirs) (h : Live vars frags [s] f) : False := by
  cases s with
  | leaf => exact live_leaf h
  | obj => exact (live_obj h).1 he
  | inline => exact (live_inline h).1 he
  | spread => exact (live_spread h).1 he

theorem live_in_obj {n a args dirs ss f} (he : ¬ Excluded vars dirs) (h : Live vars frags ss f) :
    Live vars frags [.obj n a args dirs ss] f := by
  obtain ⟨d, h1, h2⟩ := h
  refine ⟨d, ?_, h2⟩
  cases h1 with
  | here h => exact .here (.obj List.mem_cons_self he h)
  | spread h h3 h4 h5 => exact .spread (.obj List.mem_cons_self he h) h3 h4 h5

theorem live_in_inline {dirs ss f} (he : ¬ Excluded vars dirs) (h : Live vars frags ss f) :
    Live vars frags [.inline dirs ss] f := by
  obtain ⟨d, h1, h2⟩ := h
  refine ⟨d, ?_, h2⟩
  cases h1 with
  | here h => exact .here (.inline List.mem_cons_self he h)
  | spread h h3 h4 h5 => exact .spread (.inline List.mem_cons_self he h) h3 h4 h5

theorem live_here {n dirs} (he : ¬ Excluded vars dirs) : Live vars frags [.spread n dirs] n :=
  ⟨dirs, .here (.here List.mem_cons_self), he⟩

theorem live_in_spread {n dirs body f} (he : ¬ Excluded vars dirs) (hb : dget frags n = some body) (h : Live vars frags body f) :
    Live vars frags [.spread n dirs] f := by
  obtain ⟨d, h1, h2⟩ := h
  exact ⟨d, .spread (.here List.mem_cons_self) he hb h1, h2⟩

/-- no fragment in use is live in itself -/
def NoSelfLive (vars : List (String × Val)) (frags : List (String × List Sel)) (ss : List Sel) : Prop :=
  ∀ f, Live vars frags ss f → ∀ body, dget frags f = some body → ¬ Live vars frags body f

mutual
theorem readsSel_noSelf {s : Sel} {items : List QItem} : ReadsSel vars frags s items → NoSelfLive vars frags [s]
  | .skip h => fun f hl => (live_excluded (shouldSkip_excluded h) hl).elim
  | .leaf _ _ => fun f hl => (live_leaf hl).elim
  | .obj _ _ h => fun f hl => reads_noSelf h f (live_obj hl).2
  | .inline _ h => fun f hl => reads_noSelf h f (live_inline hl).2
  | .spread (n := n) _ hb h => fun f hl => by
    have ih := reads_noSelf h
    rcases (live_spread hl).2 with rfl | ⟨body, hb', hl'⟩
    · intro body' hb' hl'
      rw [hb] at hb'; cases hb'
      exact ih f hl' _ hb hl'
    · rw [hb] at hb'; cases hb'
      exact ih f hl'
theorem reads_noSelf {ss : List Sel} {items : List QItem} : Reads vars frags ss items → NoSelfLive vars frags ss
  | .nil => fun f hl => by
    obtain ⟨d, h1, _⟩ := hl
    have : ∀ s, ¬ VisitedIn vars [] s := by intro s h; cases h <;> rename_i h <;> simp_all
    cases h1 with
    | here h => exact (this _ h).elim
    | spread h _ _ _ => exact (this _ h).elim
  | .cons h1 h2 => fun f hl => by
    rcases live_cons hl with hl | hl
    · exact readsSel_noSelf h1 f hl
    · exact reads_noSelf h2 f hl
end

/-! ### Reading is complete -/

theorem not_excluded {dirs : List Directive} (h : shouldSkip vars dirs = .ok false) (hf : DirsFit vars dirs) : ¬ Excluded vars dirs :=
  ((shouldSkip_fit hf).2.1 h).2

/-- the spreads which the code follows -/
inductive Follows (vars : List (String × Val)) (frags : List (String × List Sel)) : List Sel → String → Prop
  | here {ss n dirs} : .spread n dirs ∈ ss → shouldSkip vars dirs = .ok false → Follows vars frags ss n
  | spread {ss n dirs body f} : .spread n dirs ∈ ss → shouldSkip vars dirs = .ok false → dget frags n = some body →
      Follows vars frags body f → Follows vars frags ss f
  | obj {ss n a args dirs ss' f} : .obj n a args dirs ss' ∈ ss → shouldSkip vars dirs = .ok false →
      Follows vars frags ss' f → Follows vars frags ss f
  | inline {ss dirs ss' f} : .inline dirs ss' ∈ ss → shouldSkip vars dirs = .ok false →
      Follows vars frags ss' f → Follows vars frags ss f

theorem Follows.mono {ss ss' : List Sel} {f : String} (hs : ∀ x ∈ ss, x ∈ ss') (h : Follows vars frags ss f) : Follows vars frags ss' f := by
  cases h with
  | here h1 h2 => exact .here (hs _ h1) h2
  | spread h1 h2 h3 h4 => exact .spread (hs _ h1) h2 h3 h4
  | obj h1 h2 h3 => exact .obj (hs _ h1) h2 h3
  | inline h1 h2 h3 => exact .inline (hs _ h1) h2 h3

theorem follows_cons {t : Sel} {ss : List Sel} {f : String} (h : Follows vars frags (t :: ss) f) :
    Follows vars frags [t] f ∨ Follows vars frags ss f := by
  cases h with
  | here h1 h2 =>
    rcases List.mem_cons.1 h1 with rfl | h
    · exact .inl (.here (by simp) h2)
    · exact .inr (.here h h2)
  | spread h1 h2 h3 h4 =>
    rcases List.mem_cons.1 h1 with rfl | h
    · exact .inl (.spread (by simp) h2 h3 h4)
    · exact .inr (.spread h h2 h3 h4)
  | obj h1 h2 h3 =>
    rcases List.mem_cons.1 h1 with rfl | h
    · exact .inl (.obj List.mem_cons_self h2 h3)
    · exact .inr (.obj h h2 h3)
  | inline h1 h2 h3 =>
    rcases List.mem_cons.1 h1 with rfl | h
    · exact .inl (.inline (by simp) h2 h3)
    · exact .inr (.inline h h2 h3)

theorem follows_one {s : Sel} {f : String} (h : Follows vars frags [s] f) : shouldSkip vars s.dirs = .ok false ∧
    ((∃ d, s = .spread f d) ∨ (∃ n d body, s = .spread n d ∧ dget frags n = some body ∧ Follows vars frags body f) ∨
     (∃ n a args d ss, s = .obj n a args d ss ∧ Follows vars frags ss f) ∨ ∃ d ss, s = .inline d ss ∧ Follows vars frags ss f) := by
  cases h with
  | here h1 h2 => rw [List.mem_singleton] at h1; subst h1; exact ⟨h2, .inl ⟨_, rfl⟩⟩
  | spread h1 h2 h3 h4 => rw [List.mem_singleton] at h1; subst h1; exact ⟨h2, .inr (.inl ⟨_, _, _, rfl, h3, h4⟩)⟩
  | obj h1 h2 h3 => rw [List.mem_singleton] at h1; subst h1; exact ⟨h2, .inr (.inr (.inl ⟨_, _, _, _, _, rfl, h3⟩))⟩
  | inline h1 h2 h3 => rw [List.mem_singleton] at h1; subst h1; exact ⟨h2, .inr (.inr (.inr ⟨_, _, rfl, h3⟩))⟩

def NoSelfFollow (vars : List (String × Val)) (frags : List (String × List Sel)) (ss : List Sel) : Prop :=
  ∀ f, Follows vars frags ss f → ∀ body, dget frags f = some body → ¬ Follows vars frags body f

mutual
theorem readsSel_noFollow {s : Sel} {items : List QItem} : ReadsSel vars frags s items → NoSelfFollow vars frags [s]
  | .skip h => fun f hl => by
    have := (follows_one hl).1
    rw [h] at this; cases this
  | .leaf _ _ => fun f hl => by
    rcases (follows_one hl).2 with ⟨_, h⟩ | ⟨_, _, _, h, _⟩ | ⟨_, _, _, _, _, h, _⟩ | ⟨_, _, h, _⟩ <;> cases h
  | .obj _ _ hr => fun f hl => by
    rcases (follows_one hl).2 with ⟨_, h⟩ | ⟨_, _, _, h, _⟩ | ⟨_, _, _, _, _, h, h'⟩ | ⟨_, _, h, _⟩ <;> cases h
    exact reads_noFollow hr f h'
  | .inline _ hr => fun f hl => by
    rcases (follows_one hl).2 with ⟨_, h⟩ | ⟨_, _, _, h, _⟩ | ⟨_, _, _, _, _, h, h'⟩ | ⟨_, _, h, h'⟩ <;> cases h
    exact reads_noFollow hr f h'
  | .spread (n := n) _ hb hr => fun f hl => by
    have ih := reads_noFollow hr
    rcases (follows_one hl).2 with ⟨_, h⟩ | ⟨_, _, _, h, hb', h'⟩ | ⟨_, _, _, _, _, h, h'⟩ | ⟨_, _, h, h'⟩ <;> cases h
    · intro body' hb' hl'
      rw [hb] at hb'; cases hb'
      exact ih _ hl' _ hb hl'
    · rw [hb] at hb'; cases hb'
      exact ih f h'
theorem reads_noFollow {ss : List Sel} {items : List QItem} : Reads vars frags ss items → NoSelfFollow vars frags ss
  | .nil => fun f hl => by cases hl <;> rename_i h <;> simp_all
  | .cons h1 h2 => fun f hl => by
    rcases follows_cons hl with hl | hl
    · exact readsSel_noFollow h1 f hl
    · exact reads_noFollow h2 f hl
end

mutual
theorem readsSel_det {s : Sel} {i1 i2 : List QItem} : ReadsSel vars frags s i1 → ReadsSel vars frags s i2 → i1 = i2
  | .skip h, h' => by
    cases h' with
    | skip _ => rfl
    | leaf h' _ => simp only [Sel.dirs] at h; rw [h] at h'; cases h'
    | obj h' _ _ => simp only [Sel.dirs] at h; rw [h] at h'; cases h'
    | spread h' _ _ => simp only [Sel.dirs] at h; rw [h] at h'; cases h'
    | inline h' _ => simp only [Sel.dirs] at h; rw [h] at h'; cases h'
  | .leaf h ho, h' => by
    cases h' with
    | skip h' => simp only [Sel.dirs] at h'; rw [h] at h'; cases h'
    | leaf _ ho' => rw [ho] at ho'; cases ho'; rfl
  | .obj h ho hr, h' => by
    cases h' with
    | skip h' => simp only [Sel.dirs] at h'; rw [h] at h'; cases h'
    | obj _ ho' hr' => rw [ho] at ho'; cases ho'; rw [reads_det hr hr']
  | .spread h hb hr, h' => by
    cases h' with
    | skip h' => simp only [Sel.dirs] at h'; rw [h] at h'; cases h'
    | spread _ hb' hr' => rw [hb] at hb'; cases hb'; rw [reads_det hr hr']
  | .inline h hr, h' => by
    cases h' with
    | skip h' => simp only [Sel.dirs] at h'; rw [h] at h'; cases h'
    | inline _ hr' => rw [reads_det hr hr']
theorem reads_det {ss : List Sel} {i1 i2 : List QItem} : Reads vars frags ss i1 → Reads vars frags ss i2 → i1 = i2
  | .nil, h' => by cases h'; rfl
  | .cons h1 h2, h' => by
    cases h' with
    | cons h1' h2' => rw [readsSel_det h1 h1', reads_det h2 h2']
end

mutual
theorem readsSel_complete {s : Sel} {items : List QItem} : ReadsSel vars frags s items → ∀ fuel pending c,
    notPending frags pending ≤ fuel → (∀ f, Follows vars frags [s] f → f ∉ pending) → CacheOk vars frags c →
    ∃ c', readSel vars (readFrag vars frags fuel pending) c s = .ok (items, c') ∧ CacheOk vars frags c'
  | .skip h, fuel, pending, c, hf, hp, hc => by
    refine ⟨c, ?_, hc⟩
    cases s <;> simp only [Sel.dirs] at h <;> simp [readSel, h]
  | .leaf h ho, fuel, pending, c, hf, hp, hc => ⟨c, by simp [readSel, h, ho], hc⟩
  | .obj h ho hr, fuel, pending, c, hf, hp, hc => by
    obtain ⟨c', h1, h2⟩ := reads_complete hr fuel pending c hf (fun f hfl => hp f (.obj List.mem_cons_self h hfl)) hc
    exact ⟨c', by simp [readSel, h, ho, h1], h2⟩
  | .inline h hr, fuel, pending, c, hf, hp, hc => by
    obtain ⟨c', h1, h2⟩ := reads_complete hr fuel pending c hf (fun f hfl => hp f (.inline List.mem_cons_self h hfl)) hc
    exact ⟨c', by simp [readSel, h, h1], h2⟩
  | .spread (n := n) (body := body) h hb hr, fuel, pending, c, hf, hp, hc => by
    have hn : n ∉ pending := hp n (.here List.mem_cons_self h)
    have hlt := notPending_lt hb hn
    simp only [readSel, h, ok_bind', Bool.false_eq_true, if_false]
    cases fuel with
    | zero => omega
    | succ fuel =>
      rw [readFrag, hb]
      simp only
      cases hcn : dget c n with
      | some its =>
        obtain ⟨b', h1, h2⟩ := hc n its hcn
        rw [hb] at h1; cases h1
        exact ⟨c, by rw [reads_det hr h2], hc⟩
      | none =>
        simp only [if_neg hn]
        have hself : ¬ Follows vars frags body n := fun hfl => reads_noFollow hr n hfl body hb hfl
        obtain ⟨c', h1, h2⟩ := reads_complete hr fuel (n :: pending) c (by omega) (by
          intro f hfl hm
          rcases List.mem_cons.1 hm with rfl | hm
          · exact hself hfl
          · exact hp f (.spread List.mem_cons_self h hb hfl) hm) hc
        rw [h1]
        refine ⟨_, rfl, fun f its hd => ?_⟩
        simp only at hd
        rw [dget_dset] at hd
        split at hd
        · rename_i he
          subst he
          cases hd
          exact ⟨body, hb, hr⟩
        · exact h2 f its hd
theorem reads_complete {ss : List Sel} {items : List QItem} : Reads vars frags ss items → ∀ fuel pending c,
    notPending frags pending ≤ fuel → (∀ f, Follows vars frags ss f → f ∉ pending) → CacheOk vars frags c →
    ∃ c', readSels vars (readFrag vars frags fuel pending) c ss = .ok (items, c') ∧ CacheOk vars frags c'
  | .nil, fuel, pending, c, hf, hp, hc => ⟨c, rfl, hc⟩
  | .cons h1 h2, fuel, pending, c, hf, hp, hc => by
    obtain ⟨c1, e1, k1⟩ := readsSel_complete h1 fuel pending c hf (fun f hfl => hp f (hfl.mono (by simp))) hc
    obtain ⟨c2, e2, k2⟩ := reads_complete h2 fuel pending c1 hf (fun f hfl => hp f (hfl.mono (by simp; tauto))) k1
    exact ⟨c2, by simp [readSels, e1, e2], k2⟩
end

/-- the reader computes `Reads` -/
theorem readSels_iff {fuel : Nat} (hf : frags.length ≤ fuel) {ss : List Sel} {items : List QItem} :
    (∃ c, readSels vars (readFrag vars frags fuel []) [] ss = .ok (items, c)) ↔ Reads vars frags ss items := by
  constructor
  · rintro ⟨c, h⟩
    exact (readSels_reads (readFrag_reads fuel []) ss [] _ (by intro f its h; cases h) h).2
  · intro h
    obtain ⟨c, h, _⟩ := reads_complete h fuel [] [] (Nat.le_trans (notPending_le _ _) hf) (by simp) (by intro f its h; cases h)
    exact ⟨c, h⟩

theorem readSels_error_iff {fuel : Nat} (hf : frags.length ≤ fuel) {ss : List Sel} {e : Err}
    (h : readSels vars (readFrag vars frags fuel []) [] ss = .error e) : e = .typeError ∨ e = .keyError :=
  readSels_error (P := fun e => e = .typeError ∨ e = .keyError) (.inl rfl) ss
    (fun n _ c e h => readFrag_error fuel [] (Nat.le_trans (notPending_le _ _) hf) n c e h) [] e h

theorem readSels_error_defined {fuel : Nat} (hf : frags.length ≤ fuel) {ss : List Sel} (hd : SpreadsDefined frags ss) {e : Err}
    (h : readSels vars (readFrag vars frags fuel []) [] ss = .error e) : e = .typeError :=
  readSels_error (P := fun e => e = .typeError) rfl ss
    (fun n hn c e h => readFrag_error_defined hd.2 fuel [] (Nat.le_trans (notPending_le _ _) hf) n (hd.1 n hn) c e h) [] e h

/-! ### Operations -/

theorem readOpF_ok {H : PyHash} {doc : List Defn} {op : OpDef} {given : List (String × Val)} {fuel : Nat} (hf : doc.length ≤ fuel)
    {q : QNode} : readOpF H fuel doc op given = .ok q ↔
      Executable doc ∧ ((docFrags doc).map (·.1)).Nodup ∧ ∃ vars items, readVars given [] op.vars = .ok vars ∧
        Reads vars (docFrags doc) op.sels items ∧ q = merge H [.mk items (op.kind = .mutation)] := by
  have hl : (docFrags doc).length ≤ fuel := Nat.le_trans (docFrags_length doc) hf
  simp only [readOpF, bind_ok_iff]
  constructor
  · rintro ⟨vars, h1, fr, h2, r, h3, h4⟩
    obtain ⟨hx, hn, rfl⟩ := frags_eq.1 h2
    cases h4
    exact ⟨hx, hn, vars, r.1, h1, (readSels_iff hl).1 ⟨r.2, h3⟩, rfl⟩
  · rintro ⟨hx, hn, vars, items, h1, h2, rfl⟩
    obtain ⟨c, h3⟩ := (readSels_iff hl).2 h2
    exact ⟨vars, h1, docFrags doc, frags_eq.2 ⟨hx, hn, rfl⟩, _, h3, rfl⟩

theorem readOpF_error {H : PyHash} {doc : List Defn} {op : OpDef} {given : List (String × Val)} {fuel : Nat} (hf : doc.length ≤ fuel)
    {e : Err} (h : readOpF H fuel doc op given = .error e) :
    e = .typeError ∨ (e = .attributeError ∧ ¬ Executable doc) ∨ (e = .keyError ∧ ¬ SpreadsDefined (docFrags doc) op.sels) := by
  have hl : (docFrags doc).length ≤ fuel := Nat.le_trans (docFrags_length doc) hf
  simp only [readOpF, bind_error_iff] at h
  rcases h with h | ⟨vars, h1, h | ⟨fr, h2, h | ⟨r, h3, h⟩⟩⟩
  · exact .inl (readVars_error _ _ h)
  · rcases collectFrags_error _ _ h with h | h
    · exact .inl h
    · exact .inr (.inl h)
  · obtain ⟨hx, hn, rfl⟩ := frags_eq.1 h2
    by_cases hd : SpreadsDefined (docFrags doc) op.sels
    · exact .inl (readSels_error_defined hl hd h)
    · rcases readSels_error_iff hl h with h | h
      · exact .inl h
      · exact .inr (.inr ⟨h, hd⟩)
  · cases h

/-! ### Variables -/

theorem readVar_ok {given : List (String × Val)} {d : VarDef} {v : Val} : readVar given d = .ok v ↔ VarValue given d v := by
  rw [readVar, VarValue]
  cases hg : dget given d.name with
  | some w => simp
  | none =>
    cases hd : d.dflt with
    | some a => simpa using readVal_ok a v
    | none => cases hn : d.nonNull <;> simp [eq_comm]

theorem dset_fresh {α β : Type} [DecidableEq α] {l : List (α × β)} {k : α} {v : β} (h : k ∉ l.map (·.1)) : dset l k v = l ++ [(k, v)] := by
  induction l with
  | nil => rfl
  | cons kv r ih =>
    obtain ⟨k', v'⟩ := kv
    simp at h
    rw [dset, if_neg (fun e => h.1 e.symm), ih (by simpa using h.2)]
    rfl

theorem readVars_ok' {given : List (String × Val)} {l : List VarDef} : ∀ (acc : List (String × Val)) vars,
    (acc.map (·.1) ++ l.map (·.name)).Nodup →
    (readVars given acc l = .ok vars ↔ ∃ r, OpVars given l r ∧ vars = acc ++ r) := by
  induction l with
  | nil =>
    intro acc vars _
    simp only [readVars, Except.ok.injEq]
    constructor
    · rintro rfl; exact ⟨[], .nil, by simp⟩
    · rintro ⟨r, h, rfl⟩; cases h; simp
  | cons d l ih =>
    intro acc vars hn
    have hfresh : d.name ∉ acc.map (·.1) := by
      rw [List.nodup_append] at hn
      intro h
      exact hn.2.2 _ h _ (by simp) rfl
    rw [readVars, bind_ok_iff]
    have hn' : ∀ v : Val, (((acc ++ [(d.name, v)]).map (·.1)) ++ l.map (·.name)).Nodup := by
      intro v
      simpa using hn
    constructor
    · rintro ⟨v, hv, h⟩
      rw [dset_fresh hfresh, ih _ _ (hn' v)] at h
      obtain ⟨r, hr, rfl⟩ := h
      exact ⟨(d.name, v) :: r, .cons ⟨rfl, readVar_ok.1 hv⟩ hr, by simp⟩
    · rintro ⟨r, hr, rfl⟩
      cases hr with
      | @cons _ kv _ r hv hr =>
        obtain ⟨k, v⟩ := kv
        obtain ⟨rfl, hv⟩ := hv
        refine ⟨v, readVar_ok.2 hv, ?_⟩
        rw [dset_fresh hfresh, ih _ _ (hn' v)]
        exact ⟨r, hr, by simp⟩

theorem readVars_ok {given : List (String × Val)} {l : List VarDef} (hn : (l.map (·.name)).Nodup) {vars : List (String × Val)} :
    readVars given [] l = .ok vars ↔ OpVars given l vars := by
  rw [readVars_ok' [] vars (by simpa using hn)]
  simp

/-- no variable is missing and the defaults have no variables -/
theorem readVars_missing {given : List (String × Val)} {l : List VarDef} {d : VarDef} (hd : d ∈ l) (hm : VarMissing given d) :
    ∀ acc, readVars given acc l = .error .typeError := by
  induction l with
  | nil => cases hd
  | cons d' r ih =>
    intro acc
    rw [readVars]
    cases hv : readVar given d' with
    | error e => rw [readVar_error hv]; rfl
    | ok v =>
      rw [ok_bind']
      rcases List.mem_cons.1 hd with rfl | hd
      · obtain ⟨h1, h2, h3⟩ := hm
        simp [readVar, h1, h2, h3] at hv
      · exact ih hd _

/-! ### C33 -/

/-- C33: reading terminates: the bound on nested fragments in the model is never reached (a larger one changes
nothing), and the exceptions are TypeError and, for undefined fragments and documents which are not executable,
KeyError and AttributeError -/
theorem c33_terminates (H : PyHash) (doc : List Defn) (op : OpDef) (given : List (String × Val)) :
    (∀ fuel, doc.length ≤ fuel → readOpF H fuel doc op given = readOp H doc op given) ∧
    (∀ e, readOp H doc op given = .error e → e = .typeError ∨ (e = .attributeError ∧ ¬ Executable doc) ∨
      (e = .keyError ∧ ¬ SpreadsDefined (docFrags doc) op.sels)) := by
  refine ⟨?_, fun e h => readOpF_error (Nat.le_refl _) h⟩
  intro fuel hf
  simp only [readOp, readOpF]
  cases readVars given [] op.vars with
  | error e => rfl
  | ok vars =>
    simp only [ok_bind']
    cases hfr : collectFrags [] doc with
    | error e => rfl
    | ok fr =>
      obtain ⟨_, _, rfl⟩ := frags_eq.1 hfr
      simp only [ok_bind']
      have h1 := notPending_le (docFrags doc) []
      have h2 := docFrags_length doc
      rw [readFrag_fuel fuel [] (by omega) doc.length (by omega)]

/-- C33: a document in which a fragment that is reached spreads itself, directly or through others, is rejected;
if all fragments are defined, with a TypeError -/
theorem c33_cyclic {H : PyHash} {doc : List Defn} {op : OpDef} {given vars : List (String × Val)}
    (hn : (op.vars.map (·.name)).Nodup) (hv : OpVars given op.vars vars) (hc : CyclicFragment vars (docFrags doc) op.sels) :
    (∀ q, readOp H doc op given ≠ .ok q) ∧
    (Executable doc → SpreadsDefined (docFrags doc) op.sels → readOp H doc op given = .error .typeError) := by
  have key : ∀ q, readOp H doc op given ≠ .ok q := by
    intro q h
    obtain ⟨_, _, vars', items, h1, h2, _⟩ := (readOpF_ok (Nat.le_refl _)).1 h
    rw [(readVars_ok hn).2 hv] at h1; cases h1
    obtain ⟨f, d, body, d', h3, h4, h5, h6, h7⟩ := hc
    exact reads_noSelf h2 f ⟨d, h3, h4⟩ body h5 ⟨d', h6, h7⟩
  refine ⟨key, fun hx hd => ?_⟩
  cases h : readOp H doc op given with
  | ok q => exact absurd h (key q)
  | error e =>
    rcases readOpF_error (Nat.le_refl _) h with rfl | ⟨_, h⟩ | ⟨_, h⟩
    · rfl
    · exact absurd hx h
    · exact absurd hd h

end Hiku
