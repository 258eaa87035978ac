import Verif.Proofs.ReadGraphql

/-! # C32, C33: fragments -/

namespace Hiku

variable {vars : List (String × Val)} {frags : List (String × List Sel)}

/-! ### The fragments of a document -/

theorem collectFrags_ok {doc : List Defn} : ∀ acc frags, ((acc : List (String × List Sel)).map (·.1)).Nodup →
    (collectFrags acc doc = .ok frags ↔
      Executable doc ∧ ((acc ++ docFrags doc).map (·.1)).Nodup ∧ frags = acc ++ docFrags doc) := by
  induction doc with
  | nil =>
    intro acc frags hn
    simp only [collectFrags, Except.ok.injEq, docFrags, List.filterMap_nil, List.append_nil, Executable]
    exact ⟨fun h => ⟨by simp, hn, h.symm⟩, fun h => h.2.2.symm⟩
  | cons d r ih =>
    intro acc frags hn
    cases d with
    | op o =>
      rw [collectFrags, ih acc frags hn]
      simp [Executable, docFrags]
    | other =>
      simp [collectFrags, Executable]
    | frag n s =>
      rw [collectFrags]
      have hd : docFrags (.frag n s :: r) = (n, s) :: docFrags r := rfl
      by_cases h : dhas acc n = true
      · rw [if_pos h]
        simp only [reduceCtorEq, false_iff]
        rintro ⟨_, h2, _⟩
        rw [hd, List.map_append, List.map_cons, List.nodup_append] at h2
        rw [dhas, dget_isSome_iff] at h
        exact h2.2.2 n h n (by simp) rfl
      · rw [if_neg h]
        have hnone : dget acc n = none := by simpa [dhas] using h
        have hset : dset acc n s = acc ++ [(n, s)] := by
          clear ih hn h hd
          induction acc with
          | nil => rfl
          | cons kv l ih =>
            obtain ⟨k, v⟩ := kv
            rw [dget_cons] at hnone
            split at hnone
            · cases hnone
            · rename_i hne
              rw [dset, if_neg hne, ih hnone]; rfl
        have hn' : ((acc ++ [(n, s)]).map (·.1)).Nodup := by
          rw [← hset]; exact nodup_dset hn n s
        rw [hset, ih _ frags hn', hd]
        simp [Executable]

theorem frags_eq {doc : List Defn} {frags : List (String × List Sel)} :
    collectFrags [] doc = .ok frags ↔ Executable doc ∧ ((docFrags doc).map (·.1)).Nodup ∧ frags = docFrags doc := by
  simpa using collectFrags_ok [] frags (by simp)

theorem collectFrags_error {doc : List Defn} : ∀ acc e, collectFrags acc doc = .error e →
    e = .typeError ∨ (e = .attributeError ∧ ¬ Executable doc) := by
  induction doc with
  | nil => intro acc e h; cases h
  | cons d r ih =>
    intro acc e h
    have key : ∀ acc, collectFrags acc r = .error e → e = .typeError ∨ (e = .attributeError ∧ ¬ Executable (d :: r)) := by
      intro acc h
      rcases ih acc e h with h | ⟨h1, h2⟩
      · exact .inl h
      · exact .inr ⟨h1, fun hx => h2 fun d hd => hx d (List.mem_cons_of_mem _ hd)⟩
    cases d with
    | op o => exact key acc h
    | other => cases h; exact .inr ⟨rfl, fun hx => hx _ List.mem_cons_self rfl⟩
    | frag n s =>
      rw [collectFrags] at h
      split at h
      · cases h; exact .inl rfl
      · exact key _ h

theorem docFrags_length (doc : List Defn) : (docFrags doc).length ≤ doc.length := List.length_filterMap_le _ _

theorem notPending_le (frags : List (String × List Sel)) (pending : List String) : notPending frags pending ≤ frags.length :=
  List.length_filter_le _ _

theorem readVar_error {given : List (String × Val)} {d : VarDef} {e : Err} (h : readVar given d = .error e) : e = .typeError := by
  rw [readVar] at h
  split at h
  · cases h
  · split at h
    · exact readVal_error _ _ h
    · split at h
      · cases h; rfl
      · cases h

theorem readVars_error {given : List (String × Val)} {l : List VarDef} : ∀ acc e, readVars given acc l = .error e →
    e = .typeError := by
  induction l with
  | nil => intro acc e h; cases h
  | cons d r ih =>
    intro acc e h
    rw [readVars, bind_error_iff] at h
    rcases h with h | ⟨_, _, h⟩
    · exact readVar_error h
    · exact ih _ e h

/-! ### C32 -/

/-- reading selections without fragments -/
def plainSels (vars : List (String × Val)) (ss : List Sel) : Except Err (List QItem) := do
  let r ← readSels vars (readFrag vars [] 0 []) [] ss
  .ok r.1

/-- the outcome of a reading is the given one, for any cache -/
def Outcome (frags : List (String × List Sel)) (vars : List (String × Val)) (x : Except Err (List QItem × FragCache))
    (y : Except Err (List QItem)) : Prop :=
  match y with
  | .error e => x = .error e
  | .ok items => ∃ c, x = .ok (items, c) ∧ ∀ f its, dget c f = some its →
      ∃ body body', dget frags f = some body ∧ Inlines frags body body' ∧ plainSels vars body' = .ok its

/-- the fragments used by fragments in the list, also through other fragments -/
inductive UsesFrag (frags : List (String × List Sel)) : List String → String → Prop
  | here {l f} : f ∈ l → UsesFrag frags l f
  | step {l n body f} : n ∈ l → dget frags n = some body → UsesFrag frags (spreadsIn body) f → UsesFrag frags l f

theorem UsesFrag.mono {l l' : List String} (h : ∀ x ∈ l, x ∈ l') {f : String} (hu : UsesFrag frags l f) : UsesFrag frags l' f := by
  cases hu with
  | here hm => exact .here (h f hm)
  | step hm hb hu => exact .step (h _ hm) hb hu

theorem UsesFrag.append {l l' : List String} {f : String} (hu : UsesFrag frags (l ++ l') f) :
    UsesFrag frags l f ∨ UsesFrag frags l' f := by
  cases hu with
  | here hm => exact (List.mem_append.1 hm).imp .here .here
  | step hm hb hu => exact (List.mem_append.1 hm).imp (fun h => .step h hb hu) (fun h => .step h hb hu)

theorem UsesFrag.nil {f : String} (hu : UsesFrag frags [] f) : False := by
  cases hu with
  | here hm => cases hm
  | step hm _ _ => cases hm

/-- no fragment in use uses itself -/
def NoSelfUse (frags : List (String × List Sel)) (l : List String) : Prop :=
  ∀ f, UsesFrag frags l f → ∀ body, dget frags f = some body → ¬ UsesFrag frags (spreadsIn body) f

mutual
theorem inlinesSel_noSelf {s s' : Sel} : InlinesSel frags s s' → NoSelfUse frags s.spreads
  | .leaf => fun f hu => (by rw [Sel.spreads] at hu; exact hu.nil.elim)
  | .obj h => by rw [Sel.spreads]; exact inlines_noSelf h
  | .inline h => by rw [Sel.spreads]; exact inlines_noSelf h
  | .spread (n := n) (body := body) hb h => by
    have ih := inlines_noSelf h
    rw [Sel.spreads]
    intro f hu body' hb' hu'
    cases hu with
    | here hm =>
      simp at hm
      subst hm
      rw [hb] at hb'; cases hb'
      exact ih f hu' body hb hu'
    | step hm hb'' hu =>
      simp at hm
      subst hm
      rw [hb] at hb''; cases hb''
      exact ih f hu body' hb' hu'
theorem inlines_noSelf {ss ss' : List Sel} : Inlines frags ss ss' → NoSelfUse frags (spreadsIn ss)
  | .nil => fun f hu => (by rw [spreadsIn] at hu; exact hu.nil.elim)
  | .cons h1 h2 => by
    have i1 := inlinesSel_noSelf h1
    have i2 := inlines_noSelf h2
    rw [spreadsIn]
    intro f hu
    rcases hu.append with hu | hu
    · exact i1 f hu
    · exact i2 f hu
end

mutual
theorem inlinesSel_spreads {s s' : Sel} : InlinesSel frags s s' → s'.spreads = []
  | .leaf => by rw [Sel.spreads]
  | .obj h => by rw [Sel.spreads]; exact inlines_spreads h
  | .inline h => by rw [Sel.spreads]; exact inlines_spreads h
  | .spread _ h => by rw [Sel.spreads]; exact inlines_spreads h
theorem inlines_spreads {ss ss' : List Sel} : Inlines frags ss ss' → spreadsIn ss' = []
  | .nil => by rw [spreadsIn]
  | .cons h1 h2 => by rw [spreadsIn, inlinesSel_spreads h1, inlines_spreads h2]; rfl
end

mutual
theorem inlinesSel_det : {s s1 s2 : Sel} → InlinesSel frags s s1 → InlinesSel frags s s2 → s1 = s2
  | _, _, _, .leaf, h => by cases h; rfl
  | _, _, _, .obj h1, h => by cases h with | obj h2 => rw [inlines_det h1 h2]
  | _, _, _, .inline h1, h => by cases h with | inline h2 => rw [inlines_det h1 h2]
  | _, _, _, .spread hb h1, h => by
    cases h with
    | spread hb' h2 => rw [hb] at hb'; cases hb'; rw [inlines_det h1 h2]
theorem inlines_det : {s s1 s2 : List Sel} → Inlines frags s s1 → Inlines frags s s2 → s1 = s2
  | _, _, _, .nil, h => by cases h; rfl
  | _, _, _, .cons h1 h2, h => by
    cases h with
    | cons h1' h2' => rw [inlinesSel_det h1 h1', inlines_det h2 h2']
end

section
variable {frag frag' : String → FragCache → Except Err (List QItem × FragCache)}

/-- add a cache to an outcome -/
def withCache (x : Except Err (List QItem × FragCache)) (c : FragCache) : Except Err (List QItem × FragCache) := do
  let r ← x
  .ok (r.1, c)

mutual
theorem readSel_noSpread : (s : Sel) → s.spreads = [] → ∀ c c',
    readSel vars frag c s = withCache (readSel vars frag' c' s) c
  | .leaf n a args dirs, h, c, c' => by
    rw [readSel, readSel, withCache]
    cases shouldSkip vars dirs with
    | error e => rfl
    | ok b =>
      cases b with
      | true => rfl
      | false =>
        simp only [ok_bind', Bool.false_eq_true, if_false]
        cases readOptions vars args <;> rfl
  | .obj n a args dirs ss, h, c, c' => by
    rw [readSel, readSel, withCache, readSels_noSpread ss (by simpa [Sel.spreads] using h) c c']
    cases shouldSkip vars dirs with
    | error e => rfl
    | ok b =>
      cases b with
      | true => rfl
      | false =>
        simp only [ok_bind', Bool.false_eq_true, if_false, withCache]
        cases readOptions vars args with
        | error e => rfl
        | ok o => cases readSels vars frag' c' ss <;> rfl
  | .spread n dirs, h, c, c' => by simp [Sel.spreads] at h
  | .inline dirs ss, h, c, c' => by
    rw [readSel, readSel, withCache, readSels_noSpread ss (by simpa [Sel.spreads] using h) c c']
    cases shouldSkip vars dirs with
    | error e => rfl
    | ok b =>
      cases b with
      | true => rfl
      | false => simp only [ok_bind', Bool.false_eq_true, if_false, withCache]
theorem readSels_noSpread : (ss : List Sel) → spreadsIn ss = [] → ∀ c c',
    readSels vars frag c ss = withCache (readSels vars frag' c' ss) c
  | [], h, c, c' => rfl
  | s :: ss, h, c, c' => by
    rw [spreadsIn, List.append_eq_nil_iff] at h
    rw [readSels, readSels, readSel_noSpread s h.1 c c']
    simp only [withCache]
    cases readSel vars frag' c' s with
    | error e => rfl
    | ok x =>
      simp only [ok_bind']
      rw [readSels_noSpread ss h.2 c x.2, withCache]
      cases readSels vars frag' x.2 ss <;> rfl
end
end

theorem plainSels_cons {s : Sel} {ss : List Sel} (h : spreadsIn (s :: ss) = []) :
    plainSels vars (s :: ss) = (do
      let a ← plainSels vars [s]
      let b ← plainSels vars ss
      .ok (a ++ b)) := by
  rw [spreadsIn, List.append_eq_nil_iff] at h
  simp only [plainSels, readSels]
  cases readSel vars (readFrag vars [] 0 []) [] s with
  | error e => rfl
  | ok x =>
    simp only [ok_bind']
    rw [readSels_noSpread ss h.2 x.2 []]
    simp only [withCache]
    cases readSels vars (readFrag vars [] 0 []) [] ss with
    | error e => rfl
    | ok y => simp

theorem outcome_cons {fr : String → FragCache → Except Err (List QItem × FragCache)} {c : FragCache} {s s' : Sel} {ss ss' : List Sel}
    (h : spreadsIn (s' :: ss') = [])
    (h1 : Outcome frags vars (readSel vars fr c s) (plainSels vars [s']))
    (h2 : ∀ c', (∀ f its, dget c' f = some its →
      ∃ body body', dget frags f = some body ∧ Inlines frags body body' ∧ plainSels vars body' = .ok its) →
      Outcome frags vars (readSels vars fr c' ss) (plainSels vars ss')) :
    Outcome frags vars (readSels vars fr c (s :: ss)) (plainSels vars (s' :: ss')) := by
  rw [plainSels_cons h, readSels]
  cases hp : plainSels vars [s'] with
  | error e =>
    rw [hp] at h1
    have h1 : readSel vars fr c s = .error e := h1
    rw [h1]
    rfl
  | ok a =>
    rw [hp] at h1
    obtain ⟨c', h1, hc'⟩ := h1
    have h2 := h2 c' hc'
    rw [h1]
    cases hp2 : plainSels vars ss' with
    | error e =>
      rw [hp2] at h2
      have h2 : readSels vars fr c' ss = .error e := h2
      simp only [ok_bind', h2]
      rfl
    | ok b =>
      rw [hp2] at h2
      obtain ⟨c'', h2, hc''⟩ := h2
      simp only [ok_bind', h2]
      exact ⟨c'', rfl, hc''⟩

theorem plainSel_skip {s : Sel} (h : shouldSkip vars s.dirs = .ok true) : plainSels vars [s] = .ok [] := by
  cases s <;> simp only [Sel.dirs] at h <;> simp [plainSels, readSels, readSel, h]

theorem plainSel_skip_error {s : Sel} {e : Err} (h : shouldSkip vars s.dirs = .error e) : plainSels vars [s] = .error e := by
  cases s <;> simp only [Sel.dirs] at h <;> simp [plainSels, readSels, readSel, h]

theorem plainSel_inline {dirs : List Directive} {ss : List Sel} (h : shouldSkip vars dirs = .ok false) :
    plainSels vars [.inline dirs ss] = plainSels vars ss := by
  simp only [plainSels, readSels, readSel, h, ok_bind', Bool.false_eq_true, if_false]
  cases readSels vars (readFrag vars [] 0 []) [] ss <;> simp

theorem plainSel_obj {n : String} {a : Option String} {args : List (String × AVal)} {dirs : List Directive} {ss : List Sel}
    (h : shouldSkip vars dirs = .ok false) :
    plainSels vars [.obj n a args dirs ss] = (do
      let o ← readOptions vars args
      let r ← plainSels vars ss
      .ok [.link n (.mk r false) o a]) := by
  simp only [plainSels, readSels, readSel, h, ok_bind', Bool.false_eq_true, if_false]
  cases readOptions vars args with
  | error e => rfl
  | ok o => cases readSels vars (readFrag vars [] 0 []) [] ss <;> simp

theorem plainSel_leaf {n : String} {a : Option String} {args : List (String × AVal)} {dirs : List Directive}
    (h : shouldSkip vars dirs = .ok false) :
    plainSels vars [.leaf n a args dirs] = (do
      let o ← readOptions vars args
      .ok [.field n o a]) := by
  simp only [plainSels, readSels, readSel, h, ok_bind', Bool.false_eq_true, if_false]
  cases readOptions vars args <;> simp

mutual
theorem inlineSel_outcome {s s' : Sel} : InlinesSel frags s s' → ∀ fuel pending c,
    notPending frags pending ≤ fuel → (∀ f, UsesFrag frags s.spreads f → f ∉ pending) →
    (∀ f its, dget c f = some its →
      ∃ body body', dget frags f = some body ∧ Inlines frags body body' ∧ plainSels vars body' = .ok its) →
    Outcome frags vars (readSel vars (readFrag vars frags fuel pending) c s) (plainSels vars [s'])
  | .leaf (n := n) (a := a) (args := args) (dirs := dirs), fuel, pending, c, hf, hp, hc => by
    rw [readSel]
    cases hs : shouldSkip vars dirs with
    | error e => rw [plainSel_skip_error (s := .leaf n a args dirs) hs]; rfl
    | ok b =>
      cases b with
      | true => rw [plainSel_skip (s := .leaf n a args dirs) hs]; exact ⟨c, rfl, hc⟩
      | false =>
        rw [plainSel_leaf hs]
        cases readOptions vars args with
        | error e => rfl
        | ok o => exact ⟨c, rfl, hc⟩
  | .obj (n := n) (a := a) (args := args) (dirs := dirs) (ss := ss) (ss' := ss') h, fuel, pending, c, hf, hp, hc => by
    rw [readSel]
    cases hs : shouldSkip vars dirs with
    | error e => rw [plainSel_skip_error (s := .obj n a args dirs ss') hs]; rfl
    | ok b =>
      cases b with
      | true => rw [plainSel_skip (s := .obj n a args dirs ss') hs]; exact ⟨c, rfl, hc⟩
      | false =>
        rw [plainSel_obj hs]
        have ih := inlines_outcome h fuel pending c hf (by simpa [Sel.spreads] using hp) hc
        simp only [ok_bind', Bool.false_eq_true, if_false]
        cases readOptions vars args with
        | error e => rfl
        | ok o =>
          simp only [ok_bind']
          cases hpl : plainSels vars ss' with
          | error e =>
            rw [hpl] at ih
            have ih : readSels vars _ c ss = .error e := ih
            rw [ih]; rfl
          | ok items =>
            rw [hpl] at ih
            obtain ⟨c', h1, h2⟩ := ih
            rw [h1]
            exact ⟨c', rfl, h2⟩
  | .inline (dirs := dirs) (ss := ss) (ss' := ss') h, fuel, pending, c, hf, hp, hc => by
    rw [readSel]
    cases hs : shouldSkip vars dirs with
    | error e => rw [plainSel_skip_error (s := .inline dirs ss') hs]; rfl
    | ok b =>
      cases b with
      | true => rw [plainSel_skip (s := .inline dirs ss') hs]; exact ⟨c, rfl, hc⟩
      | false =>
        rw [plainSel_inline hs]
        exact inlines_outcome h fuel pending c hf (by simpa [Sel.spreads] using hp) hc
  | .spread (n := n) (dirs := dirs) (body := body) (body' := body') hb h, fuel, pending, c, hf, hp, hc => by
    rw [readSel]
    cases hs : shouldSkip vars dirs with
    | error e => rw [plainSel_skip_error (s := .inline dirs body') hs]; rfl
    | ok b =>
      cases b with
      | true => rw [plainSel_skip (s := .inline dirs body') hs]; exact ⟨c, rfl, hc⟩
      | false =>
        rw [plainSel_inline hs]
        simp only [ok_bind', Bool.false_eq_true, if_false]
        have hnp : n ∉ pending := hp n (.here (by simp [Sel.spreads]))
        have hlt := notPending_lt hb hnp
        have hnoself : ¬ UsesFrag frags (spreadsIn body) n := fun hu => inlines_noSelf h n hu body hb hu
        cases fuel with
        | zero => omega
        | succ fuel =>
          rw [readFrag, hb]
          simp only
          cases hcn : dget c n with
          | some items =>
            obtain ⟨b1, b2, h1, h2, h3⟩ := hc n items hcn
            rw [hb] at h1; cases h1
            rw [inlines_det h h2, h3]
            exact ⟨c, rfl, hc⟩
          | none =>
            simp only [if_neg hnp]
            have ih := inlines_outcome h fuel (n :: pending) c (by omega) (by
              intro f hu hm
              rcases List.mem_cons.1 hm with rfl | hm
              · exact hnoself hu
              · exact hp f (.step (by simp [Sel.spreads]) hb hu) hm) hc
            cases hpl : plainSels vars body' with
            | error e =>
              rw [hpl] at ih
              have ih : readSels vars _ c body = .error e := ih
              rw [ih]; rfl
            | ok items =>
              rw [hpl] at ih
              obtain ⟨c', h1, h2⟩ := ih
              rw [h1]
              refine ⟨dset c' n items, rfl, fun f its hd => ?_⟩
              rw [dget_dset] at hd
              split at hd
              · rename_i he
                subst he
                cases hd
                exact ⟨body, body', hb, h, hpl⟩
              · exact h2 f its hd
theorem inlines_outcome {ss ss' : List Sel} : Inlines frags ss ss' → ∀ fuel pending c,
    notPending frags pending ≤ fuel → (∀ f, UsesFrag frags (spreadsIn ss) f → f ∉ pending) →
    (∀ f its, dget c f = some its →
      ∃ body body', dget frags f = some body ∧ Inlines frags body body' ∧ plainSels vars body' = .ok its) →
    Outcome frags vars (readSels vars (readFrag vars frags fuel pending) c ss) (plainSels vars ss')
  | .nil, fuel, pending, c, hf, hp, hc => ⟨c, rfl, hc⟩
  | .cons (s := s) (s' := s') (r := r) (r' := r') h1 h2, fuel, pending, c, hf, hp, hc => by
    refine outcome_cons (inlines_spreads (.cons h1 h2)) ?_ ?_
    · exact inlineSel_outcome h1 fuel pending c hf (fun f hu => hp f (hu.mono (by simp [spreadsIn]; tauto))) hc
    · intro c' hc'
      exact inlines_outcome h2 fuel pending c' hf (fun f hu => hp f (hu.mono (by simp [spreadsIn]; tauto))) hc'
end

/-- C32: reading an operation of a document gives the same outcome (query or error) as reading the operation in
which every fragment spread is replaced by the selections of its fragment, in a document without fragments. -/
theorem c32_inlining {H : PyHash} {doc : List Defn} (hx : Executable doc) (hn : ((docFrags doc).map (·.1)).Nodup)
    {op : OpDef} {sels' : List Sel} (hi : Inlines (docFrags doc) op.sels sels') (given : List (String × Val)) :
    readOp H doc op given = readOp H [.op { op with sels := sels' }] { op with sels := sels' } given := by
  have h1 : collectFrags [] doc = .ok (docFrags doc) := frags_eq.2 ⟨hx, hn, rfl⟩
  have h2 : collectFrags [] [.op { op with sels := sels' }] = .ok [] := rfl
  simp only [readOp, readOpF, h1, h2]
  cases readVars given [] op.vars with
  | error e => rfl
  | ok vars =>
    simp only [ok_bind']
    have h3 := inlines_outcome (vars := vars) hi doc.length [] []
      (by have := notPending_le (docFrags doc) []; have := docFrags_length doc; omega) (by simp) (by simp)
    rw [readSels_noSpread sels' (inlines_spreads hi) [] [] (frag' := readFrag vars [] 0 [])]
    simp only [withCache]
    rw [plainSels] at h3
    cases hp : readSels vars (readFrag vars [] 0 []) [] sels' with
    | error e =>
      rw [hp] at h3
      have h3 : readSels vars _ [] op.sels = .error e := h3
      rw [h3]; rfl
    | ok r =>
      rw [hp] at h3
      obtain ⟨c, h3, _⟩ := h3
      rw [h3]; rfl

mutual
theorem inlinesSel_exists (k : Nat) (rank : String → Nat)
    (hb : ∀ f, rank f < k → (dget frags f).isSome → ∃ body body', dget frags f = some body ∧ Inlines frags body body') :
    (s : Sel) → (∀ f ∈ s.spreads, (dget frags f).isSome ∧ rank f < k) → ∃ s', InlinesSel frags s s'
  | .leaf .., _ => ⟨_, .leaf⟩
  | .obj _ _ _ _ ss, h => by
    obtain ⟨ss', h'⟩ := inlines_exists k rank hb ss (by simpa [Sel.spreads] using h)
    exact ⟨_, .obj h'⟩
  | .inline _ ss, h => by
    obtain ⟨ss', h'⟩ := inlines_exists k rank hb ss (by simpa [Sel.spreads] using h)
    exact ⟨_, .inline h'⟩
  | .spread n dirs, h => by
    obtain ⟨h1, h2⟩ := h n (by simp [Sel.spreads])
    obtain ⟨body, body', h3, h4⟩ := hb n h2 h1
    exact ⟨_, .spread h3 h4⟩
theorem inlines_exists (k : Nat) (rank : String → Nat)
    (hb : ∀ f, rank f < k → (dget frags f).isSome → ∃ body body', dget frags f = some body ∧ Inlines frags body body') :
    (ss : List Sel) → (∀ f ∈ spreadsIn ss, (dget frags f).isSome ∧ rank f < k) → ∃ ss', Inlines frags ss ss'
  | [], _ => ⟨_, .nil⟩
  | s :: ss, h => by
    obtain ⟨s', h1⟩ := inlinesSel_exists k rank hb s fun f hf => h f (by simp [spreadsIn, hf])
    obtain ⟨ss', h2⟩ := inlines_exists k rank hb ss fun f hf => h f (by simp [spreadsIn, hf])
    exact ⟨_, .cons h1 h2⟩
end

theorem list_max (l : List String) (rank : String → Nat) : ∃ k, ∀ x ∈ l, rank x < k := by
  induction l with
  | nil => exact ⟨0, by simp⟩
  | cons x r ih =>
    obtain ⟨k, hk⟩ := ih
    refine ⟨max k (rank x + 1), fun y hy => ?_⟩
    rcases List.mem_cons.1 hy with rfl | hy
    · omega
    · have := hk y hy; omega

/-- C32: the replacement is possible for every document whose fragments are defined and acyclic. -/
theorem c32_possible {rank : String → Nat} {ss : List Sel} (hd : SpreadsDefined frags ss) (ha : SpreadsAcyclic frags rank) :
    ∃ ss', Inlines frags ss ss' := by
  have hb : ∀ k, ∀ f, rank f < k → (dget frags f).isSome → ∃ body body', dget frags f = some body ∧ Inlines frags body body' := by
    intro k
    induction k with
    | zero => intro f h; omega
    | succ k ih =>
      intro f hf hs
      obtain ⟨body, hbody⟩ := Option.isSome_iff_exists.1 hs
      obtain ⟨body', h'⟩ := inlines_exists k rank ih body fun g hg =>
        ⟨hd.2 f body hbody g hg, by have := ha f body hbody g hg; omega⟩
      exact ⟨body, body', hbody, h'⟩
  obtain ⟨k, hk⟩ := list_max (spreadsIn ss) rank
  exact inlines_exists k rank (hb k) ss fun f hf => ⟨hd.1 f hf, hk f hf⟩

end Hiku
