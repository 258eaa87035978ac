import Verif.Props.OptionTypes
import Verif.Proofs.Merge

/-! # C24, C26: what `validate` reports -/

namespace Hiku

variable {types : List (String × Ty)}

/-! ### Records -/

theorem RecordOf.det {b : Bool} {t : Ty} {fs fs' : List (String × Ty)} (h : RecordOf types b t fs)
    (h' : RecordOf types b t fs') : fs = fs' := by
  induction h with
  | record => cases h'; rfl
  | optional _ ih => cases h' with | optional h' => exact ih h'
  | sequence _ ih => cases h' with | sequence h' => exact ih h'
  | named hn _ ih =>
    cases h' with
    | named hn' h' => rw [hn] at hn'; cases hn'; exact ih h'

theorem assumeTy_sound {ref : Bool → Ty → Except Err (Option (List (String × Ty)))}
    (hr : ∀ b t r, ref b t = .ok r → ∀ fs, r = some fs ↔ RecordOf types b t fs) : (t : Ty) →
    ∀ b r, assumeTy types ref b t = .ok r → ∀ fs, r = some fs ↔ RecordOf types b t fs
  | .optional t, b, r, h, fs => by
    rw [assumeTy] at h
    cases b with
    | true => simp at h; subst h; exact ⟨fun h => (by cases h), fun h => (by cases h)⟩
    | false =>
      rw [assumeTy_sound hr t true r (by simpa using h) fs]
      exact ⟨.optional, fun h => by cases h; assumption⟩
  | .sequence t, b, r, h, fs => by
    rw [assumeTy] at h
    cases b with
    | true => simp at h; subst h; exact ⟨fun h => (by cases h), fun h => (by cases h)⟩
    | false =>
      rw [assumeTy_sound hr t true r (by simpa using h) fs]
      exact ⟨.sequence, fun h => by cases h; assumption⟩
  | .record fs', b, r, h, fs => by
    simp [assumeTy] at h
    subst h
    constructor
    · intro h; cases h; exact .record
    · intro h; cases h; rfl
  | .ref n, b, r, h, fs => by
    rw [assumeTy] at h
    cases hn : dget types n with
    | none => rw [hn] at h; cases h
    | some t =>
      rw [hn] at h
      rw [hr b t r h fs]
      constructor
      · exact .named hn
      · intro h
        cases h with
        | named hn' h => rw [hn] at hn'; cases hn'; exact h
  | .any, b, r, h, fs | .boolean, b, r, h, fs | .string, b, r, h, fs | .integer, b, r, h, fs
  | .float, b, r, h, fs | .mapping .., b, r, h, fs | .callable .., b, r, h, fs => by
    simp [assumeTy] at h; subst h; exact ⟨fun h => (by cases h), fun h => (by cases h)⟩

theorem assumeLim_sound (lim : Nat) : ∀ b t r, assumeLim types lim b t = .ok r →
    ∀ fs, r = some fs ↔ RecordOf types b t fs := by
  induction lim with
  | zero =>
    intro b t r h
    exact assumeTy_sound (ref := fun _ _ => .error .recursionError) (by intro _ _ _ h; cases h) t b r h
  | succ n ih => exact fun b t r h => assumeTy_sound ih t b r h

theorem assumeRecord_sound {lim : Nat} {ty : Option Ty} {r : Option (List (String × Ty))}
    (h : assumeRecord types lim ty = .ok r) (fs : List (String × Ty)) : r = some fs ↔ FieldRecord types ty fs := by
  cases ty with
  | none => simp [assumeRecord] at h; subst h; simp [FieldRecord]
  | some t =>
    rw [assumeLim_sound lim false t r h fs]
    simp [FieldRecord]

theorem assume_some {lim : Nat} {t : Ty} {r : Option (List (String × Ty))}
    (h : assumeRecord types lim (some t) = .ok r) (fs : List (String × Ty)) : r = some fs ↔ RecordOf types false t fs :=
  assumeLim_sound lim false t r h fs

/-! ### Options -/

theorem valOption_exact {lim : Nat} {o : Opts} {node name : String} {op : GOption} {errs : List QErr}
    (h : valOption types lim (o.getD []) node name op = .ok errs) (e : QErr) :
    e ∈ errs ↔ (e = .missingOption node name op.name ∧ optionValue o op = .nothing) ∨
      (e = .invalidOption node name op.name ∧ optionValue o op ≠ .nothing ∧ ∃ t, op.ty = some t ∧
        ¬ HasType types t (optionValue o op)) := by
  simp only [valOption] at h
  change (if optionValue o op = .nothing then _ else _) = _ at h
  by_cases hv : optionValue o op = .nothing
  · rw [if_pos hv] at h
    cases h
    simp [hv]
  · rw [if_neg hv] at h
    cases ht : op.ty with
    | none =>
      rw [ht] at h
      cases h
      simp [hv]
    | some t =>
      rw [ht] at h
      simp only at h
      have hs := optCheck_sound (types := types) lim t (optionValue o op)
      change (match optCheck types lim t (optionValue o op) with
        | .ok () => _ | .error .invalid => _ | .error (.raised e) => _) = _ at h
      cases hc : optCheck types lim t (optionValue o op) with
      | ok u =>
        rw [hc] at h
        cases h
        simp [hv, hs.1 hc]
      | error e' =>
        cases e' with
        | raised e' => rw [hc] at h; cases h
        | invalid =>
          rw [hc] at h
          cases h
          have := hs.2 _ hc (by simp)
          simp [hv, this]

theorem mapM_mem {α : Type} {f : α → Except Err (List QErr)} {l : List α} {r : List (List QErr)} (h : l.mapM f = .ok r) :
    ∀ e, e ∈ r.flatten ↔ ∃ x ∈ l, ∃ a, f x = .ok a ∧ e ∈ a := by
  rw [mapM_ok_iff] at h
  induction h with
  | nil => simp
  | @cons x a l r h1 _ ih =>
    intro e
    rw [List.flatten_cons, List.mem_append, ih]
    simp only [List.exists_mem_cons_iff, h1, Except.ok.injEq, exists_eq_left']

theorem mapM_all {α β : Type} {f : α → Except Err β} {l : List α} {r : List β} (h : l.mapM f = .ok r) :
    ∀ x ∈ l, ∃ a, f x = .ok a := by
  rw [mapM_ok_iff] at h
  induction h with
  | nil => simp
  | cons h1 _ ih =>
    intro x hx
    rcases List.mem_cons.1 hx with rfl | hx
    · exact ⟨_, h1⟩
    · exact ih x hx

theorem valOptions_exact {lim : Nat} {declared : List GOption} {o : Opts} {node name : String} {errs : List QErr}
    (h : valOptions types lim declared o node name = .ok errs) (e : QErr) :
    e ∈ errs ↔ OptViolation types declared o node name e := by
  rw [valOptions, bind_ok_iff] at h
  obtain ⟨r, h1, h2⟩ := h
  have h2 : _ = Except.ok errs := h2
  cases h2
  have hall := mapM_all h1
  rw [List.mem_append, mapM_mem h1]
  change _ ∨ e ∈ (if (unknownOptions declared o).isEmpty = true then [] else [.unknownOptions node name (unknownOptions declared o)]) ↔ _
  constructor
  · rintro (⟨op, hop, a, ha, he⟩ | he)
    · rcases (valOption_exact ha e).1 he with ⟨rfl, h⟩ | ⟨rfl, h, t, ht, hh⟩
      · exact .missing hop h
      · exact .invalid hop h ht hh
    · split at he
      · cases he
      · rename_i hne
        simp at he
        subst he
        exact .unknown (by simpa using hne)
  · intro hv
    cases hv with
    | @missing op hop h =>
      obtain ⟨a, ha⟩ := hall op hop
      exact .inl ⟨op, hop, a, ha, (valOption_exact ha _).2 (.inl ⟨rfl, h⟩)⟩
    | @invalid op t hop h ht hh =>
      obtain ⟨a, ha⟩ := hall op hop
      exact .inl ⟨op, hop, a, ha, (valOption_exact ha _).2 (.inr ⟨rfl, h, t, ht, hh⟩)⟩
    | unknown h =>
      right
      rw [if_neg (by simpa using h)]
      simp

/-! ### Selections inside of records -/

theorem valRecItems_eq (lim : Nat) (ts : List (String × Ty)) (fs : List QItem) :
    valRecItems types lim ts fs = (do let r ← fs.mapM (valRecItem types lim ts); .ok r.flatten) := by
  induction fs with
  | nil => rfl
  | cons i r ih =>
    rw [valRecItems, ih, List.mapM_cons]
    cases valRecItem types lim ts i with
    | error e => rfl
    | ok a =>
      simp only [ok_bind']
      cases (r.mapM (valRecItem types lim ts) : Except Err _) <;> rfl

theorem valRec_exact (lim : Nat) (q : QNode) : ∀ ts errs, valRecNode types lim ts q = .ok errs →
    ∀ e, e ∈ errs ↔ RecViolation types ts q e := by
  induction q using QNode.ind with
  | h fs ord ih =>
    intro ts errs h e
    rw [valRecNode, valRecItems_eq, bind_ok_iff] at h
    obtain ⟨r, h1, h2⟩ := h
    cases h2
    have hall := mapM_all h1
    rw [mapM_mem h1]
    constructor
    · rintro ⟨i, hi, a, ha, he⟩
      cases i with
      | field n o al =>
        rw [valRecItem] at ha
        cases hn : dget ts n with
        | none =>
          rw [hn] at ha
          cases ha
          simp at he
          subst he
          exact .unknownField hi hn
        | some t =>
          rw [hn] at ha
          simp only at ha
          by_cases ho : o = none
          · subst ho
            rw [if_neg (by simp), bind_ok_iff] at ha
            obtain ⟨rr, hr, ha⟩ := ha
            match rr, hr, ha with
            | none, _, ha => cases ha; simp at he
            | some [], _, ha => cases ha; simp at he
            | some (x :: xs), hr, ha =>
              cases ha
              simp at he
              subst he
              exact .recordAsField hi hn ((assume_some hr _).1 rfl) (by simp)
          · rw [if_pos ho] at ha
            cases ha
            simp at he
            subst he
            obtain ⟨o', rfl⟩ := Option.ne_none_iff_exists'.1 ho
            exact .options hi hn
      | link n q o al =>
        rw [valRecItem] at ha
        cases hn : dget ts n with
        | none => rw [hn] at ha; cases ha
        | some t =>
          rw [hn] at ha
          simp only [bind_ok_iff] at ha
          obtain ⟨rr, hr, ha⟩ := ha
          cases rr with
          | none =>
            cases ha
            simp at he
            subst he
            refine .notRecord hi hn ?_
            rintro ⟨fs', hf⟩
            have := (assume_some hr fs').2 hf
            cases this
          | some ts' =>
            exact .inside hi hn ((assume_some hr _).1 rfl) ((ih n q o al hi ts' a ha e).1 he)
    · intro hv
      cases hv with
      | @unknownField _ _ n o a hi hn =>
        refine ⟨_, hi, [.unknownRecordField n], ?_, by simp⟩
        rw [valRecItem, hn]
      | @options _ _ n o a t hi hn =>
        refine ⟨_, hi, [.optionsNotExpected], ?_, by simp⟩
        rw [valRecItem, hn]
        simp
      | @recordAsField _ _ n a t fs' hi hn hr hne =>
        obtain ⟨b, hb⟩ := hall _ hi
        refine ⟨_, hi, b, hb, ?_⟩
        rw [valRecItem, hn] at hb
        simp only at hb
        rw [if_neg (by simp), bind_ok_iff] at hb
        obtain ⟨rr, hrr, hb⟩ := hb
        have := (assume_some hrr _).2 hr
        subst this
        cases fs' with
        | nil => exact absurd rfl hne
        | cons x xs => cases hb; simp
      | @notRecord _ _ n q' o a t hi hn hr =>
        obtain ⟨b, hb⟩ := hall _ hi
        refine ⟨_, hi, b, hb, ?_⟩
        rw [valRecItem, hn] at hb
        simp only [bind_ok_iff] at hb
        obtain ⟨rr, hrr, hb⟩ := hb
        cases rr with
        | some ts' => exact absurd ⟨ts', (assume_some hrr _).1 rfl⟩ hr
        | none => cases hb; simp
      | @inside _ _ n q' o a t fs' _ hi hn hr hv =>
        obtain ⟨b, hb⟩ := hall _ hi
        refine ⟨_, hi, b, hb, ?_⟩
        rw [valRecItem, hn] at hb
        simp only [bind_ok_iff] at hb
        obtain ⟨rr, hrr, hb⟩ := hb
        have := (assume_some hrr _).2 hr
        subst this
        exact (ih n q' o a hi fs' b hb e).2 hv

/-! ### Distinct fields with one name -/

theorem or_rearrange (A B C D : Prop) : ((A ∨ B) ∨ (C ∨ D)) ↔ ((B ∨ C) ∨ (A ∨ D)) := by tauto


theorem fieldEq_iff {i j : QItem} : fieldEq i j = true ↔ SameItem i j := by
  simp [fieldEq, SameItem]

theorem optsEq_symm {a b : Opts} (h : optsEq a b = true) : optsEq b a = true := by
  cases a <;> cases b <;> simp [optsEq] at h ⊢
  exact ⟨h.2, h.1⟩

theorem optsEq_trans {a b c : Opts} (h : optsEq a b = true) (h' : optsEq b c = true) : optsEq a c = true := by
  cases a <;> cases b <;> cases c <;> simp [optsEq] at h h' ⊢
  refine ⟨fun k v hm => ?_, fun k v hm => ?_⟩
  · exact h'.1 k v (dget_mem (h.1 k v hm))
  · exact h.2 k v (dget_mem (h'.2 k v hm))

theorem SameItem.symm {i j : QItem} (h : SameItem i j) : SameItem j i := ⟨h.1.symm, optsEq_symm h.2⟩
theorem SameItem.trans {i j k : QItem} (h : SameItem i j) (h' : SameItem j k) : SameItem i k :=
  ⟨h.1.trans h'.1, optsEq_trans h.2 h'.2⟩

/-- the first item with the result key -/
def firstKey (l : List QItem) (k : String) : Option QItem := l.find? fun i => i.resultKey = k

theorem firstKey_mem {l : List QItem} {k : String} {s : QItem} (h : firstKey l k = some s) :
    s ∈ l ∧ s.resultKey = k := ⟨List.mem_of_find?_eq_some h, by simpa using List.find?_some h⟩

theorem firstKey_snoc (l : List QItem) (i : QItem) (k : String) :
    firstKey (l ++ [i]) k = (firstKey l k).or (if i.resultKey = k then some i else none) := by
  rw [firstKey, List.find?_append]
  rw [firstKey]
  congr 1
  by_cases h : i.resultKey = k <;> simp [h]

theorem valItems_eq (g : Graph) (lim : Nat) (gn : GNode) (l : List QItem) : ∀ pre seen,
    (∀ k, dget seen k = firstKey pre k) → ∀ errs, valItems g lim gn seen l = .ok errs →
    (∀ i ∈ l, ∃ a, valItem g lim gn i = .ok a) ∧
    ∀ e, e ∈ errs ↔ (∃ i ∈ l, ∃ a, valItem g lim gn i = .ok a ∧ e ∈ a) ∨
      ∃ l1 i l2 s, l = l1 ++ i :: l2 ∧ firstKey (pre ++ l1) i.resultKey = some s ∧ ¬ SameItem i s ∧
        e = .distinctFields (nodeLabel gn) i.resultKey := by
  induction l with
  | nil =>
    intro pre seen _ errs h
    simp [valItems] at h
    subst h
    simp
  | cons i r ih =>
    intro pre seen hs errs h
    have split : ∀ e : QErr, (∃ l1 j l2 s, i :: r = l1 ++ j :: l2 ∧ firstKey (pre ++ l1) j.resultKey = some s ∧ ¬ SameItem j s ∧
        e = .distinctFields (nodeLabel gn) j.resultKey) ↔
        (∃ s, firstKey pre i.resultKey = some s ∧ ¬ SameItem i s ∧ e = .distinctFields (nodeLabel gn) i.resultKey) ∨
        (∃ l1 j l2 s, r = l1 ++ j :: l2 ∧ firstKey (pre ++ [i] ++ l1) j.resultKey = some s ∧ ¬ SameItem j s ∧
        e = .distinctFields (nodeLabel gn) j.resultKey) := by
      intro e
      constructor
      · rintro ⟨l1, j, l2, s, hl, hf, hn, he⟩
        cases l1 with
        | nil =>
          simp at hl
          obtain ⟨rfl, rfl⟩ := hl
          exact .inl ⟨s, by simpa using hf, hn, he⟩
        | cons x xs =>
          simp at hl
          obtain ⟨rfl, rfl⟩ := hl
          exact .inr ⟨xs, j, l2, s, rfl, by simpa using hf, hn, he⟩
      · rintro (⟨s, hf, hn, he⟩ | ⟨l1, j, l2, s, rfl, hf, hn, he⟩)
        · exact ⟨[], i, r, s, rfl, by simpa using hf, hn, he⟩
        · exact ⟨i :: l1, j, l2, s, rfl, by simpa using hf, hn, he⟩
    rw [valItems] at h
    cases hd : dget seen i.resultKey with
    | some s =>
      rw [hd] at h
      simp only [bind_ok_iff] at h
      obtain ⟨a, ha, b, hb, h⟩ := h
      cases h
      have hfs : firstKey pre i.resultKey = some s := by rw [← hs, hd]
      have hseen : ∀ k, dget seen k = firstKey (pre ++ [i]) k := by
        intro k
        rw [firstKey_snoc, hs]
        by_cases hk : i.resultKey = k
        · subst hk; rw [hfs]; rfl
        · rw [if_neg hk]; simp
      obtain ⟨h1, h2⟩ := ih (pre ++ [i]) seen hseen b hb
      refine ⟨fun x hx => ?_, fun e => ?_⟩
      · rcases List.mem_cons.1 hx with rfl | hx
        · exact ⟨a, ha⟩
        · exact h1 x hx
      · rw [split, List.mem_append, List.mem_append, h2]
        have hfe : e ∈ (if fieldEq i s = true then [] else [QErr.distinctFields (nodeLabel gn) i.resultKey]) ↔
            ∃ s, firstKey pre i.resultKey = some s ∧ ¬ SameItem i s ∧ e = .distinctFields (nodeLabel gn) i.resultKey := by
          rw [hfs]
          by_cases hq : fieldEq i s = true
          · rw [if_pos hq]
            rw [fieldEq_iff] at hq
            simp [hq]
          · rw [if_neg hq]
            rw [fieldEq_iff] at hq
            simp [hq]
        rw [hfe]
        simp only [List.exists_mem_cons_iff, ha, Except.ok.injEq, exists_eq_left']
        exact or_rearrange _ _ _ _
    | none =>
      rw [hd] at h
      simp only [bind_ok_iff] at h
      obtain ⟨a, ha, b, hb, h⟩ := h
      cases h
      have hfs : firstKey pre i.resultKey = none := by rw [← hs, hd]
      have hseen : ∀ k, dget (dset seen i.resultKey i) k = firstKey (pre ++ [i]) k := by
        intro k
        rw [firstKey_snoc, dget_dset, hs]
        by_cases hk : i.resultKey = k
        · subst hk; rw [hfs]; simp
        · rw [if_neg hk, if_neg hk]; simp
      obtain ⟨h1, h2⟩ := ih (pre ++ [i]) _ hseen b hb
      refine ⟨fun x hx => ?_, fun e => ?_⟩
      · rcases List.mem_cons.1 hx with rfl | hx
        · exact ⟨a, ha⟩
        · exact h1 x hx
      · rw [split, List.mem_append, h2, hfs]
        simp only [List.exists_mem_cons_iff, ha, Except.ok.injEq, exists_eq_left']
        simp only [reduceCtorEq, false_and, exists_false, false_or]
        exact or_assoc.symm

theorem distinct_iff (fs : List QItem) (k : String) :
    (∃ l1 i l2 s, fs = l1 ++ i :: l2 ∧ firstKey l1 i.resultKey = some s ∧ ¬ SameItem i s ∧ i.resultKey = k) ↔
    ∃ i j, [i, j].Sublist fs ∧ i.resultKey = j.resultKey ∧ ¬ SameItem i j ∧ i.resultKey = k := by
  constructor
  · rintro ⟨l1, i, l2, s, rfl, hf, hn, rfl⟩
    obtain ⟨hm, hk⟩ := firstKey_mem hf
    refine ⟨s, i, ?_, hk, fun h => hn h.symm, hk⟩
    have h1 : [s].Sublist l1 := List.singleton_sublist.2 hm
    have h2 : [i].Sublist (i :: l2) := by simp
    exact h1.append h2
  · rintro ⟨i, j, hsub, hk, hn, rfl⟩
    obtain ⟨l1, l2, rfl, h1, h2⟩ := (List.append_sublist_iff (l₁ := [i]) (l₂ := [j])).1 (by simpa using hsub)
    have h1 := List.singleton_sublist.1 h1
    have h2 := List.singleton_sublist.1 h2
    obtain ⟨a, b, rfl⟩ := List.append_of_mem h1
    obtain ⟨c, d, rfl⟩ := List.append_of_mem h2
    cases hf : firstKey a i.resultKey with
    | none =>
      have hfi : firstKey (a ++ i :: b ++ c) j.resultKey = some i := by
        rw [firstKey, List.find?_append, List.find?_append]
        rw [firstKey, hk] at hf
        rw [hf]
        simp [hk]
      exact ⟨a ++ i :: b ++ c, j, d, i, by simp, hfi, fun h => hn h.symm, hk.symm⟩
    | some s =>
      by_cases hs : SameItem i s
      · have hfi : firstKey (a ++ i :: b ++ c) j.resultKey = some s := by
          rw [firstKey, List.find?_append, List.find?_append]
          rw [firstKey, hk] at hf
          rw [hf]
          simp
        exact ⟨a ++ i :: b ++ c, j, d, s, by simp, hfi, fun h => hn (hs.trans h.symm), hk.symm⟩
      · exact ⟨a, i, b ++ (c ++ j :: d), s, by simp, hf, hs, rfl⟩

/-! ### Queries -/

theorem val_exact (g : Graph) (lim : Nat) (q : QNode) : ∀ gn errs, valNode g lim gn q = .ok errs →
    ∀ e, e ∈ errs ↔ Violation g gn q e := by
  induction q using QNode.ind with
  | h fs ord ih =>
    intro gn errs h e
    rw [valNode] at h
    obtain ⟨hall, hmem⟩ := valItems_eq g lim gn fs [] [] (by intro k; rfl) errs h
    rw [hmem]
    constructor
    · rintro (⟨i, hi, a, ha, he⟩ | ⟨l1, i, l2, s, hl, hf, hn, rfl⟩)
      · cases i with
        | field n o al =>
          rw [valItem] at ha
          cases hg : gn.get n with
          | none =>
            rw [hg] at ha
            cases ha
            simp at he
            subst he
            exact .unknownField hi hg
          | some gi =>
            rw [hg] at ha
            cases gi with
            | link gl =>
              cases ha
              simp at he
              subst he
              exact .linkAsField hi hg
            | field gf =>
              exact .options hi hg (fun _ => ⟨gf, rfl⟩) ((valOptions_exact ha e).1 he)
        | link n q o al =>
          rw [valItem] at ha
          cases hg : gn.get n with
          | none =>
            rw [hg] at ha
            cases ha
            simp at he
            subst he
            exact .unknownLink hi hg
          | some gi =>
            rw [hg] at ha
            cases gi with
            | field gf =>
              simp only [bind_ok_iff] at ha
              obtain ⟨a1, h1, r, h2, ha⟩ := ha
              cases r with
              | some ts =>
                simp only [bind_ok_iff] at ha
                obtain ⟨b, h3, ha⟩ := ha
                cases ha
                rcases List.mem_append.1 he with he | he
                · exact .options hi hg (by simp [QItem.isLink]) ((valOptions_exact h1 e).1 he)
                · exact .inRecord hi hg ((assumeRecord_sound h2 ts).1 rfl) ((valRec_exact lim q ts b h3 e).1 he)
              | none =>
                cases ha
                rcases List.mem_append.1 he with he | he
                · exact .options hi hg (by simp [QItem.isLink]) ((valOptions_exact h1 e).1 he)
                · simp at he
                  subst he
                  refine .fieldAsNode hi hg ?_
                  rintro ⟨ts, hts⟩
                  have := (assumeRecord_sound h2 ts).2 hts
                  cases this
            | link gl =>
              simp only at ha
              cases ht : g.node gl.node with
              | none => rw [ht] at ha; cases ha
              | some t =>
                rw [ht] at ha
                simp only [bind_ok_iff] at ha
                obtain ⟨a1, h1, b, h2, ha⟩ := ha
                cases ha
                rcases List.mem_append.1 he with he | he
                · exact .options hi hg (by simp [QItem.isLink]) ((valOptions_exact h1 e).1 he)
                · exact .inLink hi hg ht ((ih n q o al hi t b h2 e).1 he)
      · rw [List.nil_append] at hf
        obtain ⟨i', j', h1, h2, h3, h4⟩ := (distinct_iff fs i.resultKey).1 ⟨l1, i, l2, s, hl, hf, hn, rfl⟩
        rw [← h4]
        exact .distinct h1 h2 h3
    · intro hv
      cases hv with
      | @unknownField _ _ n o a hi hg =>
        refine .inl ⟨_, hi, [.unknownField (nodeLabel gn) n], ?_, by simp⟩
        rw [valItem, hg]
      | @linkAsField _ _ n o a gl hi hg =>
        refine .inl ⟨_, hi, [.linkAsField (nodeLabel gn) n], ?_, by simp⟩
        rw [valItem, hg]
      | @unknownLink _ _ n q' o a hi hg =>
        refine .inl ⟨_, hi, [.unknownLink (nodeLabel gn) n], ?_, by simp⟩
        rw [valItem, hg]
      | @options _ _ i gi _ hi hg hk hv =>
        obtain ⟨b, hb⟩ := hall _ hi
        refine .inl ⟨_, hi, b, hb, ?_⟩
        cases i with
        | field n o a =>
          obtain ⟨gf, rfl⟩ := hk rfl
          have hg : gn.get n = some (.field gf) := hg
          rw [valItem, hg] at hb
          exact (valOptions_exact hb e).2 hv
        | link n q o a =>
          have hg : gn.get n = some gi := hg
          rw [valItem, hg] at hb
          cases gi with
          | field gf =>
            simp only [bind_ok_iff] at hb
            obtain ⟨a1, h1, r, h2, hb⟩ := hb
            have he := (valOptions_exact h1 e).2 hv
            cases r with
            | some ts =>
              simp only [bind_ok_iff] at hb
              obtain ⟨b', h3, hb⟩ := hb
              cases hb
              exact List.mem_append.2 (.inl he)
            | none =>
              cases hb
              exact List.mem_append.2 (.inl he)
          | link gl =>
            simp only at hb
            cases ht : g.node gl.node with
            | none => rw [ht] at hb; cases hb
            | some t =>
              rw [ht] at hb
              simp only [bind_ok_iff] at hb
              obtain ⟨a1, h1, b', h2, hb⟩ := hb
              cases hb
              exact List.mem_append.2 (.inl ((valOptions_exact h1 e).2 hv))
      | @fieldAsNode _ _ n q' o a gf hi hg hr =>
        obtain ⟨b, hb⟩ := hall _ hi
        refine .inl ⟨_, hi, b, hb, ?_⟩
        rw [valItem, hg] at hb
        simp only [bind_ok_iff] at hb
        obtain ⟨a1, h1, r, h2, hb⟩ := hb
        cases r with
        | some ts => exact absurd ⟨ts, (assumeRecord_sound h2 ts).1 rfl⟩ hr
        | none => cases hb; simp
      | @inRecord _ _ n q' o a gf ts _ hi hg hr hv =>
        obtain ⟨b, hb⟩ := hall _ hi
        refine .inl ⟨_, hi, b, hb, ?_⟩
        rw [valItem, hg] at hb
        simp only [bind_ok_iff] at hb
        obtain ⟨a1, h1, r, h2, hb⟩ := hb
        have := (assumeRecord_sound h2 ts).2 hr
        subst this
        simp only [bind_ok_iff] at hb
        obtain ⟨b', h3, hb⟩ := hb
        cases hb
        exact List.mem_append.2 (.inr ((valRec_exact lim q' ts b' h3 e).2 hv))
      | @inLink _ _ n q' o a gl t _ hi hg ht hv =>
        obtain ⟨b, hb⟩ := hall _ hi
        refine .inl ⟨_, hi, b, hb, ?_⟩
        rw [valItem, hg] at hb
        simp only [ht, bind_ok_iff] at hb
        obtain ⟨a1, h1, b', h2, hb⟩ := hb
        cases hb
        exact List.mem_append.2 (.inr ((ih n q' o a hi t b' h2 e).2 hv))
      | @distinct _ _ i j hs hk hn =>
        right
        obtain ⟨l1, i', l2, s, h1, h2, h3, h4⟩ := (distinct_iff fs i.resultKey).2 ⟨i, j, hs, hk, hn, rfl⟩
        exact ⟨l1, i', l2, s, h1, by rw [List.nil_append]; exact h2, h3, by rw [h4]⟩

/-- C24: if `validate` returns, it reports exactly the violations of the query. -/
theorem c24_exact {g : Graph} {lim : Nat} {q : QNode} {errs : List QErr} (h : validate g lim q = .ok errs) (e : QErr) :
    e ∈ errs ↔ Violation g g.root q e :=
  val_exact g lim q g.root errs h e

end Hiku
