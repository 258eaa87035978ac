import Verif.Props.Validate2

/-! # C26: exactly when `validate` raises -/

namespace Hiku

variable {types : List (String × Ty)}

theorem recStray_iff (q : QNode) : ∀ ts, RecStray types ts q ↔ ¬ RecLinksExist types ts q := by
  induction q using QNode.ind with
  | h fs ord ih =>
    intro ts
    rw [RecLinksExist, recLinksExistItems_iff]
    constructor
    · intro h hl
      cases h with
      | here hi hn => obtain ⟨t, ht, _⟩ := hl _ _ _ _ hi; rw [hn] at ht; cases ht
      | inside hi hn hr hs =>
        obtain ⟨t, ht, hq⟩ := hl _ _ _ _ hi
        rw [hn] at ht; cases ht
        exact (ih _ _ _ _ hi _).1 hs (hq _ hr)
    · intro h
      by_contra hs
      refine h fun n q o a hi => ?_
      cases hn : dget ts n with
      | none => exact absurd (.here (q := .mk fs ord) hi hn) hs
      | some t =>
        refine ⟨t, rfl, fun fs' hr => ?_⟩
        by_contra hq
        exact hs (.inside (q := .mk fs ord) hi hn hr ((ih _ _ _ _ hi _).2 hq))

theorem stray_iff {g : Graph} (q : QNode) : ∀ gn, Stray g gn q ↔ ¬ LinksInRecordsExist g gn q := by
  induction q using QNode.ind with
  | h fs ord ih =>
    intro gn
    rw [LinksInRecordsExist, linksInRecordsExistItems_iff]
    constructor
    · intro h hl
      cases h with
      | inRecord hi hn hr hs => exact (recStray_iff _ _).1 hs ((hl _ _ _ _ hi).2 _ _ hn hr)
      | inLink hi hn ht hs => exact (ih _ _ _ _ hi _).1 hs ((hl _ _ _ _ hi).1 _ _ hn ht)
    · intro h
      by_contra hs
      refine h fun n q o a hi => ⟨fun gl t hn ht => ?_, fun gf ts hn hr => ?_⟩
      · by_contra hq
        exact hs (.inLink (q := .mk fs ord) hi hn ht ((ih _ _ _ _ hi _).2 hq))
      · by_contra hq
        exact hs (.inRecord (q := .mk fs ord) hi hn hr ((recStray_iff _ _).2 hq))

/-! ### A stray selection is met -/

theorem valRec_ok_links (lim : Nat) (q : QNode) : ∀ ts errs, valRecNode types lim ts q = .ok errs →
    RecLinksExist types ts q := by
  induction q using QNode.ind with
  | h fs ord ih =>
    intro ts errs h
    rw [valRecNode, valRecItems_eq, bind_ok_iff] at h
    obtain ⟨r, h1, _⟩ := h
    have hall := mapM_all h1
    rw [RecLinksExist, recLinksExistItems_iff]
    intro n q o a hi
    obtain ⟨b, hb⟩ := hall _ hi
    rw [valRecItem] at hb
    cases hn : dget ts n with
    | none => rw [hn] at hb; cases hb
    | some t =>
      rw [hn] at hb
      simp only [bind_ok_iff] at hb
      obtain ⟨rr, hr, hb⟩ := hb
      refine ⟨t, rfl, fun fs' hf => ?_⟩
      cases (assume_some hr fs').2 hf
      exact ih n q o a hi fs' b hb

theorem val_ok_links (g : Graph) (lim : Nat) (q : QNode) : ∀ gn errs, valNode g lim gn q = .ok errs →
    LinksInRecordsExist g gn q := by
  induction q using QNode.ind with
  | h fs ord ih =>
    intro gn errs h
    rw [valNode] at h
    obtain ⟨hall, _⟩ := valItems_eq g lim gn fs [] [] (by intro k; rfl) errs h
    rw [LinksInRecordsExist, linksInRecordsExistItems_iff]
    intro n q o a hi
    obtain ⟨b, hb⟩ := hall _ hi
    rw [valItem] at hb
    refine ⟨fun gl t hg ht => ?_, fun gf ts hg hf => ?_⟩
    · simp only [hg, ht, bind_ok_iff] at hb
      obtain ⟨a1, _, b', h2, _⟩ := hb
      exact ih n q o a hi t b' h2
    · simp only [hg, bind_ok_iff] at hb
      obtain ⟨a1, _, r, hr, hb⟩ := hb
      cases (assumeRecord_sound hr ts).2 hf
      simp only [bind_ok_iff] at hb
      obtain ⟨b', h2, _⟩ := hb
      exact valRec_ok_links lim q ts b' h2

/-! ### Nothing else is raised -/

theorem mapM_error {α β : Type} {f : α → Except Err β} {l : List α} {e : Err} (h : l.mapM f = .error e) :
    ∃ x ∈ l, f x = .error e := by
  induction l with
  | nil => cases h
  | cons x r ih =>
    rw [List.mapM_cons] at h
    cases hx : f x with
    | error e' => rw [hx] at h; cases h; exact ⟨x, List.mem_cons_self, hx⟩
    | ok a =>
      rw [hx, ok_bind'] at h
      cases hr : r.mapM f with
      | error e' =>
        rw [hr] at h; cases h
        obtain ⟨y, hy, h⟩ := ih hr
        exact ⟨y, List.mem_cons_of_mem _ hy, h⟩
      | ok b => rw [hr] at h; cases h

theorem valItems_error {g : Graph} {lim : Nat} {gn : GNode} {l : List QItem} {e : Err} : ∀ {seen},
    valItems g lim gn seen l = .error e → ∃ i ∈ l, valItem g lim gn i = .error e := by
  induction l with
  | nil => intro seen h; cases h
  | cons i r ih =>
    intro seen h
    rw [valItems] at h
    cases hi : valItem g lim gn i with
    | error e' =>
      refine ⟨i, List.mem_cons_self, ?_⟩
      rw [hi] at h
      split at h <;> cases h <;> exact hi
    | ok a =>
      rw [hi] at h
      split at h
      all_goals
        simp only [ok_bind', bind_error_iff] at h
        rcases h with h | ⟨b, _, h⟩
        · obtain ⟨j, hj, h⟩ := ih h
          exact ⟨j, List.mem_cons_of_mem _ hj, h⟩
        · cases h

theorem valRec_error {rank : String → Nat} {lim : Nat} (hT : TypesOk types rank) (q : QNode) : ∀ ts e,
    (∀ n t, dget ts n = some t → RefsOk types rank lim t) → valRecNode types lim ts q = .error e →
    e = .keyError := by
  induction q using QNode.ind with
  | h fs ord ih =>
    intro ts e hts h
    rw [valRecNode, valRecItems_eq, bind_error_iff] at h
    rcases h with h | ⟨_, _, h⟩
    swap
    · cases h
    obtain ⟨i, hi, h⟩ := mapM_error h
    cases i with
    | field n o a =>
      rw [valRecItem] at h
      cases hn : dget ts n with
      | none => rw [hn] at h; cases h
      | some t =>
        rw [hn] at h
        simp only at h
        split at h
        · cases h
        · obtain ⟨r, hr⟩ := assumeLim_returns hT lim t (hts n t hn) false
          rw [assumeRecord, hr, ok_bind'] at h
          split at h <;> cases h
    | link n q o a =>
      rw [valRecItem] at h
      cases hn : dget ts n with
      | none => rw [hn] at h; cases h; rfl
      | some t =>
        rw [hn] at h
        obtain ⟨r, hr⟩ := assumeLim_returns hT lim t (hts n t hn) false
        simp only [assumeRecord, hr, ok_bind'] at h
        cases r with
        | none => cases h
        | some ts' =>
          have hr' := (assume_some (lim := lim) (t := t) hr ts').1 rfl
          exact ih n q o a hi ts' e (fun m t' hm => hr'.refs hT (hts n t hn) m t' hm) h

theorem val_error {g : Graph} {rank : String → Nat} {lim : Nat} (hT : GraphTypesOk g rank lim) (q : QNode) :
    ∀ gn e, IsNode g gn → valNode g lim gn q = .error e → e = .keyError := by
  induction q using QNode.ind with
  | h fs ord ih =>
    intro gn e hgn h
    rw [valNode] at h
    obtain ⟨i, hi, h⟩ := valItems_error h
    cases i with
    | field n o a =>
      rw [valItem] at h
      cases hg : gn.get n with
      | none => rw [hg] at h; cases h
      | some gi =>
        rw [hg] at h
        cases gi with
        | link gl => cases h
        | field gf =>
          obtain ⟨a1, ha1⟩ := valOptions_returns hT.types (hT.options gn hgn n _ hg) o (nodeLabel gn) n
          have h : valOptions g.dataTypes lim (GItem.field gf).options o (nodeLabel gn) n = .error e := h
          rw [ha1] at h; cases h
    | link n q o a =>
      rw [valItem] at h
      cases hg : gn.get n with
      | none => rw [hg] at h; cases h
      | some gi =>
        obtain ⟨a1, ha1⟩ := valOptions_returns hT.types (hT.options gn hgn n _ hg) o (nodeLabel gn) n
        rw [hg] at h
        cases gi with
        | field gf =>
          have ha1 : valOptions g.dataTypes lim gf.options o (nodeLabel gn) n = .ok a1 := ha1
          obtain ⟨r, hr⟩ : ∃ r, assumeRecord g.dataTypes lim gf.ty = .ok r := by
            cases ht : gf.ty with
            | none => exact ⟨none, rfl⟩
            | some t => exact assumeLim_returns hT.types lim t (hT.fields gn hgn n gf hg t ht) false
          simp only [ha1, hr, ok_bind'] at h
          cases r with
          | none => cases h
          | some ts =>
            have hf := (assumeRecord_sound hr ts).1 rfl
            have hrefs : ∀ m t, dget ts m = some t → RefsOk g.dataTypes rank lim t := by
              obtain ⟨t, ht, hrec⟩ := hf
              exact hrec.refs hT.types (hT.fields gn hgn n gf hg t ht)
            simp only [bind_error_iff] at h
            rcases h with h | ⟨_, _, h⟩
            · exact valRec_error hT.types q ts e hrefs h
            · cases h
        | link gl =>
          obtain ⟨t, ht⟩ := hT.links gn hgn n gl hg
          have ha1 : valOptions g.dataTypes lim gl.options o (nodeLabel gn) n = .ok a1 := ha1
          simp only [ht, ha1, ok_bind', bind_error_iff] at h
          rcases h with h | ⟨_, _, h⟩
          · exact ih n q o a hi t e (.inr ⟨_, ht⟩) h
          · cases h

/-- C26, exactly: on a graph whose types are well-formed, `validate` raises if and only if the query comes to a
selection inside of a field which a record does not have, and then it raises KeyError. -/
theorem c26_exact {g : Graph} {rank : String → Nat} {lim : Nat} (hT : GraphTypesOk g rank lim) (q : QNode) (e : Err) :
    validate g lim q = .error e ↔ e = .keyError ∧ Stray g g.root q := by
  constructor
  · intro h
    refine ⟨val_error hT q g.root e (.inl rfl) h, ?_⟩
    rw [stray_iff]
    intro hl
    obtain ⟨errs, h'⟩ := c26_partial hT hl
    rw [h'] at h; cases h
  · rintro ⟨rfl, hs⟩
    cases hv : validate g lim q with
    | ok errs => exact absurd (val_ok_links g lim q _ _ hv) ((stray_iff _ _).1 hs)
    | error e => rw [val_error hT q g.root e (.inl rfl) hv]

/-- both sides occur: the query of `c26_unknown_link` -/
example : Stray exValGraph exValGraph.root (.mk [.link "xs" (.mk [.link "pt" (.mk [
    .link "z" (.mk [.field "x" none none] false) none none] false) none none] false) none none] false) :=
  ((c26_exact exValTypesOk _ _).1 c26_unknown_link).2

end Hiku
