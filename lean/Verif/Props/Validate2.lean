import Verif.Props.Validate
import Verif.Props.ValidateGraph
import Verif.Props.Options

/-! # C24, C26: valid queries, and when `validate` returns -/

namespace Hiku

variable {types : List (String × Ty)}

/-! ### The specification, item by item -/

theorem recValidItems_iff {ts : List (String × Ty)} {fs : List QItem} : RecValidItems types ts fs ↔
    (∀ n o a, .field n o a ∈ fs → o = none ∧ ∃ t, dget ts n = some t ∧ ∀ fs, RecordOf types false t fs → fs = []) ∧
    (∀ n q o a, .link n q o a ∈ fs → ∃ t fs, dget ts n = some t ∧ RecordOf types false t fs ∧ RecValid types fs q) := by
  induction fs with
  | nil => simp [RecValidItems]
  | cons i r ih =>
    cases i with
    | field n o a =>
      rw [RecValidItems, ih]
      constructor
      · rintro ⟨h, h1, h2⟩
        refine ⟨fun n' o' a' hm => ?_, fun n' q' o' a' hm => ?_⟩
        · rcases List.mem_cons.1 hm with e | hm
          · cases e; exact h
          · exact h1 _ _ _ hm
        · rcases List.mem_cons.1 hm with e | hm
          · cases e
          · exact h2 _ _ _ _ hm
      · rintro ⟨h1, h2⟩
        exact ⟨h1 _ _ _ List.mem_cons_self, fun _ _ _ hm => h1 _ _ _ (List.mem_cons_of_mem _ hm),
          fun _ _ _ _ hm => h2 _ _ _ _ (List.mem_cons_of_mem _ hm)⟩
    | link n q o a =>
      rw [RecValidItems, ih]
      constructor
      · rintro ⟨h, h1, h2⟩
        refine ⟨fun n' o' a' hm => ?_, fun n' q' o' a' hm => ?_⟩
        · rcases List.mem_cons.1 hm with e | hm
          · cases e
          · exact h1 _ _ _ hm
        · rcases List.mem_cons.1 hm with e | hm
          · cases e; exact h
          · exact h2 _ _ _ _ hm
      · rintro ⟨h1, h2⟩
        exact ⟨h2 _ _ _ _ List.mem_cons_self, fun _ _ _ hm => h1 _ _ _ (List.mem_cons_of_mem _ hm),
          fun _ _ _ _ hm => h2 _ _ _ _ (List.mem_cons_of_mem _ hm)⟩

/-- what `QueryValidItems` says about a link -/
def LinkValid (g : Graph) (gn : GNode) (n : String) (q : QNode) (o : Opts) : Prop :=
  (∃ gl t, gn.get n = some (.link gl) ∧ OptionsOk g.dataTypes gl.options o ∧ g.node gl.node = some t ∧
      QueryValid g t q) ∨
  (∃ gf ts, gn.get n = some (.field gf) ∧ OptionsOk g.dataTypes gf.options o ∧
      FieldRecord g.dataTypes gf.ty ts ∧ RecValid g.dataTypes ts q)

theorem queryValidItems_iff {g : Graph} {gn : GNode} {fs : List QItem} : QueryValidItems g gn fs ↔
    (∀ n o a, .field n o a ∈ fs → ∃ gf, gn.get n = some (.field gf) ∧ OptionsOk g.dataTypes gf.options o) ∧
    (∀ n q o a, .link n q o a ∈ fs → LinkValid g gn n q o) := by
  induction fs with
  | nil => simp [QueryValidItems]
  | cons i r ih =>
    cases i with
    | field n o a =>
      rw [QueryValidItems, ih]
      constructor
      · rintro ⟨h, h1, h2⟩
        refine ⟨fun n' o' a' hm => ?_, fun n' q' o' a' hm => ?_⟩
        · rcases List.mem_cons.1 hm with e | hm
          · cases e; exact h
          · exact h1 _ _ _ hm
        · rcases List.mem_cons.1 hm with e | hm
          · cases e
          · exact h2 _ _ _ _ hm
      · rintro ⟨h1, h2⟩
        exact ⟨h1 _ _ _ List.mem_cons_self, fun _ _ _ hm => h1 _ _ _ (List.mem_cons_of_mem _ hm),
          fun _ _ _ _ hm => h2 _ _ _ _ (List.mem_cons_of_mem _ hm)⟩
    | link n q o a =>
      rw [QueryValidItems, ih]
      constructor
      · rintro ⟨h, h1, h2⟩
        refine ⟨fun n' o' a' hm => ?_, fun n' q' o' a' hm => ?_⟩
        · rcases List.mem_cons.1 hm with e | hm
          · cases e
          · exact h1 _ _ _ hm
        · rcases List.mem_cons.1 hm with e | hm
          · cases e; exact h
          · exact h2 _ _ _ _ hm
      · rintro ⟨h1, h2⟩
        exact ⟨h2 _ _ _ _ List.mem_cons_self, fun _ _ _ hm => h1 _ _ _ (List.mem_cons_of_mem _ hm),
          fun _ _ _ _ hm => h2 _ _ _ _ (List.mem_cons_of_mem _ hm)⟩

/-! ### No violations -/

theorem optionsOk_iff {declared : List GOption} {o : Opts} {node name : String} :
    OptionsOk types declared o ↔ ∀ e, ¬ OptViolation types declared o node name e := by
  constructor
  · intro h e hv
    cases hv with
    | missing hop hn => exact h.given _ hop hn
    | invalid hop _ ht hn => exact hn (h.typed _ hop _ ht)
    | unknown hu =>
      apply hu
      rw [unknownOptions, List.filter_eq_nil_iff]
      intro k hk
      obtain ⟨kv, hkv, rfl⟩ := List.mem_map.1 hk
      obtain ⟨op, hop, he⟩ := h.known kv hkv
      simp
      exact ⟨op, hop, he⟩
  · intro h
    have hg : ∀ op ∈ declared, optionValue o op ≠ .nothing := fun op hop hn => h _ (.missing hop hn)
    refine ⟨hg, ?_, ?_⟩
    · intro op hop t ht
      by_contra hn
      exact h _ (.invalid hop (hg op hop) ht hn)
    · intro kv hkv
      by_contra hn
      apply h _ (.unknown (types := types) (declared := declared) (o := o) (node := node) (name := name) ?_)
      intro he
      rw [unknownOptions, List.filter_eq_nil_iff] at he
      have := he kv.1 (List.mem_map.2 ⟨kv, hkv, rfl⟩)
      simp at this
      exact hn this

theorem recValid_no_violation (q : QNode) : ∀ ts, RecValid types ts q → ∀ e, ¬ RecViolation types ts q e := by
  induction q using QNode.ind with
  | h fs ord ih =>
    intro ts h e hv
    rw [RecValid, recValidItems_iff] at h
    obtain ⟨h1, h2⟩ := h
    cases hv with
    | unknownField hi hn => obtain ⟨_, t, ht, _⟩ := h1 _ _ _ hi; rw [hn] at ht; cases ht
    | options hi hn => obtain ⟨ho, _⟩ := h1 _ _ _ hi; cases ho
    | recordAsField hi hn hr hne =>
      obtain ⟨_, t, ht, hf⟩ := h1 _ _ _ hi
      rw [hn] at ht; cases ht
      exact hne (hf _ hr)
    | notRecord hi hn hr =>
      obtain ⟨t, fs', ht, hr', _⟩ := h2 _ _ _ _ hi
      rw [hn] at ht; cases ht
      exact hr ⟨_, hr'⟩
    | inside hi hn hr hv =>
      obtain ⟨t, fs', ht, hr', hq⟩ := h2 _ _ _ _ hi
      rw [hn] at ht; cases ht
      cases hr.det hr'
      exact ih _ _ _ _ hi _ hq _ hv

theorem FieldRecord.det {ty : Option Ty} {fs fs' : List (String × Ty)} (h : FieldRecord types ty fs)
    (h' : FieldRecord types ty fs') : fs = fs' := by
  obtain ⟨t, rfl, h⟩ := h
  obtain ⟨t', ht, h'⟩ := h'
  cases ht
  exact h.det h'

theorem queryValid_no_violation {g : Graph} (q : QNode) : ∀ gn, QueryValid g gn q → ∀ e, ¬ Violation g gn q e := by
  induction q using QNode.ind with
  | h fs ord ih =>
    intro gn h e hv
    rw [QueryValid, queryValidItems_iff] at h
    obtain ⟨⟨h1, h2⟩, h3⟩ := h
    cases hv with
    | unknownField hi hn => obtain ⟨t, ht, _⟩ := h1 _ _ _ hi; rw [hn] at ht; cases ht
    | linkAsField hi hn => obtain ⟨t, ht, _⟩ := h1 _ _ _ hi; rw [hn] at ht; cases ht
    | unknownLink hi hn =>
      rcases h2 _ _ _ _ hi with ⟨gl, t, hg, _⟩ | ⟨gf, t, hg, _⟩ <;> rw [hn] at hg <;> cases hg
    | @options _ _ i gi _ hi hn hk hv =>
      cases i with
      | field n o a =>
        obtain ⟨gf, hg, ho⟩ := h1 _ _ _ hi
        have hn : gn.get n = some gi := hn
        rw [hn] at hg; cases hg
        exact optionsOk_iff.1 ho _ hv
      | link n q o a =>
        have hn : gn.get n = some gi := hn
        rcases h2 _ _ _ _ hi with ⟨gl, t, hg, ho, _⟩ | ⟨gf, t, hg, ho, _⟩ <;> rw [hn] at hg <;> cases hg
        · exact optionsOk_iff.1 ho _ hv
        · exact optionsOk_iff.1 ho _ hv
    | fieldAsNode hi hn hr =>
      rcases h2 _ _ _ _ hi with ⟨gl, t, hg, ho, _⟩ | ⟨gf, t, hg, ho, hf, _⟩ <;> rw [hn] at hg <;> cases hg
      exact hr ⟨_, hf⟩
    | inRecord hi hn hr hv =>
      rcases h2 _ _ _ _ hi with ⟨gl, t, hg, ho, _⟩ | ⟨gf, t, hg, ho, hf, hq⟩ <;> rw [hn] at hg <;> cases hg
      cases hr.det hf
      exact recValid_no_violation _ _ hq _ hv
    | inLink hi hn ht hv =>
      rcases h2 _ _ _ _ hi with ⟨gl, t, hg, ho, ht', hq⟩ | ⟨gf, t, hg, ho, hf, _⟩ <;> rw [hn] at hg <;> cases hg
      rw [ht] at ht'; cases ht'
      exact ih _ _ _ _ hi _ hq _ hv
    | distinct hs hk hn => exact hn (h3 _ _ hs hk)

/-! ### Nothing reported -/

theorem valRec_valid (lim : Nat) (q : QNode) : ∀ ts errs, valRecNode types lim ts q = .ok errs →
    (∀ e, ¬ RecViolation types ts q e) → RecValid types ts q := by
  induction q using QNode.ind with
  | h fs ord ih =>
    intro ts errs h hno
    rw [valRecNode, valRecItems_eq, bind_ok_iff] at h
    obtain ⟨r, h1, _⟩ := h
    have hall := mapM_all h1
    rw [RecValid, recValidItems_iff]
    refine ⟨fun n o a hi => ?_, fun n q o a hi => ?_⟩
    · cases hn : dget ts n with
      | none => exact absurd (.unknownField hi hn) (hno _)
      | some t =>
        cases o with
        | some o => exact absurd (.options hi hn) (hno _)
        | none =>
          refine ⟨rfl, t, rfl, fun fs' hr => ?_⟩
          by_contra hne
          exact hno _ (.recordAsField hi hn hr hne)
    · obtain ⟨b, hb⟩ := hall _ hi
      rw [valRecItem] at hb
      cases hn : dget ts n with
      | none => rw [hn] at hb; cases hb
      | some t =>
        rw [hn] at hb
        simp only [bind_ok_iff] at hb
        obtain ⟨rr, hr, hb⟩ := hb
        cases rr with
        | none =>
          refine absurd (.notRecord hi hn ?_) (hno (.notRecord n))
          rintro ⟨fs', hf⟩
          have := (assume_some hr fs').2 hf
          cases this
        | some ts' =>
          have hr' := (assume_some hr ts').1 rfl
          exact ⟨t, ts', rfl, hr', ih n q o a hi ts' b hb fun e hv => hno e (.inside hi hn hr' hv)⟩

theorem val_valid (g : Graph) (lim : Nat) (q : QNode) : ∀ gn errs, valNode g lim gn q = .ok errs →
    (∀ e, ¬ Violation g gn q e) → QueryValid g gn q := by
  induction q using QNode.ind with
  | h fs ord ih =>
    intro gn errs h hno
    rw [valNode] at h
    obtain ⟨hall, _⟩ := valItems_eq g lim gn fs [] [] (by intro k; rfl) errs h
    rw [QueryValid, queryValidItems_iff]
    refine ⟨⟨fun n o a hi => ?_, fun n q o a hi => ?_⟩, fun i j hs hk => ?_⟩
    · cases hg : gn.get n with
      | none => exact absurd (.unknownField hi hg) (hno _)
      | some gi =>
        cases gi with
        | link gl => exact absurd (.linkAsField hi hg) (hno _)
        | field gf =>
          exact ⟨gf, rfl, optionsOk_iff.2 fun e hv =>
            hno e (.options (i := .field n o a) hi hg (fun _ => ⟨gf, rfl⟩) hv)⟩
    · obtain ⟨b, hb⟩ := hall _ hi
      rw [valItem] at hb
      cases hg : gn.get n with
      | none => exact absurd (.unknownLink hi hg) (hno _)
      | some gi =>
        have ho : OptionsOk g.dataTypes gi.options o := optionsOk_iff.2 fun e hv =>
          hno e (.options (i := .link n q o a) hi hg (fun h => (by cases h)) hv)
        rw [hg] at hb
        cases gi with
        | field gf =>
          simp only [bind_ok_iff] at hb
          obtain ⟨a1, h1, r, h2, hb⟩ := hb
          cases r with
          | none =>
            refine absurd (.fieldAsNode hi hg ?_) (hno (.fieldAsNode (nodeLabel gn) n))
            rintro ⟨ts, hts⟩
            have := (assumeRecord_sound h2 ts).2 hts
            cases this
          | some ts =>
            simp only [bind_ok_iff] at hb
            obtain ⟨b', h3, hb⟩ := hb
            have hr := (assumeRecord_sound h2 ts).1 rfl
            exact .inr ⟨gf, ts, hg, ho, hr, valRec_valid lim q ts b' h3 fun e hv => hno e (.inRecord hi hg hr hv)⟩
        | link gl =>
          simp only at hb
          cases ht : g.node gl.node with
          | none => rw [ht] at hb; cases hb
          | some t =>
            rw [ht] at hb
            simp only [bind_ok_iff] at hb
            obtain ⟨a1, h1, b', h2, hb⟩ := hb
            exact .inl ⟨gl, t, hg, ho, ht, ih n q o a hi t b' h2 fun e hv => hno e (.inLink hi hg ht hv)⟩
    · by_contra hn
      exact hno _ (.distinct hs hk hn)

/-- C24: if `validate` returns, it returns the empty list if and only if the query is valid. -/
theorem c24_valid {g : Graph} {lim : Nat} {q : QNode} {errs : List QErr} (h : validate g lim q = .ok errs) :
    errs = [] ↔ QueryValid g g.root q := by
  constructor
  · rintro rfl
    exact val_valid g lim q g.root [] h fun e hv => by simpa using (c24_exact h e).2 hv
  · intro hv
    rw [List.eq_nil_iff_forall_not_mem]
    intro e he
    exact queryValid_no_violation q g.root hv e ((c24_exact h e).1 he)

/-! ### C26: `validate` returns -/

theorem assumeTy_returns {rank : String → Nat} {lim : Nat} {ref : Bool → Ty → Except Err (Option (List (String × Ty)))}
    (hr : ∀ n t, dget types n = some t → rank n < lim → ∀ b, ∃ r, ref b t = .ok r) : (t : Ty) →
    (∀ m ∈ t.refs, (dget types m).isSome ∧ rank m < lim) → ∀ b, ∃ r, assumeTy types ref b t = .ok r
  | .optional t, h, b => by
    rw [assumeTy]
    cases b with
    | true => exact ⟨none, rfl⟩
    | false => simpa using assumeTy_returns hr t (fun m hm => h m (by simpa [Ty.refs] using hm)) true
  | .sequence t, h, b => by
    rw [assumeTy]
    cases b with
    | true => exact ⟨none, rfl⟩
    | false => simpa using assumeTy_returns hr t (fun m hm => h m (by simpa [Ty.refs] using hm)) true
  | .record fs', h, b => ⟨some fs', by rw [assumeTy]⟩
  | .ref n, h, b => by
    rw [assumeTy]
    obtain ⟨h1, h2⟩ := h n (by simp [Ty.refs])
    obtain ⟨t, ht⟩ := Option.isSome_iff_exists.1 h1
    rw [ht]
    exact hr n t ht h2 b
  | .any, h, b | .boolean, h, b | .string, h, b | .integer, h, b
  | .float, h, b | .mapping .., h, b | .callable .., h, b => ⟨none, by simp [assumeTy]⟩

theorem assumeLim_returns {rank : String → Nat} (hT : TypesOk types rank) (lim : Nat) : ∀ t : Ty,
    (∀ m ∈ t.refs, (dget types m).isSome ∧ rank m < lim) → ∀ b, ∃ r, assumeLim types lim b t = .ok r := by
  induction lim with
  | zero => exact fun t h => assumeTy_returns (lim := 0) (fun n t _ h => absurd h (Nat.not_lt_zero _)) t h
  | succ k ih =>
    refine fun t h => assumeTy_returns (lim := k + 1) (fun n t ht hn b => ?_) t h
    refine ih t (fun m hm => ?_) b
    obtain ⟨h1, h2⟩ := hT.exists_ n t ht m hm
    exact ⟨h1, by omega⟩

/-- all types named inside of the type exist, and naming is not too deep -/
def RefsOk (types : List (String × Ty)) (rank : String → Nat) (lim : Nat) (t : Ty) : Prop :=
  ∀ m ∈ t.refs, (dget types m).isSome ∧ rank m < lim

theorem refsFields_mem {fs : List (String × Ty)} {n : String} {t : Ty} (h : (n, t) ∈ fs) :
    ∀ m ∈ t.refs, m ∈ refsFields fs := by
  induction fs with
  | nil => cases h
  | cons f r ih =>
    intro m hm
    rw [refsFields, List.mem_append]
    rcases List.mem_cons.1 h with rfl | h
    · exact .inl hm
    · exact .inr (ih h m hm)

theorem RecordOf.refs {rank : String → Nat} {lim : Nat} (hT : TypesOk types rank) {b : Bool} {t : Ty} {fs : List (String × Ty)}
    (h : RecordOf types b t fs) : RefsOk types rank lim t → ∀ n t', dget fs n = some t' → RefsOk types rank lim t' := by
  induction h with
  | record => exact fun hr n t' hn m hm => hr m (by rw [Ty.refs]; exact refsFields_mem (dget_mem hn) m hm)
  | optional _ ih => exact fun hr => ih fun m hm => hr m (by simpa [Ty.refs] using hm)
  | sequence _ ih => exact fun hr => ih fun m hm => hr m (by simpa [Ty.refs] using hm)
  | named hn _ ih =>
    intro hr
    refine ih fun m hm => ?_
    obtain ⟨h1, h2⟩ := hT.exists_ _ _ hn m hm
    obtain ⟨_, h3⟩ := hr _ (by simp [Ty.refs]; rfl)
    exact ⟨h1, by omega⟩

theorem mapM_returns {α β : Type} {f : α → Except Err β} {l : List α} (h : ∀ x ∈ l, ∃ a, f x = .ok a) :
    ∃ r, l.mapM f = .ok r := by
  induction l with
  | nil => exact ⟨[], rfl⟩
  | cons x r ih =>
    obtain ⟨a, ha⟩ := h x List.mem_cons_self
    obtain ⟨b, hb⟩ := ih fun y hy => h y (List.mem_cons_of_mem _ hy)
    exact ⟨a :: b, by rw [List.mapM_cons, ha, ok_bind', hb]; rfl⟩

theorem recLinksExistItems_iff {ts : List (String × Ty)} {fs : List QItem} : RecLinksExistItems types ts fs ↔
    ∀ n q o a, .link n q o a ∈ fs →
      ∃ t, dget ts n = some t ∧ ∀ fs, RecordOf types false t fs → RecLinksExist types fs q := by
  induction fs with
  | nil => simp [RecLinksExistItems]
  | cons i r ih =>
    cases i with
    | field n o a => rw [RecLinksExistItems, ih]; simp
    | link n q o a =>
      rw [RecLinksExistItems, ih]
      constructor
      · rintro ⟨h, h2⟩ n' q' o' a' hm
        rcases List.mem_cons.1 hm with e | hm
        · cases e; exact h
        · exact h2 _ _ _ _ hm
      · intro h2
        exact ⟨h2 _ _ _ _ List.mem_cons_self, fun _ _ _ _ hm => h2 _ _ _ _ (List.mem_cons_of_mem _ hm)⟩

theorem linksInRecordsExistItems_iff {g : Graph} {gn : GNode} {fs : List QItem} : LinksInRecordsExistItems g gn fs ↔
    ∀ n q o a, .link n q o a ∈ fs →
      (∀ gl t, gn.get n = some (.link gl) → g.node gl.node = some t → LinksInRecordsExist g t q) ∧
      (∀ gf ts, gn.get n = some (.field gf) → FieldRecord g.dataTypes gf.ty ts → RecLinksExist g.dataTypes ts q) := by
  induction fs with
  | nil => simp [LinksInRecordsExistItems]
  | cons i r ih =>
    cases i with
    | field n o a => rw [LinksInRecordsExistItems, ih]; simp
    | link n q o a =>
      rw [LinksInRecordsExistItems, ih]
      constructor
      · rintro ⟨h, h2⟩ n' q' o' a' hm
        rcases List.mem_cons.1 hm with e | hm
        · cases e; exact h
        · exact h2 _ _ _ _ hm
      · intro h2
        exact ⟨h2 _ _ _ _ List.mem_cons_self, fun _ _ _ _ hm => h2 _ _ _ _ (List.mem_cons_of_mem _ hm)⟩

theorem valRec_returns {rank : String → Nat} {lim : Nat} (hT : TypesOk types rank) (q : QNode) : ∀ ts,
    (∀ n t, dget ts n = some t → RefsOk types rank lim t) → RecLinksExist types ts q →
    ∃ errs, valRecNode types lim ts q = .ok errs := by
  induction q using QNode.ind with
  | h fs ord ih =>
    intro ts hts hl
    rw [RecLinksExist, recLinksExistItems_iff] at hl
    rw [valRecNode, valRecItems_eq]
    obtain ⟨r, hr⟩ : ∃ r, fs.mapM (valRecItem types lim ts) = .ok r := by
      apply mapM_returns
      intro i hi
      cases i with
      | field n o a =>
        rw [valRecItem]
        cases hn : dget ts n with
        | none => exact ⟨_, rfl⟩
        | some t =>
          simp only
          by_cases ho : o = none
          · subst ho
            rw [if_neg (by simp)]
            obtain ⟨r, hr⟩ := assumeLim_returns hT lim t (hts n t hn) false
            rw [assumeRecord, hr, ok_bind']
            match r with
            | none => exact ⟨_, rfl⟩
            | some [] => exact ⟨_, rfl⟩
            | some (x :: xs) => exact ⟨_, rfl⟩
          · rw [if_pos ho]; exact ⟨_, rfl⟩
      | link n q o a =>
        obtain ⟨t, hn, hq⟩ := hl n q o a hi
        rw [valRecItem, hn]
        obtain ⟨r, hr⟩ := assumeLim_returns hT lim t (hts n t hn) false
        simp only [assumeRecord, hr, ok_bind']
        cases r with
        | none => exact ⟨_, rfl⟩
        | some ts' =>
          have hr' := (assume_some (lim := lim) (t := t) hr ts').1 rfl
          exact ih n q o a hi ts' (fun m t' hm => hr'.refs hT (hts n t hn) m t' hm) (hq ts' hr')
    rw [hr]
    exact ⟨_, rfl⟩

theorem valOptions_returns {rank : String → Nat} {lim : Nat} (hT : TypesOk types rank) {declared : List GOption}
    (hd : ∀ op ∈ declared, ∀ t, op.ty = some t → TyOk types rank lim t) (o : Opts) (node name : String) :
    ∃ errs, valOptions types lim declared o node name = .ok errs := by
  obtain ⟨r, hr⟩ : ∃ r, declared.mapM (valOption types lim (o.getD []) node name) = .ok r := by
    apply mapM_returns
    intro op hop
    simp only [valOption]
    split
    · exact ⟨_, rfl⟩
    · cases ht : op.ty with
      | none => exact ⟨_, rfl⟩
      | some t =>
        simp only
        have := hd op hop t ht
        cases hc : optCheck types lim t ((dget (o.getD []) op.name).getD op.dflt) with
        | ok u => exact ⟨_, rfl⟩
        | error e =>
          cases e with
          | invalid => exact ⟨_, rfl⟩
          | raised e => exact absurd hc (optCheck_noraise hT lim t _ this e)
  rw [valOptions, hr]
  exact ⟨_, rfl⟩

theorem valItems_returns {g : Graph} {lim : Nat} {gn : GNode} {l : List QItem}
    (h : ∀ i ∈ l, ∃ a, valItem g lim gn i = .ok a) : ∀ seen, ∃ errs, valItems g lim gn seen l = .ok errs := by
  induction l with
  | nil => exact fun _ => ⟨[], rfl⟩
  | cons i r ih =>
    intro seen
    have ih := ih fun j hj => h j (List.mem_cons_of_mem _ hj)
    obtain ⟨a, ha⟩ := h i List.mem_cons_self
    rw [valItems]
    cases hd : dget seen i.resultKey with
    | some s =>
      obtain ⟨b, hb⟩ := ih seen
      simp only [ha, hb, ok_bind']
      exact ⟨_, rfl⟩
    | none =>
      obtain ⟨b, hb⟩ := ih (dset seen i.resultKey i)
      simp only [ha, hb, ok_bind']
      exact ⟨_, rfl⟩

theorem val_returns {g : Graph} {rank : String → Nat} {lim : Nat} (hT : GraphTypesOk g rank lim) (q : QNode) :
    ∀ gn, IsNode g gn → LinksInRecordsExist g gn q → ∃ errs, valNode g lim gn q = .ok errs := by
  induction q using QNode.ind with
  | h fs ord ih =>
    intro gn hgn hl
    rw [LinksInRecordsExist, linksInRecordsExistItems_iff] at hl
    rw [valNode]
    refine valItems_returns (fun i hi => ?_) []
    cases i with
    | field n o a =>
      rw [valItem]
      cases hg : gn.get n with
      | none => exact ⟨_, rfl⟩
      | some gi =>
        cases gi with
        | link gl => exact ⟨_, rfl⟩
        | field gf => exact valOptions_returns hT.types (hT.options gn hgn n _ hg) o _ _
    | link n q o a =>
      obtain ⟨hl1, hl2⟩ := hl n q o a hi
      rw [valItem]
      cases hg : gn.get n with
      | none => exact ⟨_, rfl⟩
      | some gi =>
        obtain ⟨a1, ha1⟩ := valOptions_returns hT.types (hT.options gn hgn n _ hg) o (nodeLabel gn) n
        cases gi with
        | field gf =>
          have ha1 : valOptions g.dataTypes lim gf.options o (nodeLabel gn) n = .ok a1 := ha1
          simp only [ha1, ok_bind']
          obtain ⟨r, hr⟩ : ∃ r, assumeRecord g.dataTypes lim gf.ty = .ok r := by
            cases ht : gf.ty with
            | none => exact ⟨none, rfl⟩
            | some t => exact assumeLim_returns hT.types lim t (hT.fields gn hgn n gf hg t ht) false
          simp only [hr, ok_bind']
          cases r with
          | none => exact ⟨_, rfl⟩
          | some ts =>
            have hf := (assumeRecord_sound hr ts).1 rfl
            have hrefs : ∀ m t, dget ts m = some t → RefsOk g.dataTypes rank lim t := by
              obtain ⟨t, ht, hrec⟩ := hf
              exact hrec.refs hT.types (hT.fields gn hgn n gf hg t ht)
            obtain ⟨b, hb⟩ := valRec_returns hT.types q ts hrefs (hl2 gf ts hg hf)
            simp only [hb, ok_bind']
            exact ⟨_, rfl⟩
        | link gl =>
          obtain ⟨t, ht⟩ := hT.links gn hgn n gl hg
          have ha1 : valOptions g.dataTypes lim gl.options o (nodeLabel gn) n = .ok a1 := ha1
          obtain ⟨b, hb⟩ := ih n q o a hi t (.inr ⟨_, ht⟩) (hl1 gl t hg ht)
          simp only [ht, ha1, hb, ok_bind']
          exact ⟨_, rfl⟩

/-- C26, for graphs whose types are well-formed (named types exist, are not recursive and options are not
functions) and for queries which inside of records select inside of existing fields only.  Missing: the other
queries, for which the claim does not hold, see `c26_unknown_link`, `c26_dangling_type`,
`c26_recursive_type` and `c26_callable`. -/
theorem c26_partial {g : Graph} {rank : String → Nat} {lim : Nat} (hT : GraphTypesOk g rank lim) {q : QNode}
    (hq : LinksInRecordsExist g g.root q) : ∃ errs, validate g lim q = .ok errs :=
  val_returns hT q g.root (.inl rfl) hq

/-- The same for all queries of graphs without records: no condition on the query. -/
theorem c26_no_records {g : Graph} {rank : String → Nat} {lim : Nat} (hT : GraphTypesOk g rank lim)
    (hr : ∀ gn, IsNode g gn → ∀ n gf, gn.get n = some (.field gf) → ¬ ∃ ts, FieldRecord g.dataTypes gf.ty ts)
    (q : QNode) : ∃ errs, validate g lim q = .ok errs := by
  apply c26_partial hT
  suffices h : ∀ (q : QNode) gn, IsNode g gn → LinksInRecordsExist g gn q from h q _ (.inl rfl)
  intro q
  induction q using QNode.ind with
  | h fs ord ih =>
    intro gn hgn
    rw [LinksInRecordsExist, linksInRecordsExistItems_iff]
    intro n q o a hi
    exact ⟨fun gl t _ ht => ih n q o a hi t (.inr ⟨_, ht⟩), fun gf ts hg hf => absurd ⟨ts, hf⟩ (hr gn hgn n gf hg)⟩

theorem recValid_linksExist (q : QNode) : ∀ ts, RecValid types ts q → RecLinksExist types ts q := by
  induction q using QNode.ind with
  | h fs ord ih =>
    intro ts h
    rw [RecValid, recValidItems_iff] at h
    rw [RecLinksExist, recLinksExistItems_iff]
    intro n q o a hi
    obtain ⟨t, fs', ht, hr, hq⟩ := h.2 n q o a hi
    exact ⟨t, ht, fun fs'' hr' => hr.det hr' ▸ ih n q o a hi fs' hq⟩

theorem queryValid_linksExist {g : Graph} (q : QNode) : ∀ gn, QueryValid g gn q → LinksInRecordsExist g gn q := by
  induction q using QNode.ind with
  | h fs ord ih =>
    intro gn h
    rw [QueryValid, queryValidItems_iff] at h
    rw [LinksInRecordsExist, linksInRecordsExistItems_iff]
    intro n q o a hi
    rcases h.1.2 n q o a hi with ⟨gl, t, hg, _, ht, hq⟩ | ⟨gf, ts, hg, _, hf, hq⟩
    · refine ⟨fun gl' t' hg' ht' => ?_, fun gf' ts' hg' _ => ?_⟩ <;> rw [hg] at hg' <;> cases hg'
      rw [ht] at ht'; cases ht'
      exact ih n q o a hi t hq
    · refine ⟨fun gl' t' hg' ht' => ?_, fun gf' ts' hg' hf' => ?_⟩ <;> rw [hg] at hg' <;> cases hg'
      cases hf.det hf'
      exact recValid_linksExist q ts hq

/-- C24: on graphs whose types are well-formed, `validate` returns the empty list if and only if the query is
valid. -/
theorem c24_accepts {g : Graph} {rank : String → Nat} {lim : Nat} (hT : GraphTypesOk g rank lim) (q : QNode) :
    validate g lim q = .ok [] ↔ QueryValid g g.root q := by
  constructor
  · intro h
    exact (c24_valid h).1 rfl
  · intro h
    obtain ⟨errs, he⟩ := c26_partial hT (queryValid_linksExist q g.root h)
    rw [he, (c24_valid he).2 h]

/-! ### Examples -/

/-- a graph with a link, a field with a record and options -/
def exValItems : List RawNode :=
  [.node none [
     .item (.link { name := "xs", node := "X", typeEnum := .many, requires := none, func := { id := 1 },
                    options := [{ name := "limit", ty := some .integer, dflt := .int 10 }] }) true],
   .node (some "X") [
     .item (.field { name := "a", ty := none, func := .plain { id := 2 }, options := [] }) true,
     .item (.field { name := "pt", ty := some (.ref "Point"), func := .plain { id := 2 }, options := [] }) true]]
def exValTypes : List (String × Ty) := [("Point", .record [("x", .integer), ("y", .integer)])]
def exValGraph : Graph := { items := rawItems exValItems, dataTypes := exValTypes }

/-- `Graph()` accepts it -/
example : mkGraph exValItems exValTypes = .ok exValGraph := rfl

/-- `{ xs(limit: 5) { a pt { x } } }` is valid, hence meets the hypotheses of `c24_valid` -/
def exValQuery : QNode :=
  .mk [.link "xs" (.mk [.field "a" none none, .link "pt" (.mk [.field "x" none none] false) none none] false)
    (some [("limit", .int 5)]) none] false
example : validate exValGraph 1 exValQuery = .ok [] := rfl
example : QueryValid exValGraph exValGraph.root exValQuery := (c24_valid (lim := 1) (errs := []) rfl).1 rfl

/-- `{ xs(limit: "5", skip: 1) { a b } a: xs { pt } xs { pt { z x(k: 1) } a { x } } }`: all of its violations -/
example : validate exValGraph 1 (.mk [
    .link "xs" (.mk [.field "a" none none, .field "b" none none] false) (some [("limit", .str "5"), ("skip", .int 1)]) none,
    .link "xs" (.mk [.field "pt" none none] false) none (some "a"),
    .link "xs" (.mk [.link "pt" (.mk [.field "z" none none, .field "x" (some [("k", .int 1)]) none] false) none none,
      .link "a" (.mk [.field "x" none none] false) none none] false) none none] false) =
  .ok [.invalidOption "root" "xs" "limit", .unknownOptions "root" "xs" ["skip"], .unknownField "X" "b",
    .distinctFields "root" "xs", .unknownRecordField "z", .optionsNotExpected, .fieldAsNode "X" "a"] := rfl

theorem exVal_node {gn : GNode} (h : IsNode exValGraph gn) :
    gn = exValGraph.root ∨ gn = { name := some "X", fields := rawFields [
     .item (.field { name := "a", ty := none, func := .plain { id := 2 }, options := [] }) true,
     .item (.field { name := "pt", ty := some (.ref "Point"), func := .plain { id := 2 }, options := [] }) true] } := by
  rcases h with rfl | ⟨s, h⟩
  · exact .inl rfl
  · have h := dget_mem h
    change (s, gn) ∈ [("X", _)] at h
    simp at h
    exact .inr h.2

/-- the hypotheses of `c26_partial` are met -/
theorem exValTypesOk : GraphTypesOk exValGraph (fun _ => 0) 1 where
  types := by
    refine ⟨fun n t h => ?_, fun n t h => ?_⟩ <;>
    · have h := dget_mem h
      simp [exValGraph, exValTypes] at h
      obtain ⟨rfl, rfl⟩ := h
      simp [Ty.refs, refsFields, Ty.noCallable, noCallableFields]
  fields := by
    intro gn hgn n gf hg t ht m hm
    rcases exVal_node hgn with rfl | rfl
    · have hg := dget_mem hg
      change (n, GItem.field gf) ∈ [("xs", .link _)] at hg
      simp at hg
    · have hg := dget_mem hg
      change (n, GItem.field gf) ∈ [("a", .field _), ("pt", .field _)] at hg
      simp at hg
      rcases hg with ⟨rfl, rfl⟩ | ⟨rfl, rfl⟩
      · cases ht
      · cases ht
        simp [Ty.refs] at hm
        subst hm
        exact ⟨rfl, by decide⟩
  options := by
    intro gn hgn n gi hg op hop t ht
    rcases exVal_node hgn with rfl | rfl
    · have hg := dget_mem hg
      change (n, gi) ∈ [("xs", .link _)] at hg
      simp at hg
      obtain ⟨rfl, rfl⟩ := hg
      simp [GItem.options] at hop
      subst hop
      cases ht
      exact ⟨trivial, by simp [Ty.refs]⟩
    · have hg := dget_mem hg
      change (n, gi) ∈ [("a", .field _), ("pt", .field _)] at hg
      simp at hg
      rcases hg with ⟨rfl, rfl⟩ | ⟨rfl, rfl⟩ <;> simp [GItem.options] at hop
  links := by
    intro gn hgn n gl hg
    rcases exVal_node hgn with rfl | rfl
    · have hg := dget_mem hg
      change (n, GItem.link gl) ∈ [("xs", .link _)] at hg
      simp at hg
      obtain ⟨rfl, rfl⟩ := hg
      exact ⟨_, rfl⟩
    · have hg := dget_mem hg
      change (n, GItem.link gl) ∈ [("a", .field _), ("pt", .field _)] at hg
      simp at hg

/-- Finding: `{ xs { pt { z { x } } } }`, a selection inside of an unknown field of a record, makes `validate`
raise KeyError (`_RecordFieldsValidator.visit_link`, validate/query.py:235-236) instead of reporting it. -/
theorem c26_unknown_link : validate exValGraph 1 (.mk [.link "xs" (.mk [.link "pt" (.mk [
    .link "z" (.mk [.field "x" none none] false) none none] false) none none] false) none none] false) =
  .error .keyError := rfl

/-- a graph with the field `f` of the given type and with the given options -/
def exOneField (ty : Option Ty) (options : List GOption) : List RawNode :=
  [.node none [.item (.field { name := "f", ty := ty, func := .plain { id := 1 }, options := options }) true]]
def exOneGraph (ty : Option Ty) (options : List GOption) (types : List (String × Ty)) : Graph :=
  { items := rawItems (exOneField ty options), dataTypes := types }

/-- `Graph()` accepts such graphs -/
theorem exOne_accepted (ty : Option Ty) (options : List GOption) (types : List (String × Ty)) :
    mkGraph (exOneField ty options) types = .ok (exOneGraph ty options types) := rfl

/-- Finding: a selection inside of a field whose type names a missing type raises KeyError. -/
theorem c26_dangling_type (lim : Nat) : validate (exOneGraph (some (.ref "T")) [] []) lim
    (.mk [.link "f" (.mk [.field "x" none none] false) none none] false) = .error .keyError := by
  cases lim <;> rfl

theorem assume_loop (lim : Nat) (b : Bool) :
    assumeLim [("T", .ref "T")] lim b (.ref "T") = .error .recursionError := by
  induction lim with
  | zero => rfl
  | succ n ih => exact ih

/-- Finding: a named type which is itself makes the validation run out of stack. -/
theorem c26_recursive_type (lim : Nat) : validate (exOneGraph (some (.ref "T")) [] [("T", .ref "T")]) lim
    (.mk [.link "f" (.mk [.field "x" none none] false) none none] false) = .error .recursionError := by
  have h := assume_loop lim false
  have hg : (exOneGraph (some (.ref "T")) [] [("T", .ref "T")]).root.get "f" =
    some (.field { name := "f", ty := some (.ref "T"), func := .plain { id := 1 }, options := [] }) := rfl
  simp only [validate, valNode, valItems, valItem, hg]
  simp only [exOneGraph, assumeRecord, h]
  rfl

/-- Finding: an option declared with a function type makes `validate` raise AttributeError. -/
theorem c26_callable (lim : Nat) : validate (exOneGraph none [{ name := "o", ty := some (.callable []) }] []) lim
    (.mk [.field "f" (some [("o", .int 1)]) none] false) = .error .attributeError := by
  cases lim <;> rfl

end Hiku
