import Verif.Spec.Validate
import Verif.Proofs.Basic
import Verif.Proofs.Dict

/-! # C25: option values are checked against the declared types exactly -/

namespace Hiku

variable {types : List (String × Ty)}

theorem eachM_ok {ε α : Type} {f : α → Except ε Unit} {l : List α} :
    eachM f l = .ok () ↔ ∀ x ∈ l, f x = .ok () := by
  induction l with
  | nil => simp [eachM]
  | cons a r ih =>
    simp only [eachM, List.forall_mem_cons, ← ih]
    cases f a with
    | error e => simp
    | ok u => simp

theorem eachM_error {ε α : Type} {f : α → Except ε Unit} {l : List α} {e : ε} (h : eachM f l = .error e) :
    ∃ x ∈ l, f x = .error e := by
  induction l with
  | nil => cases h
  | cons a r ih =>
    simp only [eachM] at h
    cases hf : f a with
    | error e' => rw [hf] at h; cases h; exact ⟨a, by simp, hf⟩
    | ok u =>
      rw [hf] at h
      obtain ⟨x, hx, h'⟩ := ih h
      exact ⟨x, by simp [hx], h'⟩

/-- the visit of named types is right as far as it goes -/
def RefSound (types : List (String × Ty)) (ref : Ty → Val → Except OptErr Unit) : Prop :=
  ∀ t v, (ref t v = .ok () → HasType types t v) ∧
    ∀ e, ref t v = .error e → e ≠ .raised .recursionError → ¬ HasType types t v

theorem mem_kvs_all {kvs : List (Val × Val)} {fs : List (String × Ty)} :
    (kvs.all fun kv => fs.any fun f => kv.1 = .str f.1) = true ↔ ∀ kv ∈ kvs, ∃ f ∈ fs, kv.1 = .str f.1 := by
  simp [List.all_eq_true, List.any_eq_true]

theorem mem_fs_all {kvs : List (Val × Val)} {fs : List (String × Ty)} :
    (fs.all fun f => dhas kvs (.str f.1)) = true ↔ ∀ f ∈ fs, (dget kvs (.str f.1)).isSome := by
  simp [List.all_eq_true, dhas]

mutual
theorem optTy_sound {ref : Ty → Val → Except OptErr Unit} (hr : RefSound types ref) : (t : Ty) → ∀ v,
    (optTy types ref t v = .ok () → HasType types t v) ∧
    ∀ e, optTy types ref t v = .error e → e ≠ .raised .recursionError → ¬ HasType types t v
  | .any, v => ⟨fun _ => .any v, fun e h => by simp [optTy] at h⟩
  | .boolean, v => by
    constructor
    · intro h; simp only [optTy] at h; split at h
      · exact .boolean _
      · cases h
    · intro e h _ ht; cases ht; simp [optTy] at h
  | .string, v => by
    constructor
    · intro h; simp only [optTy] at h; split at h
      · exact .string _
      · exact .keyword _
      · exact .symbol _
      · cases h
    · intro e h _ ht; cases ht <;> simp [optTy] at h
  | .integer, v => by
    constructor
    · intro h; simp only [optTy] at h; split at h
      · exact .integer _
      · exact .bool_integer _
      · cases h
    · intro e h _ ht; cases ht <;> simp [optTy] at h
  | .float, v => by
    constructor
    · intro h; simp only [optTy] at h; split at h
      · exact .float _
      · cases h
    · intro e h _ ht; cases ht; simp [optTy] at h
  | .optional t, v => by
    obtain ⟨h1, h2⟩ := optTy_sound hr t v
    by_cases hv : v = .none
    · subst hv
      exact ⟨fun _ => .optional_none t, fun e h => by simp [optTy] at h⟩
    · rw [optTy, if_neg hv]
      refine ⟨fun h => .optional (h1 h), fun e h he ht => ?_⟩
      cases ht with
      | optional_none => exact hv rfl
      | optional ht => exact h2 e h he ht
  | .sequence t, v => by
    rw [optTy]
    cases hs : v.asSeq with
    | none =>
      refine ⟨fun h => (by cases h), fun e _ _ ht => ?_⟩
      cases ht with
      | sequence h _ => rw [hs] at h; cases h
    | some xs =>
      refine ⟨fun h => .sequence hs fun x hx => (optTy_sound hr t x).1 (eachM_ok.1 h x hx), fun e h he ht => ?_⟩
      obtain ⟨x, hx, h'⟩ := eachM_error h
      cases ht with
      | sequence h2 h3 =>
        rw [hs] at h2; cases h2
        exact (optTy_sound hr t x).2 e h' he (h3 x hx)
  | .mapping k t, v => by
    simp only [optTy]
    cases v with
    | map d kvs =>
      constructor
      · intro h
        have h := eachM_ok.1 h
        refine .mapping (fun kv hkv => ?_) (fun kv hkv => ?_)
        · have := h kv hkv
          rw [bind_ok_iff] at this
          obtain ⟨_, h1, _⟩ := this
          exact (optTy_sound hr k kv.1).1 h1
        · have := h kv hkv
          rw [bind_ok_iff] at this
          obtain ⟨_, _, h1⟩ := this
          exact (optTy_sound hr t kv.2).1 h1
      · intro e h he ht
        obtain ⟨kv, hkv, h'⟩ := eachM_error h
        cases ht with
        | mapping h1 h2 =>
          cases hk : optTy types ref k kv.1 with
          | error e' =>
            rw [hk] at h'; cases h'
            exact (optTy_sound hr k kv.1).2 e hk he (h1 kv hkv)
          | ok u =>
            rw [hk] at h'
            exact (optTy_sound hr t kv.2).2 e h' he (h2 kv hkv)
    | atom a => exact ⟨fun h => (by cases h), fun e _ _ ht => (by cases ht)⟩
    | seq k xs => exact ⟨fun h => (by cases h), fun e _ _ ht => (by cases ht)⟩
    | tagged a b => exact ⟨fun h => (by cases h), fun e _ _ ht => (by cases ht)⟩
    | ref a b => exact ⟨fun h => (by cases h), fun e _ _ ht => (by cases ht)⟩
  | .record fs, v => by
    simp only [optTy]
    cases v with
    | map d kvs =>
      simp only
      by_cases h1 : (kvs.all fun kv => fs.any fun f => kv.1 = .str f.1) = true
      · rw [if_pos h1]
        by_cases h2 : (fs.all fun f => dhas kvs (.str f.1)) = true
        · rw [if_pos h2]
          have hf := optFields_sound hr fs kvs (mem_fs_all.1 h2)
          refine ⟨fun h => .record (mem_kvs_all.1 h1) (mem_fs_all.1 h2) (hf.1 h), fun e h he ht => ?_⟩
          cases ht with
          | record _ _ h3 => exact hf.2 e h he h3
        · rw [if_neg h2]
          refine ⟨fun h => (by cases h), fun e _ _ ht => ?_⟩
          cases ht with
          | record _ h3 _ => exact h2 (mem_fs_all.2 h3)
      · rw [if_neg h1]
        refine ⟨fun h => (by cases h), fun e _ _ ht => ?_⟩
        cases ht with
        | record h3 _ _ => exact h1 (mem_kvs_all.2 h3)
    | atom a => exact ⟨fun h => (by cases h), fun e _ _ ht => (by cases ht)⟩
    | seq k xs => exact ⟨fun h => (by cases h), fun e _ _ ht => (by cases ht)⟩
    | tagged a b => exact ⟨fun h => (by cases h), fun e _ _ ht => (by cases ht)⟩
    | ref a b => exact ⟨fun h => (by cases h), fun e _ _ ht => (by cases ht)⟩
  | .callable _, v => ⟨fun h => by simp [optTy] at h, fun e _ _ ht => by cases ht⟩
  | .ref n, v => by
    rw [optTy]
    cases hn : dget types n with
    | none =>
      refine ⟨fun h => (by cases h), fun e _ _ ht => ?_⟩
      cases ht with
      | named h _ => rw [hn] at h; cases h
    | some t =>
      refine ⟨fun h => .named hn ((hr t v).1 h), fun e h he ht => ?_⟩
      cases ht with
      | named h1 h2 =>
        rw [hn] at h1; cases h1
        exact (hr t v).2 e h he h2
theorem optFields_sound {ref : Ty → Val → Except OptErr Unit} (hr : RefSound types ref) : (fs : List (String × Ty)) → ∀ kvs,
    (∀ f ∈ fs, (dget kvs (.str f.1)).isSome) →
    (optFields types ref fs kvs = .ok () → ∀ f ∈ fs, ∀ v, dget kvs (.str f.1) = some v → HasType types f.2 v) ∧
    ∀ e, optFields types ref fs kvs = .error e → e ≠ .raised .recursionError →
      ¬ ∀ f ∈ fs, ∀ v, dget kvs (.str f.1) = some v → HasType types f.2 v
  | [], kvs, _ => ⟨fun _ => by simp, fun e h => by simp [optFields] at h⟩
  | (n, t) :: r, kvs, hs => by
    obtain ⟨v, hv⟩ := Option.isSome_iff_exists.1 (hs (n, t) (by simp))
    have hv' : dget kvs (.str n) = some v := hv
    have ih := optFields_sound hr r kvs fun f hf => hs f (by simp [hf])
    have it := optTy_sound hr t v
    simp only [optFields, hv']
    cases ht : optTy types ref t v with
    | error e =>
      refine ⟨fun h => (by cases h), fun e' h he hall => ?_⟩
      cases h
      exact it.2 e ht he (hall (n, t) (by simp) v hv)
    | ok u =>
      constructor
      · intro h f hf w hw
        rcases List.mem_cons.1 hf with rfl | hf
        · rw [hv] at hw; cases hw; exact it.1 ht
        · exact ih.1 h f hf w hw
      · intro e h he hall
        exact ih.2 e h he fun f hf => hall f (by simp [hf])
end

theorem optCheck_sound (lim : Nat) : RefSound types (optCheck types lim) := by
  induction lim with
  | zero =>
    intro t v
    refine optTy_sound (ref := fun _ _ => .error (.raised .recursionError)) ?_ t v
    intro t v
    exact ⟨fun h => (by cases h), fun e h he => by cases h; exact absurd rfl he⟩
  | succ n ih => exact fun t v => optTy_sound ih t v

theorem list_bound {α : Type} {P : Nat → α → Prop} {l : List α} (h : ∀ x ∈ l, ∃ n, ∀ m, n ≤ m → P m x) :
    ∃ n, ∀ m, n ≤ m → ∀ x ∈ l, P m x := by
  induction l with
  | nil => exact ⟨0, by simp⟩
  | cons a r ih =>
    obtain ⟨n1, h1⟩ := h a (by simp)
    obtain ⟨n2, h2⟩ := ih fun x hx => h x (by simp [hx])
    refine ⟨max n1 n2, fun m hm x hx => ?_⟩
    rcases List.mem_cons.1 hx with rfl | hx
    · exact h1 m (by omega)
    · exact h2 m (by omega) x hx

theorem optCheck_eq (lim : Nat) : ∃ ref, optCheck types lim = optTy types ref ∧
    ∀ l, lim = l + 1 → ref = optCheck types l := by
  cases lim with
  | zero => exact ⟨_, rfl, by simp⟩
  | succ n => exact ⟨_, rfl, by rintro l ⟨⟩; rfl⟩

theorem optFields_ok {ref : Ty → Val → Except OptErr Unit} {fs : List (String × Ty)} {kvs : List (Val × Val)}
    (h : ∀ f ∈ fs, ∃ v, dget kvs (.str f.1) = some v ∧ optTy types ref f.2 v = .ok ()) :
    optFields types ref fs kvs = .ok () := by
  induction fs with
  | nil => simp [optFields]
  | cons f r ih =>
    obtain ⟨n, t⟩ := f
    obtain ⟨v, h1, h2⟩ := h (n, t) (by simp)
    simp only at h1 h2
    simp only [optFields, h1, h2]
    exact ih fun f hf => h f (by simp [hf])

theorem optCheck_complete {t : Ty} {v : Val} (h : HasType types t v) :
    ∃ n, ∀ lim, n ≤ lim → optCheck types lim t v = .ok () := by
  induction h with
  | any v => exact ⟨0, fun lim _ => by cases lim <;> simp [optCheck, optTy]⟩
  | boolean b => exact ⟨0, fun lim _ => by cases lim <;> simp [optCheck, optTy]⟩
  | string b => exact ⟨0, fun lim _ => by cases lim <;> simp [optCheck, optTy]⟩
  | keyword b => exact ⟨0, fun lim _ => by cases lim <;> simp [optCheck, optTy]⟩
  | symbol b => exact ⟨0, fun lim _ => by cases lim <;> simp [optCheck, optTy]⟩
  | integer b => exact ⟨0, fun lim _ => by cases lim <;> simp [optCheck, optTy]⟩
  | bool_integer b => exact ⟨0, fun lim _ => by cases lim <;> simp [optCheck, optTy]⟩
  | float b => exact ⟨0, fun lim _ => by cases lim <;> simp [optCheck, optTy]⟩
  | optional_none t => exact ⟨0, fun lim _ => by cases lim <;> simp [optCheck, optTy]⟩
  | @optional t v _ ih =>
    obtain ⟨n, h⟩ := ih
    refine ⟨n, fun lim hl => ?_⟩
    have := h lim hl
    obtain ⟨ref, e, _⟩ := optCheck_eq (types := types) lim
    rw [e] at this ⊢
    rw [optTy]
    split
    · rfl
    · exact this
  | @sequence t v xs hs _ ih =>
    obtain ⟨n, h⟩ := list_bound (P := fun lim x => optCheck types lim t x = .ok ()) ih
    refine ⟨n, fun lim hl => ?_⟩
    have := h lim hl
    obtain ⟨ref, e, _⟩ := optCheck_eq (types := types) lim
    rw [e] at this ⊢
    rw [optTy, hs]
    exact eachM_ok.2 this
  | @mapping k t d kvs _ _ ih1 ih2 =>
    obtain ⟨n1, h1⟩ := list_bound (P := fun lim (x : Val × Val) => optCheck types lim k x.1 = .ok ()) ih1
    obtain ⟨n2, h2⟩ := list_bound (P := fun lim (x : Val × Val) => optCheck types lim t x.2 = .ok ()) ih2
    refine ⟨max n1 n2, fun lim hl => ?_⟩
    have e1 := h1 lim (by omega)
    have e2 := h2 lim (by omega)
    obtain ⟨ref, e, _⟩ := optCheck_eq (types := types) lim
    rw [e] at e1 e2 ⊢
    rw [optTy]
    refine eachM_ok.2 fun kv hkv => ?_
    rw [e1 kv hkv]
    exact e2 kv hkv
  | @record fs d kvs h1 h2 _ ih =>
    have ih' : ∀ f ∈ fs, ∃ n, ∀ lim, n ≤ lim → ∃ v, dget kvs (.str f.1) = some v ∧ optCheck types lim f.2 v = .ok () := by
      intro f hf
      obtain ⟨v, hv⟩ := Option.isSome_iff_exists.1 (h2 f hf)
      obtain ⟨n, hn⟩ := ih f hf v hv
      exact ⟨n, fun lim hl => ⟨v, hv, hn lim hl⟩⟩
    obtain ⟨n, h⟩ := list_bound (P := fun lim (f : String × Ty) => ∃ v, dget kvs (.str f.1) = some v ∧ optCheck types lim f.2 v = .ok ()) ih'
    refine ⟨n, fun lim hl => ?_⟩
    have := h lim hl
    obtain ⟨ref, e, _⟩ := optCheck_eq (types := types) lim
    rw [e] at this ⊢
    rw [optTy]
    rw [if_pos (mem_kvs_all.2 h1), if_pos (mem_fs_all.2 h2)]
    exact optFields_ok this
  | @named n t v hn _ ih =>
    obtain ⟨m, h⟩ := ih
    refine ⟨m + 1, fun lim hl => ?_⟩
    obtain ⟨l, rfl⟩ : ∃ l, lim = l + 1 := ⟨lim - 1, by omega⟩
    rw [optCheck, optTy, hn]
    exact h l (by omega)

/-- C25: whenever the check of an option value terminates within the recursion limit, the value is accepted if and only
if it is a value of the type; the limit does not matter for values of the type if it is large enough. -/
theorem c25_option_types (types : List (String × Ty)) (t : Ty) (v : Val) :
    (∀ lim, optCheck types lim t v ≠ .error (.raised .recursionError) →
      (optCheck types lim t v = .ok () ↔ HasType types t v)) ∧
    (HasType types t v → ∃ n, ∀ lim, n ≤ lim → optCheck types lim t v = .ok ()) := by
  refine ⟨fun lim hlim => ⟨(optCheck_sound lim t v).1, fun ht => ?_⟩, optCheck_complete⟩
  cases h : optCheck types lim t v with
  | ok u => rfl
  | error e =>
    refine absurd ht ((optCheck_sound lim t v).2 e h ?_)
    rintro rfl
    exact hlim h

/-! ### No exceptions with well-formed types -/

mutual
theorem optTy_noraise {ref : Ty → Val → Except OptErr Unit} : (t : Ty) → ∀ v, t.noCallable →
    (∀ m ∈ t.refs, ∃ t', dget types m = some t' ∧ ∀ v e, ref t' v ≠ .error (.raised e)) →
    ∀ e, optTy types ref t v ≠ .error (.raised e)
  | .any, v, _, _, e => by simp [optTy]
  | .boolean, v, _, _, e => by simp only [optTy]; split <;> simp
  | .string, v, _, _, e => by simp only [optTy]; split <;> simp
  | .integer, v, _, _, e => by simp only [optTy]; split <;> simp
  | .float, v, _, _, e => by simp only [optTy]; split <;> simp
  | .optional t, v, hc, hr, e => by
    rw [optTy]
    split
    · simp
    · exact optTy_noraise t v (by simpa [Ty.noCallable] using hc) (by simpa [Ty.refs] using hr) e
  | .sequence t, v, hc, hr, e => by
    rw [optTy]
    split
    · simp
    · intro h
      obtain ⟨x, _, h⟩ := eachM_error h
      exact optTy_noraise t x (by simpa [Ty.noCallable] using hc) (by simpa [Ty.refs] using hr) e h
  | .mapping k t, v, hc, hr, e => by
    simp only [Ty.noCallable] at hc
    simp only [Ty.refs, List.mem_append] at hr
    simp only [optTy]
    split
    · intro h
      obtain ⟨x, _, h⟩ := eachM_error h
      cases hk : optTy types ref k x.1 with
      | error e' =>
        rw [hk] at h
        cases h
        exact optTy_noraise k x.1 hc.1 (fun m hm => hr m (.inl hm)) e hk
      | ok u =>
        rw [hk] at h
        exact optTy_noraise t x.2 hc.2 (fun m hm => hr m (.inr hm)) e h
    · simp
  | .record fs, v, hc, hr, e => by
    simp only [Ty.noCallable] at hc
    simp only [Ty.refs] at hr
    simp only [optTy]
    split
    · split
      · split
        · rename_i h2
          exact optFields_noraise fs _ hc hr (mem_fs_all.1 h2) e
        · simp
      · simp
    · simp
  | .callable _, v, hc, _, e => by simp [Ty.noCallable] at hc
  | .ref n, v, _, hr, e => by
    obtain ⟨t', h1, h2⟩ := hr n (by simp [Ty.refs])
    rw [optTy, h1]
    exact h2 v e
theorem optFields_noraise {ref : Ty → Val → Except OptErr Unit} : (fs : List (String × Ty)) → ∀ kvs, noCallableFields fs →
    (∀ m ∈ refsFields fs, ∃ t', dget types m = some t' ∧ ∀ v e, ref t' v ≠ .error (.raised e)) →
    (∀ f ∈ fs, (dget kvs (.str f.1)).isSome) → ∀ e, optFields types ref fs kvs ≠ .error (.raised e)
  | [], kvs, _, _, _, e => by simp [optFields]
  | (n, t) :: r, kvs, hc, hr, hs, e => by
    simp only [noCallableFields] at hc
    simp only [refsFields, List.mem_append] at hr
    obtain ⟨v, hv⟩ := Option.isSome_iff_exists.1 (hs (n, t) (by simp))
    have hv : dget kvs (.str n) = some v := hv
    simp only [optFields, hv]
    cases ht : optTy types ref t v with
    | error e' =>
      intro h
      cases h
      exact optTy_noraise t v hc.1 (fun m hm => hr m (.inl hm)) e ht
    | ok u =>
      intro h
      exact optFields_noraise r kvs hc.2 (fun m hm => hr m (.inr hm)) (fun f hf => hs f (by simp [hf])) e h
end

theorem optCheck_noraise {rank : String → Nat} (hok : TypesOk types rank) (lim : Nat) :
    ∀ t v, TyOk types rank lim t → ∀ e, optCheck types lim t v ≠ .error (.raised e) := by
  induction lim with
  | zero =>
    intro t v ht
    refine optTy_noraise t v ht.1 fun m hm => ?_
    exact absurd (ht.2 m hm).2 (by omega)
  | succ n ih =>
    intro t v ht
    refine optTy_noraise t v ht.1 fun m hm => ?_
    obtain ⟨h1, h2⟩ := ht.2 m hm
    obtain ⟨t', h1⟩ := Option.isSome_iff_exists.1 h1
    refine ⟨t', h1, fun v => ih t' v ⟨hok.noCallable m t' h1, fun k hk => ?_⟩⟩
    obtain ⟨h3, h4⟩ := hok.exists_ m t' h1 k hk
    exact ⟨h3, by omega⟩

/-- C25: with named types which exist and are not recursive, option values are always either accepted or
reported, exactly by type. -/
theorem c25_decided {rank : String → Nat} (hok : TypesOk types rank) {lim : Nat} {t : Ty} (ht : TyOk types rank lim t) (v : Val) :
    (optCheck types lim t v = .ok () ∧ HasType types t v) ∨
    (optCheck types lim t v = .error .invalid ∧ ¬ HasType types t v) := by
  cases h : optCheck types lim t v with
  | ok u => exact .inl ⟨rfl, (optCheck_sound lim t v).1 h⟩
  | error e =>
    cases e with
    | invalid => exact .inr ⟨rfl, (optCheck_sound lim t v).2 _ h (by simp)⟩
    | raised e => exact absurd h (optCheck_noraise hok lim t v ht e)

/-! ### Examples -/

def exTypes : List (String × Ty) :=
  [("Point", .record [("x", .integer), ("y", .integer)]), ("Line", .sequence (.ref "Point"))]

theorem exTypes_ok : TypesOk exTypes fun n => if n = "Point" then 0 else 1 where
  exists_ := by
    intro n t h m hm
    have h := dget_mem h
    simp [exTypes] at h
    rcases h with ⟨rfl, rfl⟩ | ⟨rfl, rfl⟩
    · simp [Ty.refs, refsFields] at hm
    · simp [Ty.refs] at hm; subst hm; exact ⟨rfl, by decide⟩
  noCallable := by
    intro n t h
    have h := dget_mem h
    simp [exTypes] at h
    rcases h with ⟨rfl, rfl⟩ | ⟨rfl, rfl⟩ <;> simp [Ty.noCallable, noCallableFields]

/-- the hypotheses of `c25_decided` can be met by nested named types -/
example (v : Val) : (optCheck exTypes 2 (.optional (.ref "Line")) v = .ok () ∧ HasType exTypes (.optional (.ref "Line")) v) ∨
    (optCheck exTypes 2 (.optional (.ref "Line")) v = .error .invalid ∧ ¬ HasType exTypes (.optional (.ref "Line")) v) :=
  c25_decided exTypes_ok ⟨by simp [Ty.noCallable], by
    intro m hm; simp [Ty.refs] at hm; subst hm; exact ⟨rfl, by decide⟩⟩ v

/-- an accepted value and two rejected ones (a missing field and an unknown field) -/
example : optCheck exTypes 2 (.optional (.ref "Line")) (.list [.dict [(.str "y", .int 1), (.str "x", .int 2)]]) = .ok () ∧
    optCheck exTypes 2 (.optional (.ref "Line")) (.list [.dict [(.str "y", .int 1)]]) = .error .invalid ∧
    optCheck exTypes 2 (.ref "Point") (.dict [(.str "y", .int 1), (.str "x", .int 2), (.str "z", .int 2)]) = .error .invalid :=
  ⟨rfl, rfl, rfl⟩

/-- A recursive named sequence type and a string: the check runs into the recursion limit, whatever it is, because a
string is a sequence of strings. -/
theorem c25_recursive_string (lim : Nat) :
    optCheck [("T", .sequence (.ref "T"))] lim (.ref "T") (.str "a") = .error (.raised .recursionError) := by
  induction lim with
  | zero => rfl
  | succ n ih =>
    rw [optCheck, optTy]
    show optCheck _ n (.sequence (.ref "T")) (.str "a") = _
    have hs : (Val.str "a").asSeq = some [.str "a"] := rfl
    cases n with
    | zero =>
      rw [optCheck, optTy, hs]
      simp only [eachM, optTy]
      rfl
    | succ m =>
      rw [optCheck, optTy] at ih
      have ih : optCheck _ m (.sequence (.ref "T")) (.str "a") = _ := ih
      rw [optCheck, optTy, hs]
      simp only [eachM]
      rw [optTy]
      have e : dget [("T", Ty.sequence (.ref "T"))] "T" = some (.sequence (.ref "T")) := rfl
      simp only [e]
      rw [ih]
      rfl

end Hiku
