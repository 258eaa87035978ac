import Verif.Props.ExprTypes

/-! C39: the checker accepts exactly the well-typed expressions -/

namespace Hiku.Expr

variable {types : List (String × Ty)}

/-! ## What is accepted is well-typed -/

theorem checkGet_known {lim : Nat} {h obj e' : Ex} {name : String} {nref : Option Ref} {r : Ref} {fs : List (String × Ty)}
    {res : Ty} (hc : checkGet types lim h obj name nref = .ok e') (hr : obj.ref = some r)
    (hf : Resolves types r.to (.record fs)) (hd : dget fs name = some res) (hg : NoAlias types) :
    ∃ t, Resolves types res t := by
  unfold checkGet at hc
  rw [hr] at hc
  obtain ⟨t, h1, hc⟩ := bind_ok_iff.1 hc
  obtain ⟨_, h2, hc⟩ := bind_ok_iff.1 hc
  have e := (resolves_iff.1 h1).det hf
  subst e
  have := checkType_sub hg _ _ _ h2
  cases this with
  | any _ _ _ _ h => cases h
  | base _ _ c hc h1 h2 => cases h2; simp at hc
  | optional _ _ _ _ _ h => cases h
  | present _ _ _ h => cases h
  | sequence _ _ _ _ _ h => cases h
  | mapping _ _ _ _ _ _ _ h => cases h
  | function _ _ _ _ _ h => cases h
  | record _ _ gs gs' f e1 e2 e3 e4 =>
    cases e2
    cases e1
    have x1 := e3 (name, .any) (by simp)
    have x2 := e4 (name, .any) (by simp)
    simp only at x1 x2
    rw [hd] at x1; cases x1
    cases x2 with
    | any _ _ _ h => exact ⟨_, h⟩
    | base _ _ c hc h1 h2 => exact ⟨_, h1⟩
    | optional _ _ _ _ h _ => exact ⟨_, h⟩
    | present _ _ _ h => cases h
    | sequence _ _ _ _ h _ => exact ⟨_, h⟩
    | mapping _ _ _ _ _ _ h _ => exact ⟨_, h⟩
    | function _ _ _ _ h _ => exact ⟨_, h⟩
    | record _ _ _ _ _ h _ => exact ⟨_, h⟩

/-- the type on the left is known -/
theorem Sub.left {a b : Ty} (h : Sub types a b) : ∃ a', Resolves types a a' := by
  induction h with
  | any _ _ _ h => exact ⟨_, h⟩
  | base _ _ c hc h1 h2 => exact ⟨_, h1⟩
  | optional _ _ _ _ h _ => exact ⟨_, h⟩
  | present _ _ _ _ _ _ ih => exact ih
  | sequence _ _ _ _ h _ => exact ⟨_, h⟩
  | mapping _ _ _ _ _ _ h _ => exact ⟨_, h⟩
  | function _ _ _ _ h _ => exact ⟨_, h⟩
  | record _ _ _ _ _ h _ => exact ⟨_, h⟩

theorem eachRef_known {lim : Nat} {col : Ex} {r r' : Ref} {it : Ty} (hc : eachRef types lim col = .ok r')
    (hr : col.ref = some r) (hs : Resolves types r.to (.sequence it)) (hg : NoAlias types) : ∃ t, Resolves types it t := by
  unfold eachRef at hc
  rw [hr] at hc
  obtain ⟨t, h1, hc⟩ := bind_ok_iff.1 hc
  obtain ⟨_, h2, hc⟩ := bind_ok_iff.1 hc
  have e := (resolves_iff.1 h1).det hs
  subst e
  have := checkType_sub hg _ _ _ h2
  cases this with
  | any _ _ _ _ h => cases h
  | base _ _ c hc h1 h2 => cases h2; simp at hc
  | optional _ _ _ _ _ h => cases h
  | present _ _ _ h => cases h
  | mapping _ _ _ _ _ _ _ h => cases h
  | function _ _ _ _ _ h => cases h
  | record _ _ _ _ _ _ h => cases h
  | sequence _ _ _ _ h1 h2 h3 => cases h1; exact h3.left

theorem someRef_known {e : Ex} {r r' : Ref} (hc : someRef types e = .ok r') (hr : e.ref = some r) :
    Resolves types r.to (.optional r'.to) ∨ r'.to = r.to ∧ ∃ u, Resolves types r.to u ∧ ∀ w, u ≠ .optional w := by
  unfold someRef at hc
  rw [hr] at hc
  obtain ⟨t, h1, hc⟩ := bind_ok_iff.1 hc
  rw [resolves_iff] at h1
  cases t with
  | optional t => cases hc; exact .inl h1
  | _ => cases hc; exact .inr ⟨rfl, _, h1, fun w hw => by cases hw⟩

/-- every second item is a keyword -/
theorem pairs_of_evens {xs : List Ex} (hl : xs.length % 2 = 0) (hk : (evens xs).all Ex.isKw = true) :
    ∃ kvs : List (String × Ex), xs = kvs.flatMap fun kv => [.kw kv.1, kv.2] := by
  induction hn : xs.length using Nat.strongRecOn generalizing xs with
  | _ n ih =>
    match xs, hl, hk with
    | [], _, _ => exact ⟨[], rfl⟩
    | [_], hl, _ => simp at hl
    | k :: v :: r, hl, hk =>
      simp only [evens, List.all_cons, Bool.and_eq_true] at hk
      simp only [List.length_cons] at hl hn
      obtain ⟨kvs, e⟩ := ih r.length (by omega) (xs := r) (by omega) hk.2 rfl
      cases k with
      | kw n => exact ⟨(n, v) :: kvs, by simp [← e]⟩
      | _ => simp [Ex.isKw] at hk

theorem evens_of_pairs (kvs : List (String × Ex)) :
    (kvs.flatMap fun kv => [Ex.kw kv.1, kv.2]).length % 2 = 0 ∧
      (evens (kvs.flatMap fun kv => [Ex.kw kv.1, kv.2])).all Ex.isKw = true := by
  induction kvs with
  | nil => exact ⟨rfl, rfl⟩
  | cons kv r ih =>
    simp only [List.flatMap_cons, List.cons_append, List.nil_append, List.length_cons, evens, List.all_cons, Ex.isKw,
      Bool.true_and]
    exact ⟨by omega, ih.2⟩

theorem AllTy.values {Γ : List (String × Ty)} : ∀ (kvs : List (String × Ex)),
    AllTy types Γ (kvs.flatMap fun kv => [Ex.kw kv.1, kv.2]) → AllTy types Γ (kvs.map (·.2))
  | [], _ => .nil _
  | _ :: r, h => by
    simp only [List.flatMap_cons, List.cons_append, List.nil_append] at h
    cases h with
    | cons _ _ _ _ _ h => cases h with
      | cons _ _ _ _ h1 h2 => exact .cons _ _ _ _ h1 (AllTy.values r h2)

theorem ArgsTy.all {Γ : List (String × Ty)} {es es' : List Ex} {ats : List Ty}
    (h : List.Forall₂ (fun e e' => HasTy types Γ e (e'.ref.map Ref.to)) es es')
    (hs : List.Forall₂ (fun a t => Sub types ((a.ref.map Ref.to).getD .any) t) es' ats) : ArgsTy types Γ es ats := by
  induction h generalizing ats with
  | nil => cases hs; exact .nil _
  | cons h1 _ ih => cases hs with
    | cons a b => exact .cons _ _ _ _ _ _ h1 a (ih b)

theorem AllTy.all {Γ : List (String × Ty)} {es es' : List Ex}
    (h : List.Forall₂ (fun e e' => HasTy types Γ e (e'.ref.map Ref.to)) es es') : AllTy types Γ es := by
  induction h with
  | nil => exact .nil _
  | cons h1 _ ih => exact .cons _ _ _ _ h1 ih

theorem check_typed_all (hg : NoAlias types) (lim : Nat) : ∀ n,
    (∀ e : Ex, sizeOf e ≤ n → ∀ env e', check types lim env e = .ok e' →
      HasTy types (typesOf env) e (e'.ref.map Ref.to)) ∧
    (∀ es : List Ex, sizeOf es ≤ n → ∀ env es', checks types lim env es = .ok es' →
      List.Forall₂ (fun e e' => HasTy types (typesOf env) e (e'.ref.map Ref.to)) es es') := by
  intro n
  induction n with
  | zero =>
    refine ⟨fun e he => ?_, fun es he => ?_⟩
    · cases e <;> simp at he
    · cases es <;> simp at he
  | succ n ih =>
    obtain ⟨ih1, ih2⟩ := ih
    refine ⟨fun e he env e' hc => ?_, fun es he env es' hc => ?_⟩
    · cases e with
      | sym x r =>
        simp only [check] at hc
        cases hd : dget env x with
        | none => rw [hd] at hc; cases hc
        | some r => rw [hd] at hc; cases hc; exact .sym _ _ _ _ (by unfold typesOf; rw [dget_map_to, hd]; rfl)
      | kw => simp only [check] at hc; cases hc; exact .kw _ _
      | const => simp only [check] at hc; cases hc; exact .const _ _
      | list xs =>
        simp only [check] at hc
        obtain ⟨ys, h1, hc⟩ := bind_ok_iff.1 hc
        cases hc
        exact .list _ _ (.all (ih2 xs (by simp at he; omega) env ys h1))
      | dict xs =>
        simp only [check] at hc
        split at hc
        · cases hc
        · rename_i hodd
          split at hc
          · rename_i hkw
            obtain ⟨ys, h1, hc⟩ := bind_ok_iff.1 hc
            cases hc
            obtain ⟨kvs, rfl⟩ := pairs_of_evens (by omega) hkw
            exact .dict _ _ kvs rfl (.values kvs (.all (ih2 _ (by simp at he; omega) env ys h1)))
          · cases hc
      | tup xs r0 =>
        cases xs with
        | nil => simp only [check] at hc; cases hc
        | cons h args =>
          unfold check at hc
          cases hn : h.name with
          | none => rw [hn] at hc; cases hc
          | some nm =>
            rw [hn] at hc
            dsimp only at hc
            by_cases hget : nm = "get"
            · subst hget
              rw [if_pos rfl] at hc
              split at hc
              · rename_i obj f fr
                obtain ⟨obj', h1, hc⟩ := bind_ok_iff.1 hc
                have hc' := hc
                obtain ⟨r, fs, res, h2, h3, h4, rfl⟩ := checkGet_ok hc
                obtain ⟨t, ht⟩ := checkGet_known hc' h2 h3 h4 hg
                have := ih1 obj (by simp at he; omega) _ _ h1
                rw [h2] at this
                exact .get _ _ _ _ _ _ _ fs _ _ hn this h3 h4 ht
              · cases hc
              · cases hc
            · rw [if_neg hget] at hc
              by_cases heach : nm = "each"
              · subst heach
                rw [if_pos rfl] at hc
                split at hc
                · rename_i x xr col body
                  obtain ⟨col', h1, hc⟩ := bind_ok_iff.1 hc
                  obtain ⟨r', h2, hc⟩ := bind_ok_iff.1 hc
                  obtain ⟨body', h3, hc⟩ := bind_ok_iff.1 hc
                  cases hc
                  have h2' := h2
                  obtain ⟨r, it, h4, h5, rfl⟩ := eachRef_ok h2
                  obtain ⟨t, ht⟩ := eachRef_known h2' h4 h5 hg
                  have := ih1 col (by simp at he; omega) _ _ h1
                  rw [h4] at this
                  exact .each _ _ _ _ _ _ _ _ it _ _ hn this h5 ht (ih1 body (by simp at he; omega) _ _ h3)
                · cases hc
                · cases hc
              · rw [if_neg heach] at hc
                by_cases hsome : nm = "if_some"
                · subst hsome
                  rw [if_pos rfl] at hc
                  split at hc
                  · rename_i x xr e a b
                    obtain ⟨e', h1, hc⟩ := bind_ok_iff.1 hc
                    obtain ⟨r', h2, hc⟩ := bind_ok_iff.1 hc
                    obtain ⟨a', h3, hc⟩ := bind_ok_iff.1 hc
                    obtain ⟨b', h4, hc⟩ := bind_ok_iff.1 hc
                    cases hc
                    obtain ⟨r, h5, _⟩ := someRef_ok h2
                    have := ih1 e (by simp at he; omega) _ _ h1
                    rw [h5] at this
                    exact .ifSome _ _ _ _ _ _ _ _ _ r'.to _ _ hn this
                      (someRef_known h2 h5)
                      (ih1 a (by simp at he; omega) _ _ h3) (ih1 b (by simp at he; omega) _ _ h4)
                  · cases hc
                  · cases hc
                · rw [if_neg hsome] at hc
                  obtain ⟨s, h1, hc⟩ := bind_ok_iff.1 hc
                  split at hc
                  · rename_i sn sr
                    obtain ⟨as, h2, hc⟩ := bind_ok_iff.1 hc
                    obtain ⟨ats, h3, hc⟩ := bind_ok_iff.1 hc
                    obtain ⟨_, h4, hc⟩ := bind_ok_iff.1 hc
                    cases hc
                    cases h with
                    | sym f fr =>
                      simp only [Ex.name, Option.some.injEq] at hn
                      subst hn
                      simp only [check] at h1
                      cases hd : dget env f with
                      | none => rw [hd] at h1; cases h1
                      | some r =>
                        rw [hd] at h1
                        cases h1
                        obtain ⟨r', h5, h6⟩ := fnArgs_ok h3
                        cases h5
                        exact .call _ _ _ _ _ _ _ (by simp [special, hget, heach, hsome])
                          (by unfold typesOf; rw [dget_map_to, hd]; rfl) h6
                          (.all (ih2 args (by simp at he; omega) _ _ h2) (checkArgs_ok hg h4))
                    | kw => simp only [check] at h1; cases h1
                    | const => simp only [Ex.name] at hn; cases hn
                    | list => simp only [Ex.name] at hn; cases hn
                    | dict => simp only [Ex.name] at hn; cases hn
                    | tup => simp only [Ex.name] at hn; cases hn
                  · cases hc
    · cases es with
      | nil => simp only [checks] at hc; cases hc; exact .nil
      | cons x xs =>
        simp only [checks] at hc
        obtain ⟨y, h1, hc⟩ := bind_ok_iff.1 hc
        obtain ⟨ys, h2, hc⟩ := bind_ok_iff.1 hc
        cases hc
        exact .cons (ih1 x (by simp at he; omega) _ _ h1) (ih2 xs (by simp at he; omega) _ _ h2)

/-- C39.  An expression which the checker accepts is well-typed: every `get` is applied to a record type which has the
field, every `each` to a sequence type, every call has as many arguments as the function, of compatible types.  (Named
types must not be names of other types, see `c39_alias`.) -/
theorem c39_checked_typed (types vars : List (String × Ty)) (lim : Nat) (e e' : Ex) (hg : NoAlias types)
    (h : check types lim (rootEnv vars) e = .ok e') : ∃ s, HasTy types vars e s := by
  have := (check_typed_all hg lim (sizeOf e)).1 e (Nat.le_refl _) _ _ h
  rw [typesOf_root] at this
  exact ⟨_, this⟩

/-! ## What is well-typed is accepted -/

theorem checkType_resolve (hg : NoAlias types) {a a' : Ty} (h : Resolves types a a') (lim : Nat) (b : Ty) :
    checkType types lim a' b = checkType types lim a b := by
  cases lim with
  | zero => rfl
  | succ lim =>
    simp only [checkType]
    rw [resolves_iff.2 h, resolves_iff.2 (hg.self h)]

/-- a bound for every item of a list -/
theorem bound_all {α : Type} {P : Nat → α → Prop} : ∀ (l : List α), (∀ x ∈ l, ∃ N, ∀ n, N ≤ n → P n x) →
    ∃ N, ∀ n, N ≤ n → ∀ x ∈ l, P n x
  | [], _ => ⟨0, fun _ _ x hx => by simp at hx⟩
  | x :: l, h => by
    obtain ⟨N, hN⟩ := h x (by simp)
    obtain ⟨M, hM⟩ := bound_all l fun y hy => h y (by simp [hy])
    refine ⟨max N M, fun n hn y hy => ?_⟩
    rcases List.mem_cons.1 hy with rfl | hy
    · exact hN n (Nat.le_trans (Nat.le_max_left _ _) hn)
    · exact hM n (Nat.le_trans (Nat.le_max_right _ _) hn) y hy

/-- compatible types are accepted -/
theorem checkType_complete (hg : NoAlias types) {a b : Ty} (h : Sub types a b) :
    ∃ N, ∀ lim, N ≤ lim → checkType types lim a b = .ok () := by
  have step : ∀ {a b a' b' : Ty} {lim N : Nat}, Resolves types a a' → Resolves types b b' → N + 1 ≤ lim →
      ∃ m, lim = m + 1 ∧ N ≤ m ∧ getTypeE types a = .ok a' ∧ getTypeE types b = .ok b' := by
    intro a b a' b' lim N h1 h2 hl
    exact ⟨lim - 1, by omega, by omega, resolves_iff.2 h1, resolves_iff.2 h2⟩
  induction h with
  | any _ _ _ h1 h2 =>
    refine ⟨0 + 1, fun lim hl => ?_⟩
    obtain ⟨m, rfl, _, e1, e2⟩ := step h1 h2 hl
    simp only [checkType, e1, e2, ok_bind']
  | base _ _ c hc h1 h2 =>
    refine ⟨0 + 1, fun lim hl => ?_⟩
    obtain ⟨m, rfl, _, e1, e2⟩ := step h1 h2 hl
    simp only [checkType, e1, e2, ok_bind']
    simp only [List.mem_cons, List.not_mem_nil, or_false] at hc
    rcases hc with rfl | rfl | rfl | rfl <;> rfl
  | optional _ _ _ _ h1 h2 _ ih =>
    obtain ⟨N, hN⟩ := ih
    refine ⟨N + 1, fun lim hl => ?_⟩
    obtain ⟨m, rfl, hm, e1, e2⟩ := step h1 h2 hl
    simp only [checkType, e1, e2, ok_bind']
    exact hN m hm
  | present a b b' h1 h2 hs ih =>
    obtain ⟨N, hN⟩ := ih
    obtain ⟨a', ha⟩ := hs.left
    refine ⟨N + 1, fun lim hl => ?_⟩
    obtain ⟨m, rfl, hm, e1, e2⟩ := step ha h1 hl
    simp only [checkType, e1, e2, ok_bind']
    have := hN m hm
    rw [← checkType_resolve hg ha] at this
    cases a' with
    | optional u => exact absurd ha (h2 u)
    | _ => exact this
  | sequence _ _ _ _ h1 h2 _ ih =>
    obtain ⟨N, hN⟩ := ih
    refine ⟨N + 1, fun lim hl => ?_⟩
    obtain ⟨m, rfl, hm, e1, e2⟩ := step h1 h2 hl
    simp only [checkType, e1, e2, ok_bind']
    exact hN m hm
  | mapping _ _ _ _ _ _ h1 h2 _ _ ih1 ih2 =>
    obtain ⟨N, hN⟩ := ih1
    obtain ⟨M, hM⟩ := ih2
    refine ⟨max N M + 1, fun lim hl => ?_⟩
    obtain ⟨m, rfl, hm, e1, e2⟩ := step h1 h2 hl
    simp only [checkType, e1, e2, ok_bind']
    rw [hN m (Nat.le_trans (Nat.le_max_left _ _) hm), hM m (Nat.le_trans (Nat.le_max_right _ _) hm)]
    rfl
  | record _ _ fs gs f h1 h2 h3 hs ih =>
    obtain ⟨N, hN⟩ := bound_all gs ih
    refine ⟨N + 1, fun lim hl => ?_⟩
    obtain ⟨m, rfl, hm, e1, e2⟩ := step h1 h2 hl
    simp only [checkType, e1, e2, ok_bind']
    refine eachM_ok.2 fun kv hkv => ?_
    obtain ⟨t, ht⟩ := (hs kv hkv).left
    rw [h3 kv hkv]
    simp only [resolves_iff.2 ht, ok_bind']
    rw [checkType_resolve hg ht]
    exact hN m hm kv hkv
  | function _ _ _ _ h1 h2 =>
    refine ⟨0 + 1, fun lim hl => ?_⟩
    obtain ⟨m, rfl, _, e1, e2⟩ := step h1 h2 hl
    simp only [checkType, e1, e2, ok_bind']

/-- the argument is accepted -/
def Fit (types : List (String × Ty)) (lim : Nat) (a : Ex) (t : Ty) : Prop :=
  Sub types ((a.ref.map Ref.to).getD .any) t ∧ checkType types lim ((a.ref.map Ref.to).getD .any) t = .ok ()

theorem checkArgs_fit (hg : NoAlias types) {lim : Nat} {es : List Ex} {ats : List Ty}
    (h : List.Forall₂ (Fit types lim) es ats) : checkArgs types lim es ats = .ok () := by
  unfold checkArgs
  rw [if_pos h.length_eq.symm]
  refine eachM_ok.2 fun x hx => ?_
  obtain ⟨h2, h1⟩ := (List.forall₂_iff_zip.1 h).2 hx
  cases hr : x.1.ref with
  | none => rw [hr] at h1; exact h1
  | some r =>
    rw [hr] at h1 h2
    obtain ⟨t, ht⟩ := h2.left
    have ht' : Resolves types r.to t := ht
    simp only [resolves_iff.2 ht', ok_bind']
    rw [checkType_resolve hg ht']
    exact h1

theorem checkGet_complete (hg : NoAlias types) {lim : Nat} (hl : 2 ≤ lim) (h obj : Ex) (name : String) (nref : Option Ref)
    {t ft ft' : Ty} {fs : List (String × Ty)} (ho : obj.ref.map Ref.to = some t) (hr : Resolves types t (.record fs))
    (hd : dget fs name = some ft) (hf : Resolves types ft ft') :
    ∃ e', checkGet types lim h obj name nref = .ok e' ∧ e'.ref.map Ref.to = some ft := by
  cases hor : obj.ref with
  | none => rw [hor] at ho; simp at ho
  | some r =>
    rw [hor] at ho
    simp only [Option.map_some, Option.some.injEq] at ho
    subst ho
    obtain ⟨m, rfl⟩ : ∃ m, lim = m + 2 := ⟨lim - 2, by omega⟩
    refine ⟨.tup [h, obj, .sym name nref] (some (.named r name ft)), ?_, rfl⟩
    unfold checkGet
    rw [hor]
    have e1 : getTypeE types (.record fs) = .ok (.record fs) := resolves_iff.2 (.itself _ (by simp))
    have e2 : getTypeE types (.record [(name, .any)]) = .ok (.record [(name, .any)]) := resolves_iff.2 (.itself _ (by simp))
    have e3 : getTypeE types .any = .ok .any := resolves_iff.2 (.itself _ (by simp))
    have e4 : getTypeE types ft' = .ok ft' := resolves_iff.2 (hg.self hf)
    have e : checkType types (m + 2) (.record fs) (.record [(name, .any)]) = .ok () := by
      simp only [checkType, e1, e2, ok_bind']
      refine eachM_ok.2 fun kv hkv => ?_
      simp only [List.mem_cons, List.not_mem_nil, or_false] at hkv
      subst hkv
      simp only [hd, resolves_iff.2 hf, ok_bind', checkType, e4, e3]
    simp only [resolves_iff.2 hr, ok_bind', e, hd]

theorem eachRef_complete (hg : NoAlias types) {lim : Nat} (hl : 2 ≤ lim) (col : Ex) {t it it' : Ty}
    (ho : col.ref.map Ref.to = some t) (hr : Resolves types t (.sequence it)) (hi : Resolves types it it') :
    ∃ r', eachRef types lim col = .ok r' ∧ r'.to = it := by
  cases hor : col.ref with
  | none => rw [hor] at ho; simp at ho
  | some r =>
    rw [hor] at ho
    simp only [Option.map_some, Option.some.injEq] at ho
    subst ho
    obtain ⟨m, rfl⟩ : ∃ m, lim = m + 2 := ⟨lim - 2, by omega⟩
    refine ⟨.ref r it, ?_, rfl⟩
    unfold eachRef
    rw [hor]
    have e1 : getTypeE types (.sequence it) = .ok (.sequence it) := resolves_iff.2 (.itself _ (by simp))
    have e2 : getTypeE types (.sequence .any) = .ok (.sequence .any) := resolves_iff.2 (.itself _ (by simp))
    have e3 : getTypeE types .any = .ok .any := resolves_iff.2 (.itself _ (by simp))
    have e : checkType types (m + 2) (.sequence it) (.sequence .any) = .ok () := by
      simp only [checkType, e1, e2, e3, resolves_iff.2 hi, ok_bind']
    simp only [resolves_iff.2 hr, ok_bind', e]

theorem someRef_complete {e : Ex} {t t' : Ty} (ho : e.ref.map Ref.to = some t)
    (h : Resolves types t (.optional t') ∨ t' = t ∧ ∃ u, Resolves types t u ∧ ∀ w, u ≠ .optional w) :
    ∃ r', someRef types e = .ok r' ∧ r'.to = t' := by
  cases hor : e.ref with
  | none => rw [hor] at ho; simp at ho
  | some r =>
    rw [hor] at ho
    simp only [Option.map_some, Option.some.injEq] at ho
    subst ho
    unfold someRef
    rw [hor]
    rcases h with h | ⟨rfl, u, h, hu⟩
    · simp only [resolves_iff.2 h, ok_bind']
      exact ⟨_, rfl, rfl⟩
    · simp only [resolves_iff.2 h, ok_bind']
      cases u with
      | optional w => exact absurd rfl (hu w)
      | _ => exact ⟨_, rfl, rfl⟩

theorem checks_pairs (lim : Nat) (env : List (String × Ref)) : ∀ (kvs : List (String × Ex)) (es' : List Ex),
    checks types lim env (kvs.map (·.2)) = .ok es' →
    ∃ ys, checks types lim env (kvs.flatMap fun kv => [Ex.kw kv.1, kv.2]) = .ok ys
  | [], _, _ => ⟨[], rfl⟩
  | kv :: r, es', h => by
    simp only [List.map_cons, checks] at h
    obtain ⟨a, h1, h⟩ := bind_ok_iff.1 h
    obtain ⟨b, h2, h⟩ := bind_ok_iff.1 h
    obtain ⟨ys, e⟩ := checks_pairs lim env r b h2
    exact ⟨.kw kv.1 :: a :: ys, by
      simp only [List.flatMap_cons, List.cons_append, List.nil_append, checks, check, ok_bind', h1, e]⟩

theorem typesOf_cons (x : String) (r : Ref) (env : List (String × Ref)) :
    typesOf ((x, r) :: env) = (x, r.to) :: typesOf env := rfl

mutual
theorem check_complete (hg : NoAlias types) {Γ : List (String × Ty)} {e : Ex} {s : Option Ty} (h : HasTy types Γ e s) :
    ∃ N, ∀ lim, N ≤ lim → ∀ env, typesOf env = Γ → ∃ e', check types lim env e = .ok e' ∧ e'.ref.map Ref.to = s := by
  match h with
  | .sym _ n r t hd =>
    refine ⟨0, fun lim _ env henv => ?_⟩
    subst henv
    unfold typesOf at hd
    rw [dget_map_to] at hd
    cases hd' : dget env n with
    | none => rw [hd'] at hd; simp at hd
    | some r' =>
      rw [hd'] at hd
      exact ⟨.sym n (some r'), by simp only [check, hd'], by simpa [Ex.ref] using hd⟩
  | .kw _ n => exact ⟨0, fun lim _ env _ => ⟨.kw n, by simp only [check], rfl⟩⟩
  | .const _ v => exact ⟨0, fun lim _ env _ => ⟨.const v, by simp only [check], rfl⟩⟩
  | .list _ xs hx =>
    obtain ⟨N, hN⟩ := checks_complete hg hx
    refine ⟨N, fun lim hl env henv => ?_⟩
    obtain ⟨es', e⟩ := hN lim hl env henv
    exact ⟨.list es', by simp only [check, e, ok_bind'], rfl⟩
  | .dict _ xs kvs hx ha =>
    obtain ⟨N, hN⟩ := checks_complete hg ha
    refine ⟨N, fun lim hl env henv => ?_⟩
    obtain ⟨es', e⟩ := hN lim hl env henv
    obtain ⟨ys, e⟩ := checks_pairs lim env kvs es' e
    subst hx
    obtain ⟨e1, e2⟩ := evens_of_pairs kvs
    refine ⟨.dict ys, ?_, rfl⟩
    simp only [check]
    rw [if_neg (by omega), if_pos e2, e]
    rfl
  | .get _ h obj f fr r t fs ft ft' hn ho hr hd hf =>
    obtain ⟨N, hN⟩ := check_complete hg ho
    refine ⟨max N 2, fun lim hl env henv => ?_⟩
    obtain ⟨o', e1, e2⟩ := hN lim (by omega) env henv
    obtain ⟨e', e3, e4⟩ := checkGet_complete hg (lim := lim) (by omega) h o' f fr e2 hr hd hf
    refine ⟨e', ?_, e4⟩
    unfold check
    simp only [hn]
    rw [if_pos trivial, e1]
    exact e3
  | .each _ h x xr col body r t it it' s hn hc hr hi hb =>
    obtain ⟨N, hN⟩ := check_complete hg hc
    obtain ⟨M, hM⟩ := check_complete hg hb
    refine ⟨max (max N M) 2, fun lim hl env henv => ?_⟩
    obtain ⟨c', e1, e2⟩ := hN lim (by omega) env henv
    obtain ⟨r', e3, e4⟩ := eachRef_complete hg (lim := lim) (by omega) c' e2 hr hi
    obtain ⟨b', e5, _⟩ := hM lim (by omega) ((x, r') :: env) (by rw [typesOf_cons, e4, henv])
    refine ⟨.tup [.sym "each" none, .sym x (some r'), c', b'] none, ?_, rfl⟩
    unfold check
    simp only [hn]
    rw [if_neg (by decide), if_pos trivial, e1]
    simp only [ok_bind', e3, e5]
  | .ifSome _ h x xr e a b r t t' sa sb hn he ht ha hb =>
    obtain ⟨N, hN⟩ := check_complete hg he
    obtain ⟨M, hM⟩ := check_complete hg ha
    obtain ⟨K, hK⟩ := check_complete hg hb
    refine ⟨max (max N M) K, fun lim hl env henv => ?_⟩
    obtain ⟨c', e1, e2⟩ := hN lim (by omega) env henv
    obtain ⟨r', e3, e4⟩ := someRef_complete e2 ht
    obtain ⟨a', e5, _⟩ := hM lim (by omega) ((x, r') :: env) (by rw [typesOf_cons, e4, henv])
    obtain ⟨b', e6, _⟩ := hK lim (by omega) env henv
    refine ⟨.tup [.sym "if_some" none, .list [.sym x (some r'), c'], a', b'] none, ?_, rfl⟩
    unfold check
    simp only [hn]
    rw [if_neg (by decide), if_neg (by decide), if_pos trivial, e1]
    simp only [ok_bind', e3, e5, e6]
  | .call _ f fr args r t ats hsp hd hr ha =>
    obtain ⟨N, hN⟩ := args_complete hg ha
    refine ⟨N, fun lim hl env henv => ?_⟩
    obtain ⟨es', e1, e2⟩ := hN lim hl env henv
    subst henv
    unfold typesOf at hd
    rw [dget_map_to] at hd
    cases hd' : dget env f with
    | none => rw [hd'] at hd; simp at hd
    | some r' =>
      rw [hd'] at hd
      simp only [Option.map_some, Option.some.injEq] at hd
      subst hd
      simp only [special, Bool.or_eq_false_iff, decide_eq_false_iff_not] at hsp
      refine ⟨.tup (.sym f (some r') :: es') none, ?_, rfl⟩
      unfold check
      simp only [Ex.name]
      rw [if_neg hsp.1.1, if_neg hsp.1.2, if_neg hsp.2]
      simp only [check, hd', ok_bind', e1, fnArgs, Ex.ref, resolves_iff.2 hr, checkArgs_fit hg e2]
theorem checks_complete (hg : NoAlias types) {Γ : List (String × Ty)} {es : List Ex} (h : AllTy types Γ es) :
    ∃ N, ∀ lim, N ≤ lim → ∀ env, typesOf env = Γ → ∃ es', checks types lim env es = .ok es' := by
  match h with
  | .nil _ => exact ⟨0, fun _ _ _ _ => ⟨[], rfl⟩⟩
  | .cons _ x s xs hx hxs =>
    obtain ⟨N, hN⟩ := check_complete hg hx
    obtain ⟨M, hM⟩ := checks_complete hg hxs
    refine ⟨max N M, fun lim hl env henv => ?_⟩
    obtain ⟨a, e1, _⟩ := hN lim (by omega) env henv
    obtain ⟨b, e2⟩ := hM lim (by omega) env henv
    exact ⟨a :: b, by simp only [checks, e1, e2, ok_bind']⟩
theorem args_complete (hg : NoAlias types) {Γ : List (String × Ty)} {es : List Ex} {ats : List Ty}
    (h : ArgsTy types Γ es ats) :
    ∃ N, ∀ lim, N ≤ lim → ∀ env, typesOf env = Γ →
      ∃ es', checks types lim env es = .ok es' ∧ List.Forall₂ (Fit types lim) es' ats := by
  match h with
  | .nil _ => exact ⟨0, fun _ _ _ _ => ⟨[], rfl, .nil⟩⟩
  | .cons _ x s xs t ts hx hs hxs =>
    obtain ⟨N, hN⟩ := check_complete hg hx
    obtain ⟨M, hM⟩ := args_complete hg hxs
    obtain ⟨K, hK⟩ := checkType_complete hg hs
    refine ⟨max (max N M) K, fun lim hl env henv => ?_⟩
    obtain ⟨a, e1, e1'⟩ := hN lim (by omega) env henv
    obtain ⟨b, e2, e3⟩ := hM lim (by omega) env henv
    exact ⟨a :: b, by simp only [checks, e1, e2, ok_bind'], .cons ⟨by rw [e1']; exact hs, by rw [e1']; exact hK lim (by omega)⟩ e3⟩
end

/-- C39.  The checker accepts exactly the well-typed expressions: an expression is accepted (when the stack is deep
enough, `lim`) iff it is well-typed. -/
theorem c39_accepts (types vars : List (String × Ty)) (e : Ex) (hg : NoAlias types) :
    (∃ lim e', check types lim (rootEnv vars) e = .ok e') ↔ ∃ s, HasTy types vars e s := by
  constructor
  · rintro ⟨lim, e', h⟩
    exact c39_checked_typed types vars lim e e' hg h
  · rintro ⟨s, h⟩
    obtain ⟨N, hN⟩ := check_complete hg h
    obtain ⟨e', h1, _⟩ := hN N (Nat.le_refl _) (rootEnv vars) (typesOf_root vars)
    exact ⟨N, e', h1⟩

/-- C39.  A well-typed expression is accepted whatever the free depth of the stack is above some depth, and an expression
which is not well-typed is never accepted. -/
theorem c39_decides (types vars : List (String × Ty)) (e : Ex) (hg : NoAlias types) :
    (∀ s, HasTy types vars e s → ∃ N, ∀ lim, N ≤ lim → ∃ e', check types lim (rootEnv vars) e = .ok e') ∧
    ((¬ ∃ s, HasTy types vars e s) → ∀ lim, ∃ err, check types lim (rootEnv vars) e = .error err) := by
  refine ⟨fun s h => ?_, fun h lim => ?_⟩
  · obtain ⟨N, hN⟩ := check_complete hg h
    refine ⟨N, fun lim hl => ?_⟩
    obtain ⟨e', h1, _⟩ := hN lim hl (rootEnv vars) (typesOf_root vars)
    exact ⟨e', h1⟩
  · cases hc : check types lim (rootEnv vars) e with
    | error err => exact ⟨err, rfl⟩
    | ok e' => exact absurd (c39_checked_typed types vars lim e e' hg hc) h

/-! A case: a call with a field of a named type inside a dict is well-typed, so it is accepted; a dict whose keys are not
keywords is not, so it is rejected -/

theorem exTyped : HasTy [("User", .record [("name", .string)])] [("this", .ref "User"), ("f", .callable [.optional .string])]
    (.dict [.kw "a", .tup [.sym "f" none, .tup [.sym "get" none, .sym "this" none, .sym "name" none] none] none]) none :=
  .dict _ _ [("a", .tup [.sym "f" none, .tup [.sym "get" none, .sym "this" none, .sym "name" none] none] none)] rfl
    (.cons _ _ _ _
      (.call _ _ _ _ _ _ [.optional .string] (by decide) rfl (.itself _ (by simp))
        (.cons _ _ _ _ _ _
          (.get _ _ _ _ _ _ _ [("name", .string)] _ _ rfl (.sym _ _ _ _ rfl) (.named _ _ rfl) rfl (.itself _ (by simp)))
          (.present _ _ .string (.itself _ (by simp)) (fun u h => by cases h) (.base _ _ .string (by simp) (.itself _ (by simp)) (.itself _ (by simp))))
          (.nil _)))
      (.nil _))

theorem exTyped_noAlias : NoAlias [("User", .record [("name", .string)])] := by
  intro n t h m e
  subst e
  have := dget_mem h
  simp at this

example : ∃ N, ∀ lim, N ≤ lim → ∃ e', check [("User", .record [("name", .string)])] lim
    (rootEnv [("this", .ref "User"), ("f", .callable [.optional .string])])
    (.dict [.kw "a", .tup [.sym "f" none, .tup [.sym "get" none, .sym "this" none, .sym "name" none] none] none]) = .ok e' :=
  (c39_decides _ _ _ exTyped_noAlias).1 _ exTyped

example : ∀ lim, ∃ err, check [("User", .record [("name", .string)])] lim (rootEnv [("this", .ref "User")])
    (.dict [.const (.str "a"), .sym "this" none]) = .error err := by
  refine (c39_decides _ _ _ exTyped_noAlias).2 ?_
  rintro ⟨s, h⟩
  cases h with
  | dict _ _ kvs h _ => cases kvs <;> simp at h

end Hiku.Expr
