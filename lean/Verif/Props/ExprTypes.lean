import Verif.Spec.ExprTypes
import Verif.Props.Expr
import Verif.Props.Merge
import Verif.Props.Validate2
import Verif.Props.OptionTypes

/-! C38 and C39: checked expressions and their requirements -/

namespace Hiku.Expr

/-! ## Types -/

theorem getTypeE_ok {types : List (String × Ty)} {t t' : Ty} : getTypeE types t = .ok t' ↔ getType types t = some t' := by
  unfold getTypeE
  cases getType types t <;> simp

theorem resolves_iff {types : List (String × Ty)} {t t' : Ty} : getTypeE types t = .ok t' ↔ Resolves types t t' := by
  rw [getTypeE_ok]
  constructor
  · intro h
    cases t with
    | ref n => exact .named n _ h
    | _ => simp only [getType, Option.some.injEq] at h; subst h; exact .itself _ (by intro n h; cases h)
  · intro h
    cases h with
    | named n _ h => exact h
    | itself _ h =>
      cases t with
      | ref n => exact absurd rfl (h n)
      | _ => rfl

theorem Resolves.det {types : List (String × Ty)} {t a b : Ty} (h : Resolves types t a) (h' : Resolves types t b) : a = b := by
  rw [← resolves_iff] at h h'
  rw [h] at h'
  exact Except.ok.inj h'

theorem NoAlias.notRef {types : List (String × Ty)} (hg : NoAlias types) {t t' : Ty} (h : Resolves types t t') :
    ∀ m, t' ≠ .ref m := by
  cases h with
  | named n _ h => exact hg n _ h
  | itself _ h => exact h

theorem NoAlias.self {types : List (String × Ty)} (hg : NoAlias types) {t t' : Ty} (h : Resolves types t t') :
    Resolves types t' t' := .itself _ (hg.notRef h)

theorem NoFnAll_mem : ∀ {fs : List (String × Ty)} {kv : String × Ty}, NoFnAll fs = true → kv ∈ fs → NoFn kv.2 = true
  | (k, t) :: r, kv, h, hm => by
      simp only [NoFnAll, Bool.and_eq_true] at h
      rcases List.mem_cons.1 hm with rfl | hm
      · exact h.1
      · exact NoFnAll_mem h.2 hm

theorem NoFnTypes.noFn {types : List (String × Ty)} (hg : NoFnTypes types) {t t' : Ty} (h : Resolves types t t')
    (hn : NoFn t = true) : NoFn t' = true := by
  cases h with
  | named n _ h => exact hg n _ h
  | itself _ h => exact hn

theorem Sub.resolve {types : List (String × Ty)} (hg : NoAlias types) {a a' b : Ty} (h : Resolves types a a')
    (hs : Sub types a' b) : Sub types a b := by
  have key : ∀ {c : Ty}, Resolves types a' c → Resolves types a c := by
    intro c hc
    rw [← (hg.self h).det hc]; exact h
  induction hs with
  | any _ _ _ h1 hb => exact .any _ _ _ (key h1) hb
  | base _ _ c hc h1 h2 => exact .base _ _ c hc (key h1) h2
  | optional _ x _ y h1 h2 h3 _ => exact .optional _ x _ y (key h1) h2 h3
  | present _ _ y h1 h2 _ ih =>
    refine .present _ _ y h1 (fun u hu => h2 u ?_) (ih h key)
    have := h.det hu; subst this; exact hg.self h
  | sequence _ x _ y h1 h2 h3 _ => exact .sequence _ x _ y (key h1) h2 h3
  | mapping _ _ _ _ _ _ h1 h2 h3 h4 _ _ => exact .mapping _ _ _ _ _ _ (key h1) h2 h3 h4
  | record _ _ fs gs f h1 h2 h3 h4 _ => exact .record _ _ fs gs f (key h1) h2 h3 h4
  | function _ _ xs ys h1 h2 => exact .function _ _ xs ys (key h1) h2

/-- what the checker of types accepts is compatible -/
theorem checkType_sub {types : List (String × Ty)} (hg : NoAlias types) : ∀ (lim : Nat) (t1 t2 : Ty),
    checkType types lim t1 t2 = .ok () → Sub types t1 t2
  | 0, _, _, h => by cases h
  | lim + 1, t1, t2, h => by
      have ih := checkType_sub hg lim
      simp only [checkType] at h
      obtain ⟨a, ha, h⟩ := bind_ok_iff.1 h
      obtain ⟨b, hb, h⟩ := bind_ok_iff.1 h
      rw [resolves_iff] at ha hb
      have hbr := hg.notRef hb
      cases b with
      | any => exact .any _ _ _ ha hb
      | optional b =>
        cases a with
        | optional a => exact .optional _ _ _ _ ha hb (ih _ _ h)
        | _ => exact .present _ _ _ hb (fun u hu => by have := ha.det hu; cases this) ((ih _ _ h).resolve hg ha)
      | sequence b =>
        cases a with
        | sequence a => exact .sequence _ _ _ _ ha hb (ih _ _ h)
        | _ => cases h
      | mapping k v =>
        cases a with
        | mapping k' v' =>
          obtain ⟨_, h1, h2⟩ := bind_ok_iff.1 h
          exact .mapping _ _ _ _ _ _ ha hb (ih _ _ h1) (ih _ _ h2)
        | _ => cases h
      | record gs =>
        cases a with
        | record fs =>
          have h := eachM_ok.1 h
          have h' : ∀ kv ∈ gs, ∃ t, dget fs kv.1 = some t ∧ Sub types t kv.2 := by
            intro kv hkv
            have := h kv hkv
            beta_reduce at this
            cases hd : dget fs kv.1 with
            | none => rw [hd] at this; cases this
            | some t =>
              rw [hd] at this
              obtain ⟨t', h1, h2⟩ := bind_ok_iff.1 this
              exact ⟨t, rfl, (ih _ _ h2).resolve hg (resolves_iff.1 h1)⟩
          refine .record _ _ fs gs (fun k => (dget fs k).getD .any) ha hb (fun kv hkv => ?_) (fun kv hkv => ?_)
          · obtain ⟨t, h1, _⟩ := h' kv hkv
            rw [h1]; rfl
          · obtain ⟨t, h1, h2⟩ := h' kv hkv
            rw [h1]; exact h2
        | _ => cases h
      | boolean => cases a <;> first | exact .base _ _ .boolean (by simp) ha hb | cases h
      | string => cases a <;> first | exact .base _ _ .string (by simp) ha hb | cases h
      | integer => cases a <;> first | exact .base _ _ .integer (by simp) ha hb | cases h
      | float => cases a <;> first | exact .base _ _ .float (by simp) ha hb | cases h
      | callable ys => cases a <;> first | exact .function _ _ _ ys ha hb | cases h
      | ref m => exact absurd rfl (hbr m)

/-! ## C39: typing -/

theorem dget_map_to (env : List (String × Ref)) (x : String) :
    dget (env.map fun v => (v.1, v.2.to)) x = (dget env x).map Ref.to := by
  induction env with
  | nil => rfl
  | cons a env ih =>
    obtain ⟨k, r⟩ := a
    simp only [List.map_cons, dget_cons]
    by_cases h : k = x
    · rw [if_pos h, if_pos h]; rfl
    · rw [if_neg h, if_neg h, ih]

/-- types of the variables -/
def typesOf (env : List (String × Ref)) : List (String × Ty) := env.map fun v => (v.1, v.2.to)

theorem checkGet_ok {types : List (String × Ty)} {lim : Nat} {h obj e' : Ex} {name : String} {nref : Option Ref}
    (hc : checkGet types lim h obj name nref = .ok e') :
    ∃ r fs res, obj.ref = some r ∧ Resolves types r.to (.record fs) ∧ dget fs name = some res ∧
      e' = .tup [h, obj, .sym name nref] (some (.named r name res)) := by
  unfold checkGet at hc
  cases ho : obj.ref with
  | none => rw [ho] at hc; cases hc
  | some r =>
    rw [ho] at hc
    obtain ⟨t, h1, hc⟩ := bind_ok_iff.1 hc
    obtain ⟨_, _, hc⟩ := bind_ok_iff.1 hc
    cases t with
    | record fs =>
      dsimp only at hc
      cases hd : dget fs name with
      | none => rw [hd] at hc; cases hc
      | some res =>
        rw [hd] at hc
        exact ⟨r, fs, res, rfl, resolves_iff.1 h1, hd, (Except.ok.inj hc).symm⟩
    | _ => cases hc

theorem eachRef_ok {types : List (String × Ty)} {lim : Nat} {col : Ex} {r' : Ref}
    (hc : eachRef types lim col = .ok r') :
    ∃ r it, col.ref = some r ∧ Resolves types r.to (.sequence it) ∧ r' = .ref r it := by
  unfold eachRef at hc
  cases ho : col.ref with
  | none => rw [ho] at hc; cases hc
  | some r =>
    rw [ho] at hc
    obtain ⟨t, h1, hc⟩ := bind_ok_iff.1 hc
    obtain ⟨_, _, hc⟩ := bind_ok_iff.1 hc
    cases t with
    | sequence it => exact ⟨r, it, rfl, resolves_iff.1 h1, (Except.ok.inj hc).symm⟩
    | _ => cases hc

theorem someRef_ok {types : List (String × Ty)} {e : Ex} {r' : Ref} (hc : someRef types e = .ok r') :
    ∃ r, e.ref = some r ∧ ((∃ t, Resolves types r.to (.optional t) ∧ r' = .ref r t) ∨
      (r' = r ∧ ∀ u, ¬ Resolves types r.to (.optional u))) := by
  unfold someRef at hc
  cases ho : e.ref with
  | none => rw [ho] at hc; cases hc
  | some r =>
    rw [ho] at hc
    obtain ⟨t, h1, hc⟩ := bind_ok_iff.1 hc
    rw [resolves_iff] at h1
    refine ⟨r, rfl, ?_⟩
    cases t with
    | optional t => exact .inl ⟨t, h1, (Except.ok.inj hc).symm⟩
    | _ => exact .inr ⟨(Except.ok.inj hc).symm, fun u hu => by have := h1.det hu; cases this⟩

theorem fnArgs_ok {types : List (String × Ty)} {s : Ex} {ats : List Ty} (hc : fnArgs types s = .ok ats) :
    ∃ r, s.ref = some r ∧ Resolves types r.to (.callable ats) := by
  unfold fnArgs at hc
  cases ho : s.ref with
  | none => rw [ho] at hc; cases hc
  | some r =>
    rw [ho] at hc
    obtain ⟨t, h1, hc⟩ := bind_ok_iff.1 hc
    cases t with
    | callable as => exact ⟨r, rfl, Except.ok.inj hc ▸ resolves_iff.1 h1⟩
    | _ => cases hc

theorem forall2_zip {α β : Type} {P : α → β → Prop} : ∀ {l : List α} {r : List β}, l.length = r.length →
    (∀ x ∈ l.zip r, P x.1 x.2) → List.Forall₂ P l r
  | [], [], _, _ => .nil
  | [], _ :: _, h, _ => by simp at h
  | _ :: _, [], h, _ => by simp at h
  | a :: l, b :: r, h, hp => .cons (hp (a, b) (by simp))
      (forall2_zip (by simpa using h) fun x hx => hp x (by simp [hx]))

theorem checkArgs_ok {types : List (String × Ty)} (hg : NoAlias types) {lim : Nat} {args : List Ex} {ats : List Ty}
    (hc : checkArgs types lim args ats = .ok ()) :
    List.Forall₂ (fun a t => Sub types ((a.ref.map Ref.to).getD .any) t) args ats := by
  unfold checkArgs at hc
  by_cases hl : ats.length = args.length
  · rw [if_pos hl] at hc
    refine forall2_zip hl.symm fun x hx => ?_
    have := eachM_ok.1 hc x hx
    beta_reduce at this
    cases hr : x.1.ref with
    | none => rw [hr] at this; exact checkType_sub hg _ _ _ this
    | some r =>
      rw [hr] at this
      obtain ⟨t, h1, h2⟩ := bind_ok_iff.1 this
      exact (checkType_sub hg _ _ _ h2).resolve hg (resolves_iff.1 h1)
  · rw [if_neg hl] at hc; cases hc

mutual
/-- the checker as a relation: the expression and the checked one -/
inductive Chk (types : List (String × Ty)) : List (String × Ref) → Ex → Ex → Prop
  | sym (env n r0 r) : dget env n = some r → Chk types env (.sym n r0) (.sym n (some r))
  | kw (env n) : Chk types env (.kw n) (.kw n)
  | const (env v) : Chk types env (.const v) (.const v)
  | list (env xs ys) : ChkAll types env xs ys → Chk types env (.list xs) (.list ys)
  | dict (env xs ys) : ChkAll types env xs ys → Chk types env (.dict xs) (.dict ys)
  | get (env h obj obj' f fr r0 r fs res) : h.name = some "get" → Chk types env obj obj' → obj'.ref = some r →
      Resolves types r.to (.record fs) → dget fs f = some res →
      Chk types env (.tup [h, obj, .sym f fr] r0) (.tup [h, obj', .sym f fr] (some (.named r f res)))
  | each (env h x xr col col' body body' r0 r it) : h.name = some "each" → Chk types env col col' → col'.ref = some r →
      Resolves types r.to (.sequence it) → Chk types ((x, .ref r it) :: env) body body' →
      Chk types env (.tup [h, .sym x xr, col, body] r0)
        (.tup [.sym "each" none, .sym x (some (.ref r it)), col', body'] none)
  | ifSome (env h x xr e e' a a' b b' r0 r r') : h.name = some "if_some" → Chk types env e e' → e'.ref = some r →
      ((∃ t, Resolves types r.to (.optional t) ∧ r' = .ref r t) ∨
        (r' = r ∧ ∀ u, ¬ Resolves types r.to (.optional u))) →
      Chk types ((x, r') :: env) a a' → Chk types env b b' →
      Chk types env (.tup [h, .list [.sym x xr, e], a, b] r0)
        (.tup [.sym "if_some" none, .list [.sym x (some r'), e'], a', b'] none)
  | call (env f fr args args' r0 r ats) : special f = false → dget env f = some r → Resolves types r.to (.callable ats) →
      ChkAll types env args args' →
      List.Forall₂ (fun a t => Sub types ((a.ref.map Ref.to).getD .any) t) args' ats →
      Chk types env (.tup (.sym f fr :: args) r0) (.tup (.sym f (some r) :: args') none)
inductive ChkAll (types : List (String × Ty)) : List (String × Ref) → List Ex → List Ex → Prop
  | nil (env) : ChkAll types env [] []
  | cons (env x y xs ys) : Chk types env x y → ChkAll types env xs ys → ChkAll types env (x :: xs) (y :: ys)
end

theorem check_chk_all {types : List (String × Ty)} (hg : NoAlias types) (lim : Nat) : ∀ n,
    (∀ e : Ex, sizeOf e ≤ n → ∀ env e', check types lim env e = .ok e' → Chk types env e e') ∧
    (∀ es : List Ex, sizeOf es ≤ n → ∀ env es', checks types lim env es = .ok es' → ChkAll types env es es') := by
  intro n
  induction n with
  | zero =>
    refine ⟨fun e he => ?_, fun es he => ?_⟩
    · cases e <;> simp at he
    · cases es <;> simp at he
  | succ n ih =>
    obtain ⟨ih1, ih2⟩ := ih
    refine ⟨fun e he env e' hc => ?_, fun es he env es' hc => ?_⟩
    · cases e with
      | sym x r =>
        simp only [check] at hc
        cases hd : dget env x with
        | none => rw [hd] at hc; cases hc
        | some r => rw [hd] at hc; cases hc; exact .sym _ _ _ _ hd
      | kw => simp only [check] at hc; cases hc; exact .kw _ _
      | const => simp only [check] at hc; cases hc; exact .const _ _
      | list xs =>
        simp only [check] at hc
        obtain ⟨ys, h1, hc⟩ := bind_ok_iff.1 hc
        cases hc
        exact .list _ _ _ (ih2 xs (by simp at he; omega) env ys h1)
      | dict xs =>
        simp only [check] at hc
        split at hc
        · cases hc
        · split at hc
          · obtain ⟨ys, h1, hc⟩ := bind_ok_iff.1 hc
            cases hc
            exact .dict _ _ _ (ih2 xs (by simp at he; omega) env ys h1)
          · cases hc
      | tup xs r0 =>
        cases xs with
        | nil => simp only [check] at hc; cases hc
        | cons h args =>
          unfold check at hc
          cases hn : h.name with
          | none => rw [hn] at hc; cases hc
          | some nm =>
            rw [hn] at hc
            dsimp only at hc
            by_cases hget : nm = "get"
            · subst hget
              rw [if_pos rfl] at hc
              split at hc
              · rename_i obj f fr
                obtain ⟨obj', h1, hc⟩ := bind_ok_iff.1 hc
                obtain ⟨r, fs, res, h2, h3, h4, rfl⟩ := checkGet_ok hc
                exact .get _ _ _ _ _ _ _ _ _ _ hn (ih1 obj (by simp at he; omega) _ _ h1) h2 h3 h4
              · cases hc
              · cases hc
            · rw [if_neg hget] at hc
              by_cases heach : nm = "each"
              · subst heach
                rw [if_pos rfl] at hc
                split at hc
                · rename_i x xr col body
                  obtain ⟨col', h1, hc⟩ := bind_ok_iff.1 hc
                  obtain ⟨r', h2, hc⟩ := bind_ok_iff.1 hc
                  obtain ⟨body', h3, hc⟩ := bind_ok_iff.1 hc
                  cases hc
                  obtain ⟨r, it, h4, h5, rfl⟩ := eachRef_ok h2
                  exact .each _ _ _ _ _ _ _ _ _ _ _ hn (ih1 col (by simp at he; omega) _ _ h1) h4 h5
                    (ih1 body (by simp at he; omega) _ _ h3)
                · cases hc
                · cases hc
              · rw [if_neg heach] at hc
                by_cases hsome : nm = "if_some"
                · subst hsome
                  rw [if_pos rfl] at hc
                  split at hc
                  · rename_i x xr e a b
                    obtain ⟨e', h1, hc⟩ := bind_ok_iff.1 hc
                    obtain ⟨r', h2, hc⟩ := bind_ok_iff.1 hc
                    obtain ⟨a', h3, hc⟩ := bind_ok_iff.1 hc
                    obtain ⟨b', h4, hc⟩ := bind_ok_iff.1 hc
                    cases hc
                    obtain ⟨r, h5, h6⟩ := someRef_ok h2
                    exact .ifSome _ _ _ _ _ _ _ _ _ _ _ _ _ hn (ih1 e (by simp at he; omega) _ _ h1) h5 h6
                      (ih1 a (by simp at he; omega) _ _ h3) (ih1 b (by simp at he; omega) _ _ h4)
                  · cases hc
                  · cases hc
                · rw [if_neg hsome] at hc
                  obtain ⟨s, h1, hc⟩ := bind_ok_iff.1 hc
                  split at hc
                  · rename_i sn sr
                    obtain ⟨as, h2, hc⟩ := bind_ok_iff.1 hc
                    obtain ⟨ats, h3, hc⟩ := bind_ok_iff.1 hc
                    obtain ⟨_, h4, hc⟩ := bind_ok_iff.1 hc
                    cases hc
                    cases h with
                    | sym f fr =>
                      simp only [Ex.name, Option.some.injEq] at hn
                      subst hn
                      simp only [check] at h1
                      cases hd : dget env f with
                      | none => rw [hd] at h1; cases h1
                      | some r =>
                        rw [hd] at h1
                        cases h1
                        obtain ⟨r', h5, h6⟩ := fnArgs_ok h3
                        cases h5
                        exact .call _ _ _ _ _ _ _ _ (by simp [special, hget, heach, hsome]) hd h6
                          (ih2 args (by simp at he; omega) _ _ h2) (checkArgs_ok hg h4)
                    | kw => simp only [check] at h1; cases h1
                    | const => simp only [Ex.name] at hn; cases hn
                    | list => simp only [Ex.name] at hn; cases hn
                    | dict => simp only [Ex.name] at hn; cases hn
                    | tup => simp only [Ex.name] at hn; cases hn
                  · cases hc
    · cases es with
      | nil => simp only [checks] at hc; cases hc; exact .nil _
      | cons x xs =>
        simp only [checks] at hc
        obtain ⟨y, h1, hc⟩ := bind_ok_iff.1 hc
        obtain ⟨ys, h2, hc⟩ := bind_ok_iff.1 hc
        cases hc
        exact .cons _ _ _ _ _ (ih1 x (by simp at he; omega) _ _ h1) (ih2 xs (by simp at he; omega) _ _ h2)

theorem check_chk {types : List (String × Ty)} (hg : NoAlias types) {lim : Nat} {env : List (String × Ref)} {e e' : Ex}
    (h : check types lim env e = .ok e') : Chk types env e e' :=
  (check_chk_all hg lim (sizeOf e)).1 e (Nat.le_refl _) env e' h

theorem typesOf_root (vars : List (String × Ty)) : typesOf (rootEnv vars) = vars := by
  unfold typesOf rootEnv
  rw [List.map_map]
  conv => rhs; rw [← List.map_id vars]
  rfl


end Hiku.Expr
