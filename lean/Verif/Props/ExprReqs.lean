import Verif.Props.ExprTypes

/-! C38 and C39: evaluation of checked expressions -/

namespace Hiku.Expr

section
variable {types : List (String × Ty)} {D : PyDom (Except Err)} {B : Sem D.V} {Q : Type} {R : Q → String → Q → Prop}

theorem Supplies.resolve {t t' : Ty} {q : Q} {v : D.V} (h : Supplies types D B R t q v) (hr : Resolves types t t') :
    Supplies types D B R t' q v := by
  cases hr with
  | named n _ hn =>
    cases h with
    | scalar _ _ _ hs => simp [isScalar] at hs
    | named _ t'' _ _ h1 h2 =>
      rw [hn] at h1
      cases h1
      exact h2
  | itself => exact h

theorem Supplies.unresolve {t t' : Ty} {q : Q} {v : D.V} (h : Supplies types D B R t' q v) (hr : Resolves types t t') :
    Supplies types D B R t q v := by
  cases hr with
  | named n _ hn => exact .named _ _ _ _ hn h
  | itself => exact h

theorem Supplies.inv_sequence {t : Ty} {q : Q} {v : D.V} (h : Supplies types D B R (.sequence t) q v) :
    ∃ xs, D.iter v = .ok xs ∧ ∀ x ∈ xs, Supplies types D B R t q x := by
  cases h with
  | scalar _ _ _ hs => simp [isScalar] at hs
  | sequence _ _ _ xs h1 h2 => exact ⟨xs, h1, h2⟩

theorem Supplies.inv_optional {t : Ty} {q : Q} {v : D.V} (h : Supplies types D B R (.optional t) q v) :
    D.isNone v = true ∨ Supplies types D B R t q v := by
  cases h with
  | scalar _ _ _ hs => simp [isScalar] at hs
  | none _ _ _ h => exact .inl h
  | some _ _ _ h => exact .inr h

theorem Supplies.inv_record {fs : List (String × Ty)} {q : Q} {v : D.V} (h : Supplies types D B R (.record fs) q v)
    {f : String} {t : Ty} {q' : Q} (hf : dget fs f = Option.some t) (hr : R q f q') :
    ∃ w, D.get v f = .ok w ∧ Supplies types D B R t q' w := by
  cases h with
  | scalar _ _ _ hs => simp [isScalar] at hs
  | record _ _ _ w h1 h2 => exact ⟨w f, h1 f t q' hf hr, h2 f t q' hf hr⟩

theorem Supplies.inv_mapping {k t : Ty} {q : Q} {v : D.V} (h : Supplies types D B R (.mapping k t) q v) :
    ∀ kv ∈ B.items v, Supplies types D B R k q kv.1 ∧ Supplies types D B R t q kv.2 := by
  cases h with
  | scalar _ _ _ hs => simp [isScalar] at hs
  | mapping _ _ _ _ h1 h2 => exact fun kv hkv => ⟨h1 kv hkv, h2 kv hkv⟩

theorem Supplies.inv_callable {ats : List Ty} {q : Q} {v : D.V} (h : Supplies types D B R (.callable ats) q v) :
    B.base (.callable ats) v := by
  cases h with
  | scalar _ _ _ _ h => exact h

/-- data of a type is data of every compatible type without functions -/
theorem Sub.sound (hT : NoFnTypes types) {a b : Ty} (hs : Sub types a b) (hb : NoFn b = true) :
    ∀ {q : Q} {v : D.V}, Supplies types D B R a q v → Supplies types D B R b q v := by
  induction hs with
  | any _ _ _ _ h => exact fun _ => Supplies.unresolve (.any _ _) h
  | base a b c hc h1 h2 => exact fun h => (h.resolve h1).unresolve h2
  | optional a a' b b' h1 h2 _ ih =>
    intro q v h
    have hn := hT.noFn h2 hb
    rcases (h.resolve h1).inv_optional with h | h
    · exact Supplies.unresolve (.none _ _ _ h) h2
    · exact Supplies.unresolve (.some _ _ _ (ih (by simpa [NoFn] using hn) h)) h2
  | present a b b' h2 _ _ ih =>
    intro q v h
    have hn := hT.noFn h2 hb
    exact Supplies.unresolve (.some _ _ _ (ih (by simpa [NoFn] using hn) h)) h2
  | sequence a a' b b' h1 h2 _ ih =>
    intro q v h
    have hn := hT.noFn h2 hb
    obtain ⟨xs, h3, h4⟩ := (h.resolve h1).inv_sequence
    exact Supplies.unresolve (.sequence _ _ _ xs h3 fun x hx => ih (by simpa [NoFn] using hn) (h4 x hx)) h2
  | mapping a ka va b kb vb h1 h2 _ _ ih1 ih2 =>
    intro q v h
    have hn := hT.noFn h2 hb
    simp only [NoFn, Bool.and_eq_true] at hn
    have h := (h.resolve h1).inv_mapping
    exact Supplies.unresolve (.mapping _ _ _ _ (fun kv hkv => ih1 hn.1 (h kv hkv).1) fun kv hkv => ih2 hn.2 (h kv hkv).2) h2
  | record a b fs gs f h1 h2 h3 _ ih =>
    intro q v h
    have hn := hT.noFn h2 hb
    simp only [NoFn] at hn
    have h := h.resolve h1
    cases h with
    | scalar _ _ _ hs => simp [isScalar] at hs
    | record _ _ _ w ha hb =>
      refine Supplies.unresolve (.record _ _ _ w (fun k t q' hk hr => ?_) fun k t q' hk hr => ?_) h2
      · exact ha k _ q' (h3 (k, t) (dget_mem hk)) hr
      · exact ih (k, t) (dget_mem hk) (NoFnAll_mem hn (dget_mem hk)) (hb k _ q' (h3 (k, t) (dget_mem hk)) hr)
  | function a b xs ys h1 h2 =>
    have hn := hT.noFn h2 hb
    simp [NoFn] at hn

/-- data for a query is data for a smaller one -/
theorem Supplies.mono {le : Q → Q → Prop} (sim : ∀ {q q' f q1'}, le q q' → R q' f q1' → ∃ q1, R q f q1 ∧ le q1 q1')
    {t : Ty} {q : Q} {v : D.V} (h : Supplies types D B R t q v) :
    ∀ {q' : Q}, le q q' → Supplies types D B R t q' v := by
  induction h with
  | any => exact fun _ => .any _ _
  | scalar _ _ _ h1 h2 => exact fun _ => .scalar _ _ _ h1 h2
  | none _ _ _ h => exact fun _ => .none _ _ _ h
  | some _ _ _ _ ih => exact fun hl => .some _ _ _ (ih hl)
  | sequence _ _ _ xs h _ ih => exact fun hl => .sequence _ _ _ xs h fun x hx => ih x hx hl
  | mapping _ _ _ _ _ _ ih1 ih2 => exact fun hl => .mapping _ _ _ _ (fun kv h => ih1 kv h hl) fun kv h => ih2 kv h hl
  | record fs q v w h1 _ ih =>
    intro q' hl
    refine .record _ _ _ w (fun f t q1' hf hr => ?_) fun f t q1' hf hr => ?_
    · obtain ⟨q1, h2, _⟩ := sim hl hr
      exact h1 f t q1 hf h2
    · obtain ⟨q1, h2, h3⟩ := sim hl hr
      exact ih f t q1 hf h2 h3
  | named _ _ _ _ h _ ih => exact fun hl => .named _ _ _ _ h (ih hl)

/-! ## Requests at references -/

/-- `q` is requested from the value of the reference, when `top` is requested from the globals -/
def At (R : Q → String → Q → Prop) (top : Q) : Ref → Q → Prop
  | .root x _, q => R top x q
  | .named b f _, q => ∃ q', At R top b q' ∧ R q' f q
  | .ref b _, q => At R top b q

def Reached (R : Q → String → Q → Prop) (top : Q) (r : Ref) : Prop := ∃ q, At R top r q

mutual
/-- everything the expression reads is requested -/
def Cov (R : Q → String → Q → Prop) (le : Q → Q → Prop) (need : Ty → Q) (top : Q) : Ex → Prop
  | .sym _ r => ∀ r', r = some r' → Reached R top r'
  | .kw _ | .const _ => True
  | .list xs | .dict xs => CovAll R le need top xs
  | .tup [] _ => True
  | .tup (.sym n hr :: args) r =>
      (∀ r', r = some r' → Reached R top r') ∧
      match hr with
      | none => CovAll R le need top args
      | some hr => match hr.to with
        | .callable ats => CovArgs R le need top ats args
        | _ => CovAll R le need top args
  | .tup (_ :: args) r => (∀ r', r = some r' → Reached R top r') ∧ CovAll R le need top args
def CovAll (R : Q → String → Q → Prop) (le : Q → Q → Prop) (need : Ty → Q) (top : Q) : List Ex → Prop
  | [] => True
  | x :: r => Cov R le need top x ∧ CovAll R le need top r
def CovArgs (R : Q → String → Q → Prop) (le : Q → Q → Prop) (need : Ty → Q) (top : Q) : List Ty → List Ex → Prop
  | t :: ts, x :: r => (Cov R le need top x ∧ ∀ r, x.ref = some r → ∃ q, At R top r q ∧ le q (need t)) ∧
      CovArgs R le need top ts r
  | _, _ => True
end

/-- the value of a reference -/
def RefVal (types : List (String × Ty)) (D : PyDom (Except Err)) (B : Sem D.V) (R : Q → String → Q → Prop) (top : Q)
    (r : Ref) (v : D.V) : Prop :=
  (∀ q, At R top r q → Supplies types D B R r.to q v) ∧ ∀ ats, r.to = .callable ats → B.base (.callable ats) v

/-- the variables have the values of their references -/
def EnvVal (types : List (String × Ty)) (D : PyDom (Except Err)) (B : Sem D.V) (R : Q → String → Q → Prop) (top : Q)
    (env : List (String × Ref)) (fns ctx : D.V) (ρ : List (String × D.V)) : Prop :=
  ∀ x r, dget env x = some r → GoodVar r.to ∧ (Reached R top r ∨ isCallable r.to = true →
    ∃ v, denote D fns ctx ρ (.var x (isCallable r.to)) = .ok v ∧ RefVal types D B R top r v)

theorem EnvVal.bind {top : Q} {env : List (String × Ref)} {fns ctx : D.V} {ρ : List (String × D.V)} {x : String} {r : Ref}
    {v : D.V} (h : EnvVal types D B R top env fns ctx ρ) (hg : GoodVar r.to) (hv : RefVal types D B R top r v) :
    EnvVal types D B R top ((x, r) :: env) fns ctx ((x, v) :: ρ) := by
  intro y r' hy
  rw [dget_cons] at hy
  by_cases hxy : x = y
  · rw [if_pos hxy] at hy
    cases hy
    refine ⟨hg, fun _ => ⟨v, ?_, hv⟩⟩
    simp only [denote, dget_cons, if_pos hxy]; rfl
  · rw [if_neg hxy] at hy
    obtain ⟨h1, h2⟩ := h y r' hy
    refine ⟨h1, fun hr => ?_⟩
    obtain ⟨w, h3, h4⟩ := h2 hr
    refine ⟨w, ?_, h4⟩
    simp only [denote, dget_cons, if_neg hxy] at h3 ⊢
    exact h3

theorem GoodVar.resolve (hT : NoFnTypes types) {t t' : Ty} (h : GoodVar t) (hr : Resolves types t t') : GoodVar t' := by
  rcases h with h | ⟨ats, rfl, h⟩
  · exact .inl (hT.noFn hr h)
  · cases hr
    exact .inr ⟨ats, rfl, h⟩

/-- the checked expression `e'` of `e` has a value -/
def Evals (types : List (String × Ty)) (D : PyDom (Except Err)) (B : Sem D.V) (R : Q → String → Q → Prop)
    (le : Q → Q → Prop) (need : Ty → Q) (top : Q) (fns ctx : D.V) (env : List (String × Ref)) (e e' : Ex) : Prop :=
  Raw e = true → Cov R le need top e' → ∀ t ρ, parse e' = some t → EnvVal types D B R top env fns ctx ρ →
    ∃ v, denote D fns ctx ρ t = .ok v ∧ ∀ r, e'.ref = some r → GoodVar r.to ∧ RefVal types D B R top r v

variable {le : Q → Q → Prop} {need : Ty → Q} {top : Q} {fns ctx : D.V} {env : List (String × Ref)}

theorem evals_sym {n : String} {r0 : Option Ref} {r : Ref} (h : dget env n = some r) :
    Evals types D B R le need top fns ctx env (.sym n r0) (.sym n (some r)) := by
  intro _ hc t ρ hp he
  simp only [parse, Option.some.injEq] at hp
  subst hp
  simp only [Cov] at hc
  obtain ⟨h1, h2⟩ := he n r h
  obtain ⟨v, h3, h4⟩ := h2 (.inl (hc r rfl))
  exact ⟨v, h3, fun r' hr => by cases hr; exact ⟨h1, h4⟩⟩

theorem denotes_ok {es es' : List Ex} (h : List.Forall₂ (Evals types D B R le need top fns ctx env) es es')
    (hr : RawAll es = true) (hc : CovAll R le need top es') {ts : List Term} (hp : parseAll es' = some ts)
    {ρ : List (String × D.V)} (he : EnvVal types D B R top env fns ctx ρ) : ∃ vs, denotes D fns ctx ρ ts = .ok vs := by
  induction h generalizing ts with
  | nil =>
    simp only [parseAll, Option.some.injEq] at hp
    subst hp
    exact ⟨[], rfl⟩
  | cons h1 _ ih =>
    simp only [parseAll, Option.bind_eq_bind, Option.bind_eq_some_iff, Option.some.injEq] at hp
    obtain ⟨t, h2, ts, h3, rfl⟩ := hp
    simp only [RawAll, Bool.and_eq_true] at hr
    simp only [CovAll] at hc
    obtain ⟨v, h4, _⟩ := h1 hr.1 hc.1 t ρ h2 he
    obtain ⟨vs, h5⟩ := ih hr.2 hc.2 h3
    exact ⟨v :: vs, by rw [denotes, h4, h5]; rfl⟩

theorem rawAll_forall2 {P : Ex → Ex → Prop} {es es' : List Ex} (h : List.Forall₂ P es es') (hr : RawAll es = true) :
    List.Forall₂ (fun e e' => Raw e = true ∧ P e e') es es' := by
  induction h with
  | nil => exact .nil
  | cons h1 _ ih =>
    simp only [RawAll, Bool.and_eq_true] at hr
    exact .cons ⟨hr.1, h1⟩ (ih hr.2)

theorem denoteKvs_ok : ∀ {es es' : List Ex}, List.Forall₂ (Evals types D B R le need top fns ctx env) es es' →
    RawAll es = true → CovAll R le need top es' → ∀ {ts : List (String × Term)}, parseKvs es' = some ts →
    ∀ {ρ : List (String × D.V)}, EnvVal types D B R top env fns ctx ρ → ∃ vs, denoteKvs D fns ctx ρ ts = .ok vs
  | _, _, .nil, _, _, ts, hp, ρ, _ => by
      simp only [parseKvs, Option.some.injEq] at hp
      subst hp
      exact ⟨[], rfl⟩
  | _, _, .cons (a := x) (b := k) hk .nil, _, _, ts, hp, ρ, _ => by
      cases k <;> simp [parseKvs] at hp
  | _, _, .cons (a := x) (b := k) hk (.cons (b := y) (l₂ := es') h1 h2), hr, hc, ts, hp, ρ, he => by
      cases k with
      | kw k =>
        simp only [parseKvs, Option.bind_eq_bind, Option.bind_eq_some_iff, Option.some.injEq] at hp
        obtain ⟨t, h3, ts, h4, rfl⟩ := hp
        simp only [RawAll, Bool.and_eq_true] at hr
        simp only [CovAll] at hc
        obtain ⟨v, h5, _⟩ := h1 hr.2.1 hc.2.1 t ρ h3 he
        obtain ⟨vs, h6⟩ := denoteKvs_ok h2 hr.2.2 hc.2.2 h4 he
        exact ⟨(k, v) :: vs, by rw [denoteKvs, h5, h6]; rfl⟩
      | _ => simp [parseKvs] at hp

/-- arguments are data of the types of arguments -/
theorem args_ok (hT : NoFnTypes types)
    (sim : ∀ {q q' f q1'}, le q q' → R q' f q1' → ∃ q1, R q f q1 ∧ le q1 q1')
    {es es' : List Ex} (h : List.Forall₂ (Evals types D B R le need top fns ctx env) es es') (hr : RawAll es = true)
    {ats : List Ty} (hs : List.Forall₂ (fun a t => Sub types ((a.ref.map Ref.to).getD .any) t) es' ats)
    (hn : ∀ a ∈ ats, NoFn a = true) (hc : CovArgs R le need top ats es')
    {ts : List Term} (hp : parseAll es' = some ts) {ρ : List (String × D.V)} (he : EnvVal types D B R top env fns ctx ρ) :
    ∃ vs, denotes D fns ctx ρ ts = .ok vs ∧ List.Forall₂ (fun t v => Supplies types D B R t (need t) v) ats vs := by
  induction h generalizing ts ats with
  | nil =>
    simp only [parseAll, Option.some.injEq] at hp
    subst hp
    cases hs
    exact ⟨[], rfl, .nil⟩
  | @cons e e' _ _ h1 _ ih =>
    simp only [parseAll, Option.bind_eq_bind, Option.bind_eq_some_iff, Option.some.injEq] at hp
    obtain ⟨t, h2, ts, h3, rfl⟩ := hp
    cases hs with
    | @cons _ at_ _ ats hs1 hs2 =>
      simp only [RawAll, Bool.and_eq_true] at hr
      simp only [CovArgs] at hc
      obtain ⟨v, h4, h6⟩ := h1 hr.1 hc.1.1 t ρ h2 he
      obtain ⟨vs, h5, h7⟩ := ih hr.2 hs2 (fun a ha => hn a (List.mem_cons_of_mem _ ha)) hc.2 h3
      refine ⟨v :: vs, by rw [denotes, h4, h5]; rfl, .cons ?_ h7⟩
      have hna := hn at_ List.mem_cons_self
      cases hr' : e'.ref with
      | none =>
        rw [hr'] at hs1
        exact Sub.sound hT hs1 hna (.any _ _)
      | some r =>
        rw [hr'] at hs1
        obtain ⟨q, h8, h9⟩ := hc.1.2 r hr'
        exact (Sub.sound hT hs1 hna ((h6 r hr').2.1 q h8)).mono sim h9

theorem evals_get {h obj obj' : Ex} {f : String} {fr r0 : Option Ref} {r : Ref} {fs : List (String × Ty)} {res : Ty}
    (hT : NoFnTypes types)
    (hn : h.name = some "get") (ho : Evals types D B R le need top fns ctx env obj obj') (hr : obj'.ref = some r)
    (hres : Resolves types r.to (.record fs)) (hf : dget fs f = some res) :
    Evals types D B R le need top fns ctx env (.tup [h, obj, .sym f fr] r0)
      (.tup [h, obj', .sym f fr] (some (.named r f res))) := by
  intro hraw hc t ρ hp he
  cases h with
  | sym nm hr0 =>
    simp only [Ex.name, Option.some.injEq] at hn
    subst hn
    simp only [Raw, RawAll, Bool.and_eq_true, Option.isNone_iff_eq_none] at hraw
    obtain ⟨_, rfl, hraw, _⟩ := hraw
    simp only [Cov, CovAll] at hc
    obtain ⟨hreach, hcov, _⟩ := hc
    unfold parse at hp
    simp only [if_true, Option.map_eq_some_iff] at hp
    obtain ⟨t', h1, rfl⟩ := hp
    obtain ⟨v, h2, h3⟩ := ho hraw hcov t' ρ h1 he
    obtain ⟨h4, h5⟩ := h3 r hr
    obtain ⟨q, q', h6, h7⟩ := hreach _ rfl
    obtain ⟨w, h8, _⟩ := ((h5.1 q' h6).resolve hres).inv_record hf h7
    have hgood : NoFn res = true := by
      rcases GoodVar.resolve hT h4 hres with h | ⟨_, h, _⟩
      · simp only [NoFn] at h
        exact NoFnAll_mem h (dget_mem hf)
      · cases h
    refine ⟨w, ?_, ?_⟩
    · rw [denote, h2]; exact h8
    · intro r' hr'
      simp only [Ex.ref, Option.some.injEq] at hr'
      subst hr'
      refine ⟨.inl hgood, fun q hq => ?_, fun ats ha => ?_⟩
      · obtain ⟨q', h9, h10⟩ := hq
        obtain ⟨w', h11, h12⟩ := ((h5.1 q' h9).resolve hres).inv_record hf h10
        rw [h8] at h11
        cases h11
        exact h12
      · simp only [Ref.to] at ha
        rw [ha] at hgood
        simp [NoFn] at hgood
  | kw => simp [parse] at hp
  | const => simp [Ex.name] at hn
  | list => simp [Ex.name] at hn
  | dict => simp [Ex.name] at hn
  | tup => simp [Ex.name] at hn

theorem evals_each {h col col' body body' : Ex} {x : String} {xr r0 : Option Ref} {r : Ref} {it : Ty}
    (hT : NoFnTypes types) (hcol : Evals types D B R le need top fns ctx env col col') (hr : col'.ref = some r)
    (hres : Resolves types r.to (.sequence it))
    (hbody : Evals types D B R le need top fns ctx ((x, .ref r it) :: env) body body') :
    Evals types D B R le need top fns ctx env (.tup [h, .sym x xr, col, body] r0)
      (.tup [.sym "each" none, .sym x (some (.ref r it)), col', body'] none) := by
  intro hraw hc t ρ hp he
  simp only [Raw, RawAll, Bool.and_eq_true] at hraw
  obtain ⟨_, _, _, hraw1, hraw2, _⟩ := hraw
  simp only [Cov, CovAll] at hc
  obtain ⟨_, hreach, hcov1, hcov2, _⟩ := hc
  unfold parse at hp
  simp only [String.reduceEq, if_false, if_true, Option.bind_eq_bind, Option.bind_eq_some_iff, Option.some.injEq] at hp
  obtain ⟨tc, h1, tb, h2, rfl⟩ := hp
  obtain ⟨v, h3, h4⟩ := hcol hraw1 hcov1 tc ρ h1 he
  obtain ⟨h5, h6⟩ := h4 r hr
  obtain ⟨q, hq⟩ := hreach _ rfl
  obtain ⟨xs, h7, _⟩ := ((h6.1 q hq).resolve hres).inv_sequence
  have hgood : NoFn it = true := by
    rcases GoodVar.resolve hT h5 hres with h | ⟨_, h, _⟩
    · simpa only [NoFn] using h
    · cases h
  have hitems : ∀ y ∈ xs, ∃ w, denote D fns ctx ((x, y) :: ρ) tb = .ok w := by
    intro y hy
    obtain ⟨w, h8, _⟩ := hbody hraw2 hcov2 tb _ h2 (he.bind (.inl hgood) (v := y) ⟨fun q' hq' => by
      obtain ⟨ys, h9, h10⟩ := ((h6.1 q' hq').resolve hres).inv_sequence
      rw [h7] at h9
      cases h9
      exact h10 y hy, fun ats ha => by
      simp only [Ref.to] at ha
      rw [ha] at hgood
      simp [NoFn] at hgood⟩)
    exact ⟨w, h8⟩
  obtain ⟨ws, h8⟩ := mapM_returns hitems
  refine ⟨D.list ws, ?_, fun r' hr' => by cases hr'⟩
  rw [denote, h3, ok_bind', h7, ok_bind', h8]; rfl

theorem evals_ifSome {h e e' a a' b b' : Ex} {x : String} {xr r0 : Option Ref} {r r' : Ref}
    (hT : NoFnTypes types) (hev : Evals types D B R le need top fns ctx env e e') (hr : e'.ref = some r)
    (hres : (∃ t, Resolves types r.to (.optional t) ∧ r' = .ref r t) ∨
        (r' = r ∧ ∀ u, ¬ Resolves types r.to (.optional u)))
    (ha : Evals types D B R le need top fns ctx ((x, r') :: env) a a')
    (hb : Evals types D B R le need top fns ctx env b b') :
    Evals types D B R le need top fns ctx env (.tup [h, .list [.sym x xr, e], a, b] r0)
      (.tup [.sym "if_some" none, .list [.sym x (some r'), e'], a', b'] none) := by
  intro hraw hc t ρ hp he
  simp only [Raw, RawAll, Bool.and_eq_true] at hraw
  obtain ⟨_, _, ⟨_, hraw1, _⟩, hraw2, hraw3, _⟩ := hraw
  simp only [Cov, CovAll] at hc
  obtain ⟨_, ⟨_, hcov1, _⟩, hcov2, hcov3, _⟩ := hc
  unfold parse at hp
  simp only [String.reduceEq, if_false, if_true, Option.bind_eq_bind, Option.bind_eq_some_iff, Option.some.injEq] at hp
  obtain ⟨te, h1, ta, h2, tb, h3, rfl⟩ := hp
  obtain ⟨v, h4, h5⟩ := hev hraw1 hcov1 te ρ h1 he
  obtain ⟨h6, h7⟩ := h5 r hr
  cases hnone : D.isNone v with
  | true =>
    obtain ⟨w, h8, _⟩ := hb hraw3 hcov3 tb ρ h3 he
    refine ⟨w, ?_, fun r' hr' => by cases hr'⟩
    rw [denote, h4]
    show (if D.isNone v = true then _ else _) = _
    rw [hnone, if_pos rfl, h8]
  | false =>
    have hgood : GoodVar r'.to ∧ RefVal types D B R top r' v := by
      rcases hres with ⟨u, hu, rfl⟩ | ⟨rfl, _⟩
      · have hgood : NoFn u = true := by
          rcases GoodVar.resolve hT h6 hu with h | ⟨_, h, _⟩
          · simpa only [NoFn] using h
          · cases h
        refine ⟨.inl hgood, fun q hq => ?_, fun ats ha => ?_⟩
        · rcases ((h7.1 q hq).resolve hu).inv_optional with h | h
          · rw [hnone] at h; cases h
          · exact h
        · simp only [Ref.to] at ha
          rw [ha] at hgood
          simp [NoFn] at hgood
      · exact ⟨h6, h7⟩
    obtain ⟨w, h8, _⟩ := ha hraw2 hcov2 ta _ h2 (he.bind hgood.1 (v := v) hgood.2)
    refine ⟨w, ?_, fun r' hr' => by cases hr'⟩
    rw [denote, h4]
    show (if D.isNone v = true then _ else _) = _
    rw [hnone, if_neg (by simp), h8]

theorem evals_call {args args' : List Ex} {f : String} {fr r0 : Option Ref} {r : Ref} {ats : List Ty}
    (hT : NoFnTypes types) (hF : Functions types D B R need) (htruthy : ∀ v, ∃ b, D.truthy v = .ok b)
    (sim : ∀ {q q' f q1'}, le q q' → R q' f q1' → ∃ q1, R q f q1 ∧ le q1 q1')
    (hsp : special f = false) (hd : dget env f = some r) (hres : Resolves types r.to (.callable ats))
    (hargs : List.Forall₂ (Evals types D B R le need top fns ctx env) args args')
    (hs : List.Forall₂ (fun a t => Sub types ((a.ref.map Ref.to).getD .any) t) args' ats) :
    Evals types D B R le need top fns ctx env (.tup (.sym f fr :: args) r0) (.tup (.sym f (some r) :: args') none) := by
  intro hraw hc t ρ hp he
  simp only [Raw, RawAll, Bool.and_eq_true] at hraw
  obtain ⟨_, _, hraw⟩ := hraw
  obtain ⟨hg, hv⟩ := he f r hd
  have hto : r.to = .callable ats ∧ ∀ a ∈ ats, NoFn a = true := by
    rcases hg with h | ⟨ats', h, h'⟩
    · have := hT.noFn hres h
      simp [NoFn] at this
    · rw [h] at hres
      cases hres
      exact ⟨h, h'⟩
  simp only [Cov, hto.1] at hc
  obtain ⟨_, hc⟩ := hc
  simp only [special, Bool.or_eq_false_iff, decide_eq_false_iff_not] at hsp
  unfold parse at hp
  rw [if_neg hsp.1.1] at hp
  by_cases hif : f = "if"
  · rw [if_pos hif] at hp
    split at hp
    · rename_i x y z
      simp only [Option.bind_eq_bind, Option.bind_eq_some_iff, Option.some.injEq] at hp
      obtain ⟨tx, h1, ty, h2, tz, h3, rfl⟩ := hp
      cases hs with
      | cons _ hs =>
      cases hs with
      | cons _ hs =>
      cases hs with
      | cons _ hs =>
      cases hs
      cases hargs with
      | cons e1 hargs =>
      cases hargs with
      | cons e2 hargs =>
      cases hargs with
      | cons e3 hargs =>
      cases hargs
      simp only [RawAll, Bool.and_eq_true] at hraw
      simp only [CovArgs] at hc
      obtain ⟨vx, d1, _⟩ := e1 hraw.1 hc.1.1 tx ρ h1 he
      obtain ⟨vy, d2, _⟩ := e2 hraw.2.1 hc.2.1.1 ty ρ h2 he
      obtain ⟨vz, d3, _⟩ := e3 hraw.2.2.1 hc.2.2.1.1 tz ρ h3 he
      obtain ⟨b, hb⟩ := htruthy vx
      refine ⟨if b then vy else vz, ?_, fun r' hr' => by cases hr'⟩
      rw [denote, d1]
      show (D.truthy vx >>= _) = _
      rw [hb]
      show (if b = true then _ else _) = _
      cases b
      · rw [if_neg (by simp), d3, if_neg (by simp)]
      · rw [if_pos rfl, d2, if_pos rfl]
    · cases hp
  · rw [if_neg hif, if_neg hsp.2, if_neg hsp.1.2] at hp
    simp only [Option.map_eq_some_iff] at hp
    obtain ⟨ts, h1, rfl⟩ := hp
    obtain ⟨g, h2, h3⟩ := hv (.inr (by rw [hto.1]; rfl))
    obtain ⟨vs, h4, h5⟩ := args_ok hT sim hargs hraw hs hto.2 hc h1 he
    obtain ⟨w, h6⟩ := hF ats g vs (h3.2 ats hto.1) h5
    refine ⟨w, ?_, fun r' hr' => by cases hr'⟩
    rw [denote, h2]
    show (denotes D fns ctx ρ ts >>= _) = _
    rw [h4]
    exact h6

mutual
theorem Chk.evals (hT : NoFnTypes types) (hF : Functions types D B R need) (htruthy : ∀ v, ∃ b, D.truthy v = .ok b)
    (sim : ∀ {q q' f q1'}, le q q' → R q' f q1' → ∃ q1, R q f q1 ∧ le q1 q1')
    {env : List (String × Ref)} {e e' : Ex} : Chk types env e e' → Evals types D B R le need top fns ctx env e e'
  | .sym _ n r0 r h => evals_sym h
  | .kw _ _ => fun _ _ t ρ hp _ => by simp [parse] at hp
  | .const _ v => fun _ _ t ρ hp _ => by
      simp only [parse] at hp
      split at hp
      · cases hp
        exact ⟨D.const v, rfl, fun r hr => by cases hr⟩
      · cases hp
  | .list _ xs ys h => fun hr hc t ρ hp he => by
      simp only [parse, Option.map_eq_some_iff] at hp
      obtain ⟨ts, h1, rfl⟩ := hp
      simp only [Raw] at hr
      simp only [Cov] at hc
      obtain ⟨vs, h2⟩ := denotes_ok (ChkAll.evals hT hF htruthy sim h) hr hc h1 he
      exact ⟨D.list vs, by rw [denote, h2]; rfl, fun r hr => by cases hr⟩
  | .dict _ xs ys h => fun hr hc t ρ hp he => by
      simp only [parse, Option.map_eq_some_iff] at hp
      obtain ⟨ts, h1, rfl⟩ := hp
      simp only [Raw] at hr
      simp only [Cov] at hc
      obtain ⟨vs, h2⟩ := denoteKvs_ok (ChkAll.evals hT hF htruthy sim h) hr hc h1 he
      exact ⟨D.dict vs, by rw [denote, h2]; rfl, fun r hr => by cases hr⟩
  | .get _ _ _ _ _ _ _ r fs _ h1 h2 h3 h4 h5 => evals_get hT h1 (Chk.evals hT hF htruthy sim h2) h3 h4 h5
  | .each _ _ _ _ _ _ _ _ _ r it h1 h2 h3 h4 h5 =>
      evals_each hT (Chk.evals hT hF htruthy sim h2) h3 h4 (Chk.evals hT hF htruthy sim h5)
  | .ifSome _ _ _ _ _ _ _ _ _ _ _ r r' h1 h2 h3 h4 h5 h6 =>
      evals_ifSome hT (Chk.evals hT hF htruthy sim h2) h3 h4 (Chk.evals hT hF htruthy sim h5)
        (Chk.evals hT hF htruthy sim h6)
  | .call _ _ _ _ _ _ r ats h1 h2 h3 h4 h5 =>
      evals_call hT hF htruthy sim h1 h2 h3 (ChkAll.evals hT hF htruthy sim h4) h5
theorem ChkAll.evals (hT : NoFnTypes types) (hF : Functions types D B R need) (htruthy : ∀ v, ∃ b, D.truthy v = .ok b)
    (sim : ∀ {q q' f q1'}, le q q' → R q' f q1' → ∃ q1, R q f q1 ∧ le q1 q1')
    {env : List (String × Ref)} {es es' : List Ex} :
    ChkAll types env es es' → List.Forall₂ (Evals types D B R le need top fns ctx env) es es'
  | .nil _ => .nil
  | .cons _ _ _ _ _ h h' => .cons (Chk.evals hT hF htruthy sim h) (ChkAll.evals hT hF htruthy sim h')
end

end
end Hiku.Expr
