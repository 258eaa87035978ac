import Verif.Proofs.ExprPaths

/-! C58: requirements of expressions are exactly the paths which are used -/

namespace Hiku.Expr

variable {types : List (String × Ty)}

theorem scope_cons (x : String) (r : Ref) (env : List (String × Ref)) : scope ((x, r) :: env) = (x, r.path) :: scope env := rfl

mutual
theorem Chk.exact (hA : NoAlias types) (hT : NoFnTypes types) {vars : List (String × Ty)} {env : List (String × Ref)}
    {e e' : Ex} (henv : FnEnv vars env) (hraw : Raw e = true) :
    Chk types env e e' → ∀ t, parse e' = some t → Exact types vars env e' t
  | .sym _ n r0 r h, t, ht => by
    simp only [parse, Option.some.injEq] at ht
    subst ht
    have hp : place (scope env) (.var n (isCallable r.to)) = some r.path := by simp only [place, dget_scope, h, Option.map]
    refine ⟨fun l hl p => ?_, fun r' hr' => ?_⟩
    · simp only [reqsOf] at hl
      rw [own_asks hl, uses_place hp]
    · cases hr'
      exact ⟨hp, henv n r h⟩
  | .kw _ _, t, ht => by simp [parse] at ht
  | .const _ v, t, ht => by
    simp only [parse] at ht
    split at ht
    · cases ht
      refine ⟨fun l hl p => ?_, fun r' hr' => by cases hr'⟩
      simp only [reqsOf] at hl
      cases hl
      refine ⟨fun h => (askAll_nil h).elim, fun h => ?_⟩
      cases h with
      | place _ _ _ _ h => simp [place] at h
      | arg _ _ f args g ats a ty _ h1 => simp [asCall] at h1
      | object _ _ f args g ats a ty _ _ h1 => simp [asCall] at h1
      | inside _ _ f args g ats a ty _ _ h1 => simp [asCall] at h1
    · cases ht
  | .list _ xs ys h, t, ht => by
    simp only [parse, Option.map_eq_some_iff] at ht
    obtain ⟨ts, h1, rfl⟩ := ht
    simp only [Raw] at hraw
    refine ⟨fun l hl p => ?_, fun r' hr' => by cases hr'⟩
    simp only [reqsOf] at hl
    rw [exact_all (exact_forall2 (ChkAll.exact hA hT henv hraw h) (parseAll_forall2 h1)) l hl]
    constructor
    · rintro ⟨x, hx, hu⟩; exact .list _ _ x p hx hu
    · intro h
      cases h with
      | list _ _ x _ hx hu => exact ⟨x, hx, hu⟩
      | place _ _ _ _ h => simp [place] at h
      | arg _ _ f args g ats a ty _ h1 => simp [asCall] at h1
      | object _ _ f args g ats a ty _ _ h1 => simp [asCall] at h1
      | inside _ _ f args g ats a ty _ _ h1 => simp [asCall] at h1
  | .dict _ xs ys h, t, ht => by
    simp only [parse, Option.map_eq_some_iff] at ht
    obtain ⟨ts, h1, rfl⟩ := ht
    simp only [Raw] at hraw
    refine ⟨fun l hl p => ?_, fun r' hr' => by cases hr'⟩
    simp only [reqsOf] at hl
    rw [exact_kvs (ChkAll.exact hA hT henv hraw h) h1 l hl]
    constructor
    · rintro ⟨k, x, hx, hu⟩; exact .dict _ _ k x p hx hu
    · intro h
      cases h with
      | dict _ _ k x _ hx hu => exact ⟨k, x, hx, hu⟩
      | place _ _ _ _ h => simp [place] at h
      | arg _ _ f args g ats a ty _ h1 => simp [asCall] at h1
      | object _ _ f args g ats a ty _ _ h1 => simp [asCall] at h1
      | inside _ _ f args g ats a ty _ _ h1 => simp [asCall] at h1
  | .get _ h obj obj' f fr r0 r fs res h1 h2 h3 h4 h5, t, ht => by
    simp only [Raw, RawAll, Bool.and_eq_true, Bool.and_true, Option.isNone_iff_eq_none] at hraw
    obtain ⟨_, hh, hraw, rfl⟩ := hraw
    cases h with
    | sym n hr0 =>
      simp only [Ex.name, Option.some.injEq] at h1
      subst h1
      simp only [Raw, Option.isNone_iff_eq_none] at hh
      subst hh
      simp only [parse, if_true, Option.map_eq_some_iff] at ht
      obtain ⟨tobj, hto, rfl⟩ := ht
      have ih := Chk.exact hA hT henv hraw h2 tobj hto
      obtain ⟨k1, k2⟩ := ih.ref r h3
      have hp : place (scope env) (.get tobj f) = some (r.path ++ [f]) := by simp only [place, k1, Option.map]
      refine ⟨fun l hl p => ?_, fun r' hr' => ?_⟩
      · obtain ⟨own, rest, h6, h7, rfl⟩ := reqsOf_tup rfl hl
        simp only [reqsAll] at h7
        obtain ⟨a, ha, h7⟩ := bind_ok_iff.1 h7
        obtain ⟨b, hb, h7⟩ := bind_ok_iff.1 h7
        cases h7
        simp only [reqsOf, ownReqs, ok_bind'] at hb
        cases hb
        rw [askAll_append, own_asks h6, List.append_nil, List.append_nil, ih.reqs a ha, uses_place hp, uses_place k1]
        simp only [Ref.path]
        constructor
        · rintro (h | ⟨h, h'⟩)
          · exact h
          · exact ⟨h, h'.trans (List.prefix_append _ _)⟩
        · exact .inl
      · cases hr'
        refine ⟨hp, .inl ?_⟩
        have := k2.noFn hT h4 (fun _ e => by cases e)
        exact noFnAll_get (by simpa [NoFn] using this) h5
    | kw => simp [parse] at ht
    | _ => cases h1
  | .each _ h x xr col col' body body' r0 r it h1 h2 h3 h4 h5, t, ht => by
    simp only [Raw, RawAll, Bool.and_eq_true] at hraw
    obtain ⟨_, _, _, hraw1, hraw2, _⟩ := hraw
    have he : parse (.tup [.sym "each" none, .sym x (some (.ref r it)), col', body'] none) =
        (do let c ← parse col'; let b ← parse body'; some (.each x c b)) := by simp [parse]
    rw [he] at ht
    simp only [Option.bind_eq_bind, Option.bind_eq_some_iff, Option.some.injEq] at ht
    obtain ⟨tc, htc, tb, htb, rfl⟩ := ht
    have ih1 := Chk.exact hA hT henv hraw1 h2 tc htc
    obtain ⟨k1, k2⟩ := ih1.ref r h3
    have hfn : FnRef vars (.ref r it) := by
      have := k2.noFn hT h4 (fun _ e => by cases e)
      exact .inl (by show NoFn it = true; simpa [NoFn] using this)
    have ih2 := Chk.exact hA hT (henv.bind (x := x) hfn) hraw2 h5 tb htb
    refine ⟨fun l hl p => ?_, fun r' hr' => by cases hr'⟩
    obtain ⟨own, rest, h6, h7, rfl⟩ := reqsOf_tup rfl hl
    simp only [ownReqs] at h6
    cases h6
    simp only [reqsAll] at h7
    obtain ⟨a, ha, h7⟩ := bind_ok_iff.1 h7
    obtain ⟨b, hb, h7⟩ := bind_ok_iff.1 h7
    cases h7
    obtain ⟨c, hc1, hb⟩ := bind_ok_iff.1 hb
    obtain ⟨d, hd, hb⟩ := bind_ok_iff.1 hb
    cases hb
    obtain ⟨d1, hd1, hd⟩ := bind_ok_iff.1 hd
    obtain ⟨d2, hd2, hd⟩ := bind_ok_iff.1 hd
    cases hd2
    cases hd
    simp only [reqsOf] at ha
    simp only [List.nil_append, List.append_nil]
    rw [askAll_append, askAll_append, own_asks ha, ih1.reqs c hc1, ih2.reqs d1 hd1, scope_cons]
    simp only [Ref.path]
    constructor
    · rintro (⟨h, h'⟩ | h | h)
      · exact .eachCol _ _ _ _ _ (.place _ _ _ _ k1 h h')
      · exact .eachCol _ _ _ _ _ h
      · exact .eachBody _ _ _ _ _ _ k1 h
    · intro h
      cases h with
      | eachCol _ _ _ _ _ h => exact .inr (.inl h)
      | eachBody _ _ _ _ path _ h h' => rw [k1] at h; cases h; exact .inr (.inr h')
      | place _ _ _ _ h => simp [place] at h
      | arg _ _ f args g ats a ty _ h1 => simp [asCall] at h1
      | object _ _ f args g ats a ty _ _ h1 => simp [asCall] at h1
      | inside _ _ f args g ats a ty _ _ h1 => simp [asCall] at h1
  | .ifSome _ h x xr e e' a a' b b' r0 r r' h1 h2 h3 h4 h5 h6, t, ht => by
    simp only [Raw, RawAll, Bool.and_eq_true] at hraw
    obtain ⟨_, _, ⟨_, hraw1, _⟩, hraw2, hraw3, _⟩ := hraw
    have he : parse (.tup [.sym "if_some" none, .list [.sym x (some r'), e'], a', b'] none) =
        (do let c ← parse e'; let a ← parse a'; let b ← parse b'; some (.ifSome x c a b)) := by simp [parse]
    rw [he] at ht
    simp only [Option.bind_eq_bind, Option.bind_eq_some_iff, Option.some.injEq] at ht
    obtain ⟨te, hte, ta, hta, tb, htb, rfl⟩ := ht
    have ih1 := Chk.exact hA hT henv hraw1 h2 te hte
    obtain ⟨k1, k2⟩ := ih1.ref r h3
    have hr' : FnRef vars r' ∧ r'.path = r.path := by
      rcases h4 with ⟨u, hu, rfl⟩ | ⟨rfl, _⟩
      · refine ⟨.inl ?_, rfl⟩
        have := k2.noFn hT hu (fun _ e => by cases e)
        show NoFn u = true
        simpa [NoFn] using this
      · exact ⟨k2, rfl⟩
    have ih2 := Chk.exact hA hT (henv.bind (x := x) hr'.1) hraw2 h5 ta hta
    have ih3 := Chk.exact hA hT henv hraw3 h6 tb htb
    refine ⟨fun l hl p => ?_, fun r' hr' => by cases hr'⟩
    obtain ⟨own, rest, h7, h8, rfl⟩ := reqsOf_tup rfl hl
    simp only [ownReqs] at h7
    cases h7
    simp only [reqsAll] at h8
    obtain ⟨l0, hl0, h8⟩ := bind_ok_iff.1 h8
    obtain ⟨m, hm, h8⟩ := bind_ok_iff.1 h8
    cases h8
    obtain ⟨c, hc1, hm⟩ := bind_ok_iff.1 hm
    obtain ⟨d, hd, hm⟩ := bind_ok_iff.1 hm
    cases hm
    obtain ⟨d1, hd1, hd⟩ := bind_ok_iff.1 hd
    obtain ⟨d2, hd2, hd⟩ := bind_ok_iff.1 hd
    cases hd2
    cases hd
    simp only [reqsOf, reqsAll] at hl0
    obtain ⟨l1, hl1, hl0⟩ := bind_ok_iff.1 hl0
    obtain ⟨l2, hl2, hl0⟩ := bind_ok_iff.1 hl0
    cases hl0
    obtain ⟨l3, hl3, hl2⟩ := bind_ok_iff.1 hl2
    obtain ⟨l4, hl4, hl2⟩ := bind_ok_iff.1 hl2
    cases hl4
    cases hl2
    simp only [List.nil_append, List.append_nil]
    rw [askAll_append, askAll_append, askAll_append, own_asks hl1, ih1.reqs l3 hl3, ih2.reqs c hc1, ih3.reqs d1 hd1, scope_cons,
      hr'.2]
    constructor
    · rintro ((⟨h, h'⟩ | h) | h | h)
      · exact .someValue _ _ _ _ _ _ (.place _ _ _ _ k1 h h')
      · exact .someValue _ _ _ _ _ _ h
      · exact .someThen _ _ _ _ _ _ _ k1 h
      · exact .someElse _ _ _ _ _ _ h
    · intro h
      cases h with
      | someValue _ _ _ _ _ _ h => exact .inl (.inr h)
      | someThen _ _ _ _ _ path _ h h' => rw [k1] at h; cases h; exact .inr (.inl h')
      | someElse _ _ _ _ _ _ h => exact .inr (.inr h)
      | place _ _ _ _ h => simp [place] at h
      | arg _ _ f args g ats a ty _ h1 => simp [asCall] at h1
      | object _ _ f args g ats a ty _ _ h1 => simp [asCall] at h1
      | inside _ _ f args g ats a ty _ _ h1 => simp [asCall] at h1
  | .call _ f fr args args' r0 r ats h1 h2 h3 h4 h5, t, ht => by
    simp only [Raw, RawAll, Bool.and_eq_true] at hraw
    obtain ⟨_, _, hraw⟩ := hraw
    obtain ⟨ts, h6, h7⟩ := parse_asCall h1 ht
    refine ⟨fun l hl p => ?_, fun r' hr' => by cases hr'⟩
    have ih := exact_forall2 (ChkAll.exact hA hT henv hraw h4) h6
    unfold reqsOf at hl
    obtain ⟨own, h8, hl⟩ := bind_ok_iff.1 hl
    simp only [ownReqs] at h8
    cases h8
    simp only [Ex.ref] at hl
    have hgood := henv f r h2
    unfold FnRef at hgood
    cases hto : r.to with
    | callable ats' =>
      rw [hto] at hl h3 hgood
      cases h3
      obtain ⟨rest, h9, hl⟩ := bind_ok_iff.1 hl
      cases hl
      rcases hgood with h | ⟨g, ats'', h, hpath, hg⟩
      · simp [NoFn] at h
      · cases h
        rw [List.nil_append, exact_args ih h5.length_eq rest h9,
          uses_call h7 (by rw [dget_scope, h2, Option.map, hpath]) hg]
    | _ => (rw [hto] at hl; cases hl)
theorem ChkAll.exact (hA : NoAlias types) (hT : NoFnTypes types) {vars : List (String × Ty)} {env : List (String × Ref)}
    {es es' : List Ex} (henv : FnEnv vars env) (hraw : RawAll es = true) :
    ChkAll types env es es' → ∀ e' ∈ es', ∀ t, parse e' = some t → Exact types vars env e' t
  | .nil _, e', he, _, _ => by cases he
  | .cons _ _ _ _ _ h h', e', he, t, ht => by
    simp only [RawAll, Bool.and_eq_true] at hraw
    rcases List.mem_cons.1 he with rfl | he
    · exact Chk.exact hA hT henv hraw.1 h t ht
    · exact ChkAll.exact hA hT henv hraw.2 h' e' he t ht
end

/-- C58.  The requirements of a checked expression ask for exactly the paths which the expression uses: global variables
stand for themselves. -/
theorem c58_exact (H : PyHash) (types vars : List (String × Ty)) (lim : Nat) (e e' : Ex) (q : QNode) (t : Term)
    (hA : NoAlias types) (hT : NoFnTypes types)
    (hv : ∀ x t, dget vars x = some t → NoFn t = true ∨ ∃ ats, t = .callable ats)
    (hraw : Raw e = true) (hcheck : check types lim (rootEnv vars) e = .ok e') (hreq : extract H types e' = .ok q)
    (hp : parse e' = some t) (p : List String) :
    AsksFor q p ↔ Uses vars (vars.map fun v => (v.1, [v.1])) t p := by
  have hc := check_chk hA hcheck
  unfold extract at hreq
  obtain ⟨reqs, h1, h2⟩ := bind_ok_iff.1 hreq
  cases h2
  have henv : FnEnv vars (rootEnv vars) := by
    intro x r hr
    rw [dget_rootEnv, Option.map_eq_some_iff] at hr
    obtain ⟨ty, hx, rfl⟩ := hr
    rcases hv x ty hx with h | ⟨ats, rfl⟩
    · exact .inl h
    · exact .inr ⟨x, ats, rfl, rfl, hx⟩
  rw [asks_merge H (Hiku.SubExpr.reqsOf_plain e' reqs h1)]
  have := (Chk.exact hA hT henv hraw hc t hp).reqs reqs h1 p
  have hs : scope (rootEnv vars) = vars.map fun v => (v.1, [v.1]) := by
    simp [scope, rootEnv, Ref.path]
  rw [hs] at this
  exact this

end Hiku.Expr

namespace Hiku.SubExpr

open Hiku.Expr

/-- C58 for a field of a node which is defined by an expression: it asks the sub-graph for exactly the paths which the
expression uses, except for the options of the field. -/
theorem c58_field (H : PyHash) (lim : Nat) (g : Graph) (node : String) (d : Decl) (rt : List (String × Ty)) (c : Compiled)
    (term : Term) (hrt : rootTypes g = .ok rt)
    (hpost : postprocess H lim g node d.fns d.opts (toExpr d.src) = .ok c)
    (hsimple : SimpleTypes g d) (hsrc : source (d.isFn g) d.src = some term) (hn : ("this" :: d.params).Nodup)
    (p : List String) :
    AsksFor c.reqs p ↔ Uses (exprVars rt d.fns node d.opts) ((exprVars rt d.fns node d.opts).map fun v => (v.1, [v.1])) term p ∧
      ∀ x ∈ p.head?, x ∉ d.params := by
  unfold postprocess at hpost
  rw [hrt, ok_bind'] at hpost
  obtain ⟨e', hcheck, hpost⟩ := bind_ok_iff.1 hpost
  obtain ⟨q0, hext, hpost⟩ := bind_ok_iff.1 hpost
  obtain ⟨code, hcode, hpost⟩ := bind_ok_iff.1 hpost
  cases hpost
  have henv := vars_good (node := node) hsimple hn hrt
  have hfns : ∀ x ty, dget (exprVars rt d.fns node d.opts) x = some ty → NoFn ty = true ∨ ∃ ats, ty = .callable ats := by
    intro x ty hx
    rcases (henv x (.root x ty) (by rw [dget_rootEnv, hx]; rfl)).1 with h | ⟨ats, h, _⟩
    · exact .inl h
    · exact .inr ⟨ats, h⟩
  have hparse : parse e' = some term :=
    source_parse hsimple.noFn _ d.src (Nat.le_refl _) _ _ henv e' term hsrc (check_chk hsimple.alias_ hcheck)
  rw [← c58_exact H g.types (exprVars rt d.fns node d.opts) lim (toExpr d.src) e' q0 term hsimple.alias_ hsimple.noFn hfns
    (toExpr_raw _) hcheck hext hparse p]
  have hmem : ∀ i, i ∈ (QNode.mk (q0.fields.filter fun f => f.name ∉ d.params) false).fields ↔
      i ∈ q0.fields ∧ i.name ∉ d.params := by
    intro i
    simp [QNode.fields]
  show AsksFor (QNode.mk (q0.fields.filter fun f => f.name ∉ d.params) false) p ↔ _
  rw [asksFor_iff, asksFor_iff]
  constructor
  · rintro (⟨i, hi, rfl⟩ | ⟨n, q', o, a, p', h1, h2, rfl⟩)
    · obtain ⟨h3, h4⟩ := (hmem i).1 hi
      exact ⟨.inl ⟨i, h3, rfl⟩, by simpa using h4⟩
    · obtain ⟨h3, h4⟩ := (hmem _).1 h1
      exact ⟨.inr ⟨n, q', o, a, p', h3, h2, rfl⟩, fun x hx => by cases hx; exact h4⟩
  · rintro ⟨⟨i, hi, rfl⟩ | ⟨n, q', o, a, p', h1, h2, rfl⟩, h⟩
    · exact .inl ⟨i, (hmem i).2 ⟨hi, by simpa using h⟩, rfl⟩
    · exact .inr ⟨n, q', o, a, p', (hmem _).2 ⟨h1, h n rfl⟩, h2, rfl⟩

end Hiku.SubExpr
