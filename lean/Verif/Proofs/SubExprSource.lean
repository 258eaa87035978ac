import Verif.Proofs.SubExprReqs

/-! C55: the checker finds out what the notation means -/

namespace Hiku.SubExpr

open Hiku.Expr

/-- the environment of the checker and the names of functions -/
def EnvFns (env : List (String × Ref)) (isFn : String → Bool) : Prop :=
  ∀ x r, dget env x = some r → GoodVar r.to ∧ isFn x = isCallable r.to

theorem noFn_notCallable {t : Ty} (h : NoFn t = true) : isCallable t = false := by
  cases t <;> first | rfl | (simp [NoFn] at h)

theorem GoodVar.noFn {t : Ty} (h : GoodVar t) (hc : isCallable t = false) : NoFn t = true := by
  rcases h with h | ⟨ats, rfl, _⟩
  · exact h
  · cases hc

theorem EnvFns.bind {env : List (String × Ref)} {isFn : String → Bool} (h : EnvFns env isFn) (x : String) {r : Ref}
    (hr : NoFn r.to = true) : EnvFns ((x, r) :: env) (but x isFn) := by
  intro y r' hy
  rw [dget_cons] at hy
  by_cases e : x = y
  · subst e
    rw [if_pos rfl] at hy
    cases hy
    exact ⟨.inl hr, by rw [noFn_notCallable hr]; simp [but]⟩
  · rw [if_neg e] at hy
    obtain ⟨h1, h2⟩ := h y r' hy
    exact ⟨h1, by rw [← h2]; simp [but, Ne.symm e]⟩

section
variable {types : List (String × Ty)} (hT : NoFnTypes types)
include hT

theorem dot_parse {env : List (String × Ref)} {isFn : String → Bool} (henv : EnvFns env isFn) (x : String) :
    ∀ (path : List String) (e' : Ex), Chk types env (dotExpr x path) e' →
      parse e' = some (path.foldr (fun f t => .get t f) (.var x (isFn x))) ∧
      ∃ r, e'.ref = some r ∧ GoodVar r.to ∧ isCallable r.to = (path.isEmpty && isFn x)
  | [], e', h => by
    simp only [dotExpr] at h
    cases h with
    | sym _ _ _ r hr =>
      obtain ⟨h1, h2⟩ := henv x r hr
      refine ⟨by simp [parse, h2], r, rfl, h1, by simp [h2]⟩
  | f :: path, e', h => by
    simp only [dotExpr] at h
    generalize hd : dotExpr x path = d at h
    cases h with
    | get _ _ _ obj' _ _ _ r fs res h1 h2 h3 h4 h5 =>
      subst hd
      obtain ⟨h6, r', h7, h8, _⟩ := dot_parse henv x path obj' h2
      rw [h3] at h7
      cases h7
      have hn : NoFn res = true := by
        rcases GoodVar.resolve hT h8 h4 with h | ⟨_, h, _⟩
        · simp only [NoFn] at h
          exact NoFnAll_mem h (dget_mem h5)
        · cases h
      refine ⟨by simp [parse, h6], _, rfl, .inl hn, ?_⟩
      show isCallable res = _
      rw [noFn_notCallable hn]
      simp
    | call _ _ _ _ args' _ r ats h1 => simp [special] at h1

/-- checked collections are not functions -/
theorem ref_noFn {env : List (String × Ref)} {isFn : String → Bool} (henv : EnvFns env isFn) {s : Src} {e' : Ex} {r : Ref}
    (hs : source isFn s ≠ none) (h : Chk types env (toExpr s) e') (hr : e'.ref = some r) :
    GoodVar r.to ∧ (bareFn isFn s = false → NoFn r.to = true) := by
  cases s with
  | dot x path =>
    simp only [toExpr] at h
    obtain ⟨_, r', h1, h2, h3⟩ := dot_parse hT henv x _ e' h
    rw [hr] at h1
    cases h1
    refine ⟨h2, fun hb => GoodVar.noFn h2 ?_⟩
    rw [h3]
    cases path with
    | nil => simpa [bareFn] using hb
    | cons f p => simp
  | call f args =>
    simp only [toExpr] at h
    generalize toExprs args = as at h
    cases h with
    | get _ _ obj obj' f' fr _ r0 fs res h1 h2 h3 h4 h5 =>
      simp only [Ex.name, Option.some.injEq] at h1
      subst h1
      exact absurd (by unfold source; rw [if_pos rfl]) hs
    | each => cases hr
    | ifSome => cases hr
    | call => cases hr
  | list xs => simp only [toExpr] at h; cases h; cases hr
  | dict kvs => simp only [toExpr] at h; cases h; cases hr
  | other v => simp only [toExpr] at h; cases h; cases hr


omit hT in
theorem sourceKvs_parse {env : List (String × Ref)} {isFn : String → Bool} :
    ∀ (kvs : List (String × Src)) (ys : List Ex) ts,
      (∀ k s, (k, s) ∈ kvs → ∀ e' t, source isFn s = some t → Chk types env (toExpr s) e' → parse e' = some t) →
      sourceKvs isFn kvs = some ts → ChkAll types env (toKvs kvs) ys → parseKvs ys = some ts
  | [], ys, ts, _, h, hc => by
    simp only [sourceKvs, Option.some.injEq] at h
    simp only [toKvs] at hc
    cases hc
    simp [parseKvs, h]
  | (k, x) :: r, ys, ts, hi, h, hc => by
    simp only [sourceKvs, Option.bind_eq_bind, Option.bind_eq_some_iff, Option.some.injEq] at h
    obtain ⟨a, h1, b, h2, rfl⟩ := h
    simp only [toKvs] at hc
    cases hc with
    | cons _ _ y _ ys hk hc =>
      cases hk
      cases hc with
      | cons _ _ z _ zs hx hc =>
        simp only [parseKvs, hi k x (by simp) z a h1 hx,
          sourceKvs_parse r zs b (fun k s hm => hi k s (by simp [hm])) h2 hc]
        rfl

omit hT in
theorem sources_parse {env : List (String × Ref)} {isFn : String → Bool} :
    ∀ (ss : List Src) (ys : List Ex) ts,
      (∀ s ∈ ss, ∀ e' t, source isFn s = some t → Chk types env (toExpr s) e' → parse e' = some t) →
      sources isFn ss = some ts → ChkAll types env (toExprs ss) ys → parseAll ys = some ts
  | [], ys, ts, _, h, hc => by
    simp only [sources, Option.some.injEq] at h
    simp only [toExprs] at hc
    cases hc
    simp [parseAll, h]
  | x :: r, ys, ts, hi, h, hc => by
    simp only [sources, Option.bind_eq_bind, Option.bind_eq_some_iff, Option.some.injEq] at h
    obtain ⟨a, h1, b, h2, rfl⟩ := h
    simp only [toExprs] at hc
    cases hc with
    | cons _ _ y _ ys hx hc =>
      simp only [parseAll, hi x (by simp) y a h1 hx, sources_parse r ys b (fun s hm => hi s (by simp [hm])) h2 hc]
      rfl

/-- checked expressions are read as they were written -/
theorem source_parse : ∀ (n : Nat) (s : Src), sizeOf s ≤ n → ∀ (env : List (String × Ref)) (isFn : String → Bool), EnvFns env isFn →
    ∀ e' t, source isFn s = some t → Chk types env (toExpr s) e' → parse e' = some t := by
  intro n
  induction n with
  | zero => intro s hs; cases s <;> simp at hs
  | succ n ih =>
    intro s hn env isFn henv e' t hs hc
    cases s with
    | dot x path =>
      simp only [source, Option.some.injEq] at hs
      subst hs
      simp only [toExpr] at hc
      rw [(dot_parse hT henv x _ e' hc).1, List.foldr_reverse]
    | list xs =>
      simp only [source, Option.map_eq_some_iff] at hs
      obtain ⟨ts, h1, rfl⟩ := hs
      simp only [toExpr] at hc
      cases hc with
      | list _ _ ys hc =>
        have := sources_parse xs ys ts (fun s hm e' t h h' =>
          ih s (by have := List.sizeOf_lt_of_mem hm; simp at hn; omega) env isFn henv e' t h h') h1 hc
        simp [parse, this]
    | dict kvs =>
      simp only [source, Option.map_eq_some_iff] at hs
      obtain ⟨ts, h1, rfl⟩ := hs
      simp only [toExpr] at hc
      cases hc with
      | dict _ _ ys hc =>
        have := sourceKvs_parse kvs ys ts (fun k s hm e' t h h' =>
          ih s (by have := List.sizeOf_lt_of_mem hm; simp at hn this; omega) env isFn henv e' t h h') h1 hc
        simp [parse, this]
    | other v =>
      simp only [source] at hs
      simp only [toExpr] at hc
      cases hc
      split at hs
      · rename_i hp; cases hs; simp [parse, hp]
      · cases hs
    | call f args =>
      have hargs : ∀ s ∈ args, sizeOf s ≤ n := fun s hm => by
        have := List.sizeOf_lt_of_mem hm; simp at hn; omega
      unfold source at hs
      by_cases h1 : f = "get"
      · rw [if_pos h1] at hs; cases hs
      rw [if_neg h1] at hs
      simp only [toExpr] at hc
      by_cases h0 : f = "if"
      · subst h0
        rw [if_pos rfl] at hs
        split at hs
        · rename_i e a b
          simp only [Option.bind_eq_bind, Option.bind_eq_some_iff, Option.some.injEq] at hs
          obtain ⟨te, he, ta, ha, tb, hb, rfl⟩ := hs
          simp only [toExprs] at hc
          generalize hE : toExpr e = ee at hc
          generalize hA : toExpr a = ea at hc
          generalize hB : toExpr b = eb at hc
          generalize hL : [ee, ea, eb] = l at hc
          cases hc with
          | call _ _ _ _ as' _ r ats k1 k2 k3 k4 k5 =>
            subst hE hA hB hL
            have hsz : sizeOf e ≤ n ∧ sizeOf a ≤ n ∧ sizeOf b ≤ n := by
              simp at hn; omega
            cases k4 with
            | cons _ _ y1 _ ys1 c1 k4 =>
            cases k4 with
            | cons _ _ y2 _ ys2 c2 k4 =>
            cases k4 with
            | cons _ _ y3 _ ys3 c3 k4 =>
            cases k4
            have p1 := ih e hsz.1 env isFn henv y1 te he c1
            have p2 := ih a hsz.2.1 env isFn henv y2 ta ha c2
            have p3 := ih b hsz.2.2 env isFn henv y3 tb hb c3
            simp [parse, p1, p2, p3]
          | get _ _ _ _ _ _ _ _ _ _ k1 => simp [Ex.name] at k1
          | each _ _ _ _ _ _ _ _ _ _ _ k1 => simp [Ex.name] at k1
          | ifSome _ _ _ _ _ _ _ _ _ _ _ _ _ k1 => simp [Ex.name] at k1
        · cases hs
      rw [if_neg h0] at hs
      by_cases h2 : f = "if_some"
      · subst h2
        rw [if_pos rfl] at hs
        split at hs
        · rename_i x e a b
          split at hs
          · cases hs
          rename_i hbare
          simp only [Option.bind_eq_bind, Option.bind_eq_some_iff, Option.some.injEq] at hs
          obtain ⟨te, he, ta, ha, tb, hb, rfl⟩ := hs
          simp only [toExprs, toExpr, List.reverse_nil, dotExpr] at hc
          generalize hE : toExpr e = ee at hc
          generalize hA : toExpr a = ea at hc
          generalize hB : toExpr b = eb at hc
          cases hc with
          | ifSome _ _ _ _ _ ee' _ ea' _ eb' _ r r' k1 k2 k3 k4 k5 k6 =>
            subst hE hA hB
            have hsz : sizeOf e ≤ n ∧ sizeOf a ≤ n ∧ sizeOf b ≤ n := by
              simp at hn; omega
            obtain ⟨hg, hnf⟩ := ref_noFn hT henv (by rw [he]; simp) k2 k3
            have hnf := hnf (by simpa using hbare)
            have hr' : NoFn r'.to = true := by
              rcases k4 with ⟨u, hu, rfl⟩ | ⟨rfl, _⟩
              · rcases GoodVar.resolve hT hg hu with h | ⟨_, h, _⟩
                · simpa [NoFn, Ref.to] using h
                · cases h
              · exact hnf
            have p1 := ih e hsz.1 env isFn henv ee' te he k2
            have p2 := ih a hsz.2.1 _ _ (henv.bind x hr') ea' ta ha k5
            have p3 := ih b hsz.2.2 env isFn henv eb' tb hb k6
            simp [parse, p1, p2, p3]
          | call _ _ _ _ _ _ _ _ k1 => simp [special] at k1
        · cases hs
      rw [if_neg h2] at hs
      by_cases h3 : f = "each"
      · subst h3
        rw [if_pos rfl] at hs
        split at hs
        · rename_i x col body
          simp only [Option.bind_eq_bind, Option.bind_eq_some_iff, Option.some.injEq] at hs
          obtain ⟨te, he, ta, ha, rfl⟩ := hs
          simp only [toExprs, toExpr, List.reverse_nil, dotExpr] at hc
          generalize hE : toExpr col = ee at hc
          generalize hA : toExpr body = ea at hc
          cases hc with
          | each _ _ _ _ _ ee' _ ea' _ r it k1 k2 k3 k4 k5 =>
            subst hE hA
            have hsz : sizeOf col ≤ n ∧ sizeOf body ≤ n := by
              simp at hn; omega
            obtain ⟨hg, _⟩ := ref_noFn hT henv (by rw [he]; simp) k2 k3
            have hr' : NoFn it = true := by
              rcases GoodVar.resolve hT hg k4 with h | ⟨_, h, _⟩
              · simpa [NoFn] using h
              · cases h
            have p1 := ih col hsz.1 env isFn henv ee' te he k2
            have p2 := ih body hsz.2 _ _ (henv.bind x (r := .ref r it) hr') ea' ta ha k5
            simp [parse, p1, p2]
          | call _ _ _ _ _ _ _ _ k1 => simp [special] at k1
        · cases hs
      rw [if_neg h3] at hs
      simp only [Option.map_eq_some_iff] at hs
      obtain ⟨ts, h4, rfl⟩ := hs
      generalize hE : toExprs args = eas at hc
      cases hc with
      | call _ _ _ _ as' _ r ats k1 k2 k3 k4 k5 =>
        subst hE
        have := sources_parse args as' ts (fun s hm e' t h h' => ih s (hargs s hm) env isFn henv e' t h h') h4 k4
        unfold parse
        rw [if_neg h1, if_neg h0, if_neg h2, if_neg h3]
        simp [this, (henv f r k2).2]
      | get _ _ _ _ _ _ _ _ _ _ k1 =>
        simp only [Ex.name, Option.some.injEq] at k1
        exact absurd k1 h1
      | each _ _ _ _ _ _ _ _ _ _ _ k1 =>
        simp only [Ex.name, Option.some.injEq] at k1
        exact absurd k1 h3
      | ifSome _ _ _ _ _ _ _ _ _ _ _ _ _ k1 =>
        simp only [Ex.name, Option.some.injEq] at k1
        exact absurd k1 h2

end

end Hiku.SubExpr
