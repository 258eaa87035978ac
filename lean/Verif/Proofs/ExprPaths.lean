import Verif.Spec.ExprPaths
import Verif.Props.Define2
import Verif.Props.ExprValid

/-! Lemmas for C58 -/

namespace Hiku.Expr

variable {types : List (String × Ty)}

/-! ### Types of arguments -/

theorem hasRecord_iff : ∀ (t : Ty), HasRecord t = (typeToQuery t).isSome
  | .record fs => by simp [HasRecord, typeToQuery]
  | .sequence t => by simp only [HasRecord, typeToQuery]; exact hasRecord_iff t
  | .optional t => by simp only [HasRecord, typeToQuery]; exact hasRecord_iff t
  | .any | .boolean | .string | .integer | .float | .mapping .. | .ref _ | .callable _ => by simp [HasRecord, typeToQuery]

theorem tyWants_hasRecord {t : Ty} {p : List String} (h : TyWants t p) : HasRecord t = true := by
  induction h with
  | field => rfl
  | deeper => rfl
  | sequence _ _ _ ih => exact ih
  | optional _ _ _ ih => exact ih

theorem asksFor_tyWants : ∀ (k : Nat) (t : Ty), sizeOf t ≤ k → ∀ q, typeToQuery t = some q → ∀ p, (AsksFor q p ↔ TyWants t p) := by
  intro k
  induction k with
  | zero => intro t ht; cases t <;> simp at ht
  | succ k ih =>
    intro t ht q hq p
    cases t with
    | record fs =>
      simp only [typeToQuery, Option.some.injEq] at hq
      subst hq
      have hs : ∀ kv ∈ fs, sizeOf kv.2 ≤ k := by
        intro kv hkv
        have := List.sizeOf_lt_of_mem hkv
        have h2 : sizeOf kv = 1 + sizeOf kv.1 + sizeOf kv.2 := by cases kv; simp
        simp at ht
        omega
      rw [asksFor_iff]
      constructor
      · rintro (⟨i, hi, rfl⟩ | ⟨n, q', o, a, p', h1, h2, rfl⟩)
        · obtain ⟨kv, hkv, rfl⟩ := mem_fieldsToQuery.1 hi
          cases typeToQuery kv.2 <;> exact .field fs kv.1 kv.2 hkv
        · obtain ⟨kv, hkv, h⟩ := mem_fieldsToQuery.1 h1
          cases hk : typeToQuery kv.2 with
          | none => rw [hk] at h; cases h
          | some q1 =>
            rw [hk] at h
            cases h
            exact .deeper fs kv.1 kv.2 p' hkv ((ih kv.2 (hs kv hkv) _ hk p').1 h2)
      · intro h
        cases h with
        | field _ n t hm =>
          refine .inl ⟨_, mem_fieldsToQuery.2 ⟨_, hm, rfl⟩, ?_⟩
          cases hk : typeToQuery t <;> rfl
        | deeper _ n t p' hm hw =>
          cases hk : typeToQuery t with
          | none =>
            have := tyWants_hasRecord hw
            rw [hasRecord_iff, hk] at this
            cases this
          | some q1 =>
            exact .inr ⟨n, q1, none, none, p', mem_fieldsToQuery.2 ⟨_, hm, by simp only [hk]⟩, (ih t (hs _ hm) _ hk p').2 hw, rfl⟩
    | sequence t =>
      simp only [typeToQuery] at hq
      rw [ih t (by simp at ht; omega) q hq p]
      exact ⟨.sequence _ _, fun h => by cases h; assumption⟩
    | optional t =>
      simp only [typeToQuery] at hq
      rw [ih t (by simp at ht; omega) q hq p]
      exact ⟨.optional _ _, fun h => by cases h; assumption⟩
    | _ => simp [typeToQuery] at hq

/-! ### References -/

def Ref.path : Ref → List String
  | .root x _ => [x]
  | .named b n _ => b.path ++ [n]
  | .ref b _ => b.path

/-- something more is asked for -/
def More (add : Option QNode) (p : List String) : Prop := ∃ a, add = some a ∧ AsksFor a p

theorem asks_one_link {n : String} {q : QNode} {p : List String} :
    AsksFor (.mk [.link n q none none] false) p ↔ p = [n] ∨ ∃ p', p = n :: p' ∧ AsksFor q p' := by
  rw [asksFor_iff]
  simp only [QNode.fields, List.mem_singleton]
  constructor
  · rintro (⟨i, rfl, rfl⟩ | ⟨_, _, _, _, p', h1, h2, rfl⟩)
    · exact .inl rfl
    · cases h1; exact .inr ⟨p', rfl, h2⟩
  · rintro (rfl | ⟨p', rfl, h⟩)
    · exact .inl ⟨_, rfl, rfl⟩
    · exact .inr ⟨n, q, none, none, p', rfl, h, rfl⟩

theorem asks_one_field {n : String} {p : List String} : AsksFor (.mk [.field n none none] false) p ↔ p = [n] := by
  rw [asksFor_iff]
  simp only [QNode.fields, List.mem_singleton]
  constructor
  · rintro (⟨i, rfl, rfl⟩ | ⟨_, _, _, _, p', h1, h2, rfl⟩)
    · rfl
    · cases h1
  · rintro rfl
    exact .inl ⟨_, rfl, rfl⟩

theorem not_asks_empty {p : List String} : ¬ AsksFor (.mk [] false) p := by
  rw [asksFor_iff]
  rintro (⟨i, hi, _⟩ | ⟨_, _, _, _, _, h, _⟩)
  · cases hi
  · cases h

theorem asks_getD {n : String} {add : Option QNode} {p : List String} :
    AsksFor (.mk [.link n (add.getD (.mk [] false)) none none] false) p ↔ p = [n] ∨ ∃ p', p = n :: p' ∧ More add p' := by
  rw [asks_one_link]
  refine or_congr Iff.rfl ?_
  cases add with
  | none =>
    constructor
    · rintro ⟨p', _, h⟩; exact (not_asks_empty h).elim
    · rintro ⟨p', _, a, h, _⟩; cases h
  | some a =>
    constructor
    · rintro ⟨p', rfl, h⟩; exact ⟨p', rfl, a, rfl, h⟩
    · rintro ⟨p', rfl, a', h, h'⟩; cases h; exact ⟨p', rfl, h'⟩

theorem reqStep_named {n : String} {t : Ty} {add r : Option QNode} (h : reqStep types (some n) t add = .ok r) :
    ∃ s, r = some s ∧ ∀ p, (AsksFor s p ↔ p = [n] ∨ ∃ p', p = n :: p' ∧ More add p') := by
  unfold reqStep at h
  split at h
  · cases h
    exact ⟨_, rfl, fun p => asks_getD⟩
  · obtain ⟨it', _, h⟩ := bind_ok_iff.1 h
    split at h
    · cases h
      exact ⟨_, rfl, fun p => asks_getD⟩
    · split at h
      · cases h
      · cases add with
        | none =>
          cases h
          refine ⟨_, rfl, fun p => ?_⟩
          rw [asks_one_field]
          exact ⟨.inl, fun h => h.elim id (by rintro ⟨p', _, a, h, _⟩; cases h)⟩
        | some => cases h
  · split at h
    · cases h
    · cases add with
      | none =>
        cases h
        refine ⟨_, rfl, fun p => ?_⟩
        rw [asks_one_field]
        exact ⟨.inl, fun h => h.elim id (by rintro ⟨p', _, a, h, _⟩; cases h)⟩
      | some => cases h

theorem reqStep_unnamed {t : Ty} {add r : Option QNode} (h : reqStep types none t add = .ok r) : r = add := by
  unfold reqStep at h
  split at h
  · cases h; rfl
  · obtain ⟨it', _, h⟩ := bind_ok_iff.1 h
    split at h
    · cases h
    · split at h
      · cases h
      · cases add <;> cases h
  · split at h
    · cases h
    · cases add with
      | none => cases h; rfl
      | some => cases h

theorem cons_ne {n : String} {l : List String} : n :: l ≠ [] := by simp

/-- the requirement of a reference: everything on the way to it, and what is added -/
theorem refToReq_asks : ∀ (r : Ref) (add : Option QNode) (q : QNode), refToReq types r add = .ok q → ∀ p,
    (AsksFor q p ↔ (p ≠ [] ∧ p <+: r.path) ∨ ∃ p', p = r.path ++ p' ∧ More add p')
  | .root n t, add, q, h, p => by
    simp only [refToReq] at h
    obtain ⟨ty, _, h⟩ := bind_ok_iff.1 h
    obtain ⟨s, hs, h⟩ := bind_ok_iff.1 h
    obtain ⟨s', rfl, h1⟩ := reqStep_named hs
    cases h
    rw [h1]
    refine or_congr ?_ ?_
    · simp only [Ref.path]
      constructor
      · rintro rfl; exact ⟨by simp, List.prefix_refl _⟩
      · rintro ⟨h2, h3⟩
        rcases p with _ | ⟨a, p⟩
        · exact absurd rfl h2
        · rw [List.cons_prefix_cons] at h3
          rw [h3.1, List.prefix_nil.1 h3.2]
    · exact Iff.rfl
  | .named b n t, add, q, h, p => by
    simp only [refToReq] at h
    obtain ⟨ty, _, h⟩ := bind_ok_iff.1 h
    obtain ⟨s, hs, h⟩ := bind_ok_iff.1 h
    obtain ⟨s', rfl, h1⟩ := reqStep_named hs
    rw [refToReq_asks b _ q h p]
    simp only [Ref.path, List.prefix_concat_iff]
    constructor
    · rintro (⟨h2, h3⟩ | ⟨p', rfl, a, ha, h4⟩)
      · exact .inl ⟨h2, .inr h3⟩
      · cases ha
        rcases (h1 p').1 h4 with rfl | ⟨p'', rfl, h5⟩
        · exact .inl ⟨by simp, .inl rfl⟩
        · exact .inr ⟨p'', by simp, h5⟩
    · rintro (⟨h2, rfl | h3⟩ | ⟨p', rfl, h4⟩)
      · exact .inr ⟨[n], rfl, _, rfl, (h1 _).2 (.inl rfl)⟩
      · exact .inl ⟨h2, h3⟩
      · exact .inr ⟨n :: p', by simp, _, rfl, (h1 _).2 (.inr ⟨p', rfl, h4⟩)⟩
  | .ref b t, add, q, h, p => by
    simp only [refToReq] at h
    obtain ⟨ty, _, h⟩ := bind_ok_iff.1 h
    obtain ⟨s, hs, h2⟩ := bind_ok_iff.1 h
    rw [reqStep_unnamed hs] at h2
    rw [refToReq_asks b _ q h2 p]
    rfl

/-! ### Expressions -/

def scope (env : List (String × Ref)) : Scope := env.map fun v => (v.1, v.2.path)

theorem dget_scope (env : List (String × Ref)) (x : String) : dget (scope env) x = (dget env x).map Ref.path := by
  induction env with
  | nil => rfl
  | cons v r ih =>
    obtain ⟨k, w⟩ := v
    simp only [scope, List.map_cons, dget]
    by_cases h : k = x
    · simp [h]
    · rw [if_neg h, if_neg h]; exact ih

/-- functions are global variables -/
def FnRef (vars : List (String × Ty)) (r : Ref) : Prop :=
  NoFn r.to = true ∨ ∃ g ats, r.to = .callable ats ∧ r.path = [g] ∧ dget vars g = some (.callable ats)

def FnEnv (vars : List (String × Ty)) (env : List (String × Ref)) : Prop := ∀ x r, dget env x = some r → FnRef vars r

theorem FnEnv.bind {vars : List (String × Ty)} {env : List (String × Ref)} (h : FnEnv vars env) {x : String} {r : Ref}
    (hr : FnRef vars r) : FnEnv vars ((x, r) :: env) := by
  intro y r' hy
  simp only [dget] at hy
  by_cases e : x = y
  · rw [if_pos e] at hy; cases hy; exact hr
  · rw [if_neg e] at hy; exact h y r' hy

theorem FnRef.noFn (hT : NoFnTypes types) {vars : List (String × Ty)} {r : Ref} {t : Ty} (h : FnRef vars r)
    (hr : Resolves types r.to t) (hc : ∀ ats, t ≠ .callable ats) : NoFn t = true := by
  unfold FnRef at h
  generalize r.to = u at hr h
  cases hr with
  | named n _ hn => exact hT _ _ hn
  | itself =>
    rcases h with h | ⟨g, ats, h, _⟩
    · exact h
    · exact absurd h (hc ats)

/-- what the requirements ask for -/
def AskAll (l : List QNode) (p : List String) : Prop := ∃ q ∈ l, AsksFor q p

theorem askAll_append {a b : List QNode} {p : List String} : AskAll (a ++ b) p ↔ AskAll a p ∨ AskAll b p := by
  simp only [AskAll, List.mem_append]
  constructor
  · rintro ⟨q, h | h, h'⟩
    · exact .inl ⟨q, h, h'⟩
    · exact .inr ⟨q, h, h'⟩
  · rintro (⟨q, h, h'⟩ | ⟨q, h, h'⟩)
    · exact ⟨q, .inl h, h'⟩
    · exact ⟨q, .inr h, h'⟩

theorem askAll_nil {p : List String} : ¬ AskAll [] p := by rintro ⟨_, h, _⟩; cases h

theorem askAll_one {q : QNode} {p : List String} : AskAll [q] p ↔ AsksFor q p := by simp [AskAll]

theorem own_asks {r : Ref} {l : List QNode} (h : ownReqs types (some r) = .ok l) (p : List String) :
    AskAll l p ↔ p ≠ [] ∧ p <+: r.path := by
  simp only [ownReqs] at h
  obtain ⟨q, h1, h⟩ := bind_ok_iff.1 h
  cases h
  rw [askAll_one, refToReq_asks r none q h1 p]
  constructor
  · rintro (h | ⟨_, _, a, h, _⟩)
    · exact h
    · cases h
  · exact .inl

/-- a checked expression -/
structure Exact (types vars : List (String × Ty)) (env : List (String × Ref)) (e' : Ex) (t : Term) : Prop where
  reqs : ∀ l, reqsOf types e' = .ok l → ∀ p, AskAll l p ↔ Uses vars (scope env) t p
  ref : ∀ r, e'.ref = some r → place (scope env) t = some r.path ∧ FnRef vars r

theorem uses_place {vars : List (String × Ty)} {σ : Scope} {t : Term} {path p : List String} (h : place σ t = some path) :
    Uses vars σ t p ↔ p ≠ [] ∧ p <+: path := by
  constructor
  · intro hu
    cases hu with
    | place _ _ path' _ h1 h2 h3 => rw [h] at h1; cases h1; exact ⟨h2, h3⟩
    | arg _ _ f args g ats a ty _ h1 => cases t <;> simp [asCall] at h1 <;> simp [place] at h
    | object _ _ f args g ats a ty _ _ h1 => cases t <;> simp [asCall] at h1 <;> simp [place] at h
    | inside _ _ f args g ats a ty _ _ h1 => cases t <;> simp [asCall] at h1 <;> simp [place] at h
    | _ => simp [place] at h
  · rintro ⟨h1, h2⟩
    exact .place _ _ path _ h h1 h2

theorem exact_all {vars : List (String × Ty)} {env : List (String × Ref)} : ∀ {es : List Ex} {ts : List Term},
    List.Forall₂ (Exact types vars env) es ts → ∀ l, reqsAll types es = .ok l → ∀ p,
      (AskAll l p ↔ ∃ t ∈ ts, Uses vars (scope env) t p)
  | [], _, h, l, hl, p => by
    cases h
    simp only [reqsAll] at hl
    cases hl
    simp [askAll_nil]
  | x :: r, _, h, l, hl, p => by
    cases h with
    | cons h1 h2 =>
      simp only [reqsAll] at hl
      obtain ⟨a, ha, hl⟩ := bind_ok_iff.1 hl
      obtain ⟨b, hb, hl⟩ := bind_ok_iff.1 hl
      cases hl
      rw [askAll_append, h1.reqs a ha, exact_all h2 b hb]
      simp

/-- what a call uses -/
def ArgUses (vars : List (String × Ty)) (σ : Scope) (a : Term) (ty : Ty) (p : List String) : Prop :=
  (HasRecord ty = false ∧ Uses vars σ a p) ∨
  (HasRecord ty = true ∧ ∃ path, place σ a = some path ∧ p ≠ [] ∧ p <+: path) ∨
  ∃ path p', place σ a = some path ∧ p = path ++ p' ∧ TyWants ty p'

theorem exact_args {vars : List (String × Ty)} {env : List (String × Ref)} :
    ∀ {ats : List Ty} {es : List Ex} {ts : List Term}, List.Forall₂ (Exact types vars env) es ts → es.length = ats.length →
      ∀ l, reqsArgs types ats es = .ok l → ∀ p, (AskAll l p ↔ ∃ a ty, (a, ty) ∈ ts.zip ats ∧ ArgUses vars (scope env) a ty p)
  | [], es, ts, h, hs, l, hl, p => by
    cases h with
    | nil =>
      simp only [reqsArgs] at hl
      cases hl
      simp [askAll_nil]
    | cons => simp at hs
  | t :: ats, es, ts, h, hs, l, hl, p => by
    cases h with
    | nil => simp at hs
    | cons h1 h2 =>
      rename_i x t' xs ts'
      have rest := fun b hb => exact_args h2 (by simpa using hs) b hb p
      simp only [reqsArgs] at hl
      have key : ∀ a, (AskAll a p ↔ ArgUses vars (scope env) t' t p) → ∀ b, reqsArgs types ats xs = .ok b →
          (AskAll (a ++ b) p ↔ ∃ a ty, (a, ty) ∈ (t' :: ts').zip (t :: ats) ∧ ArgUses vars (scope env) a ty p) := by
        intro a ha b hb
        rw [askAll_append, ha, rest b hb]
        simp only [List.zip_cons_cons, List.mem_cons, Prod.mk.injEq]
        constructor
        · rintro (h | ⟨a, ty, h, h'⟩)
          · exact ⟨_, _, .inl ⟨rfl, rfl⟩, h⟩
          · exact ⟨a, ty, .inr h, h'⟩
        · rintro ⟨a, ty, ⟨rfl, rfl⟩ | h, h'⟩
          · exact .inl h'
          · exact .inr ⟨a, ty, h, h'⟩
      cases ht : typeToQuery t with
      | none =>
        rw [ht] at hl
        dsimp only at hl
        obtain ⟨a, h3, hl⟩ := bind_ok_iff.1 hl
        obtain ⟨b, h4, hl⟩ := bind_ok_iff.1 hl
        cases hl
        refine key a ?_ b h4
        have hn : HasRecord t = false := by rw [hasRecord_iff, ht]; rfl
        rw [h1.reqs a h3]
        constructor
        · exact fun h => .inl ⟨hn, h⟩
        · rintro (⟨_, h⟩ | ⟨h, _⟩ | ⟨_, _, _, _, h⟩)
          · exact h
          · rw [hn] at h; cases h
          · rw [tyWants_hasRecord h] at hn; cases hn
      | some qt =>
        rw [ht] at hl
        dsimp only at hl
        cases hr : x.ref with
        | none => rw [hr] at hl; cases hl
        | some ref =>
          rw [hr] at hl
          obtain ⟨q0, h3, hl⟩ := bind_ok_iff.1 hl
          rw [ok_bind'] at hl
          obtain ⟨b, h4, hl⟩ := bind_ok_iff.1 hl
          cases hl
          refine key [q0] ?_ b h4
          have hn : HasRecord t = true := by rw [hasRecord_iff, ht]; rfl
          obtain ⟨h5, _⟩ := h1.ref ref hr
          rw [askAll_one, refToReq_asks ref _ q0 h3 p]
          constructor
          · rintro (⟨h6, h7⟩ | ⟨p', rfl, a, ha, h6⟩)
            · exact .inr (.inl ⟨hn, _, h5, h6, h7⟩)
            · cases ha
              exact .inr (.inr ⟨_, p', h5, rfl, (asksFor_tyWants _ t (Nat.le_refl _) _ ht p').1 h6⟩)
          · rintro (⟨h, _⟩ | ⟨_, path, h6, h7, h8⟩ | ⟨path, p', h6, rfl, h7⟩)
            · rw [hn] at h; cases h
            · rw [h5] at h6; cases h6; exact .inl ⟨h7, h8⟩
            · rw [h5] at h6; cases h6
              exact .inr ⟨p', rfl, _, rfl, (asksFor_tyWants _ t (Nat.le_refl _) _ ht p').2 h7⟩

theorem exact_forall2 {vars : List (String × Ty)} {env : List (String × Ref)} : ∀ {es : List Ex} {ts : List Term},
    (∀ e ∈ es, ∀ t, parse e = some t → Exact types vars env e t) → List.Forall₂ (fun e t => parse e = some t) es ts →
    List.Forall₂ (Exact types vars env) es ts
  | [], _, _, h => by cases h; exact .nil
  | _ :: _, _, hs, h => by
    cases h with
    | cons h1 h2 => exact .cons (hs _ (by simp) _ h1) (exact_forall2 (fun e he => hs e (by simp [he])) h2)

theorem exact_kvs {vars : List (String × Ty)} {env : List (String × Ref)} : ∀ {es : List Ex} {kvs : List (String × Term)},
    (∀ e ∈ es, ∀ t, parse e = some t → Exact types vars env e t) → parseKvs es = some kvs →
    ∀ l, reqsAll types es = .ok l → ∀ p, (AskAll l p ↔ ∃ k t, (k, t) ∈ kvs ∧ Uses vars (scope env) t p)
  | [], kvs, _, h, l, hl, p => by
    simp only [parseKvs] at h
    cases h
    simp only [reqsAll] at hl
    cases hl
    simp [askAll_nil]
  | .kw k :: x :: r, kvs, hs, h, l, hl, p => by
    simp only [parseKvs, Option.bind_eq_bind, Option.bind_eq_some_iff, Option.some.injEq] at h
    obtain ⟨a, h1, b, h2, rfl⟩ := h
    simp only [reqsAll, reqsOf] at hl
    rw [ok_bind'] at hl
    obtain ⟨c, hc, hl⟩ := bind_ok_iff.1 hl
    obtain ⟨d, hd, hc⟩ := bind_ok_iff.1 hc
    obtain ⟨e, he, hc⟩ := bind_ok_iff.1 hc
    cases hc
    cases hl
    rw [List.nil_append, askAll_append, (hs x (by simp) a h1).reqs d hd, exact_kvs (fun e he => hs e (by simp [he])) h2 e he]
    simp only [List.mem_cons, Prod.mk.injEq]
    constructor
    · rintro (h | ⟨k', t, h, h'⟩)
      · exact ⟨k, a, .inl ⟨rfl, rfl⟩, h⟩
      · exact ⟨k', t, .inr h, h'⟩
    · rintro ⟨k', t, ⟨rfl, rfl⟩ | h, h'⟩
      · exact .inl h'
      · exact .inr ⟨k', t, h, h'⟩
  | [.kw _], _, _, h, _, _, _ => by simp [parseKvs] at h
  | .sym .. :: _, _, _, h, _, _, _ | .tup .. :: _, _, _, h, _, _, _ | .list _ :: _, _, _, h, _, _, _
  | .dict _ :: _, _, _, h, _, _, _ | .const _ :: _, _, _, h, _, _, _ => by simp [parseKvs] at h

theorem parse_asCall {f : String} {r : Ref} {args : List Ex} {o : Option Ref} {t : Term} (hf : special f = false)
    (h : parse (.tup (.sym f (some r) :: args) o) = some t) :
    ∃ ts, List.Forall₂ (fun e t => parse e = some t) args ts ∧ asCall t = some (f, ts) := by
  simp only [special, Bool.or_eq_false_iff, decide_eq_false_iff_not] at hf
  obtain ⟨⟨h1, h2⟩, h3⟩ := hf
  unfold parse at h
  rw [if_neg h1, if_neg h2, if_neg h3] at h
  by_cases hif : f = "if"
  · rw [if_pos hif] at h
    split at h
    · rename_i a b c
      simp only [Option.bind_eq_bind, Option.bind_eq_some_iff, Option.some.injEq] at h
      obtain ⟨x, hx, y, hy, z, hz, rfl⟩ := h
      exact ⟨[x, y, z], .cons hx (.cons hy (.cons hz .nil)), by rw [hif]; rfl⟩
    · cases h
  · rw [if_neg hif] at h
    simp only [Option.map_eq_some_iff] at h
    obtain ⟨ts, h4, rfl⟩ := h
    exact ⟨ts, parseAll_forall2 h4, rfl⟩

theorem uses_call {vars : List (String × Ty)} {σ : Scope} {t : Term} {f : String} {args : List Term} {g : String}
    {ats : List Ty} (hc : asCall t = some (f, args)) (hf : dget σ f = some [g]) (hg : dget vars g = some (.callable ats))
    (p : List String) : Uses vars σ t p ↔ ∃ a ty, (a, ty) ∈ args.zip ats ∧ ArgUses vars σ a ty p := by
  constructor
  · intro h
    cases h with
    | place _ _ path _ h1 => cases t <;> simp [asCall] at hc <;> simp [place] at h1
    | arg _ _ f' args' g' ats' a ty _ h1 h2 h3 h4 h5 h6 =>
      rw [hc] at h1; cases h1; rw [hf] at h2; cases h2; rw [hg] at h3; cases h3
      exact ⟨a, ty, h4, .inl ⟨h5, h6⟩⟩
    | object _ _ f' args' g' ats' a ty path _ h1 h2 h3 h4 h5 h6 h7 h8 =>
      rw [hc] at h1; cases h1; rw [hf] at h2; cases h2; rw [hg] at h3; cases h3
      exact ⟨a, ty, h4, .inr (.inl ⟨h5, path, h6, h7, h8⟩)⟩
    | inside _ _ f' args' g' ats' a ty path p' h1 h2 h3 h4 h5 h6 =>
      rw [hc] at h1; cases h1; rw [hf] at h2; cases h2; rw [hg] at h3; cases h3
      exact ⟨a, ty, h4, .inr (.inr ⟨path, p', h5, rfl, h6⟩)⟩
    | _ => simp [asCall] at hc
  · rintro ⟨a, ty, hm, ⟨h1, h2⟩ | ⟨h1, path, h2, h3, h4⟩ | ⟨path, p', h1, rfl, h2⟩⟩
    · exact .arg _ _ f args g ats a ty p hc hf hg hm h1 h2
    · exact .object _ _ f args g ats a ty path p hc hf hg hm h1 h2 h3 h4
    · exact .inside _ _ f args g ats a ty path p' hc hf hg hm h1 h2

end Hiku.Expr
