import Verif.Spec.Registry
import Verif.Spec.SubExpr
import Verif.Proofs.Dict
import Verif.Proofs.Basic

/-! C63: the functions of an expression are found by `to_expr`; the order in which Python lists the set of them does not
matter. -/

namespace Hiku.SubExpr

open Hiku.Expr

/-! ### The registry -/

mutual
theorem mem_srcFns (f : String) : ∀ s : Src, f ∈ srcFns s ↔ Calls f s
  | .dot x p => by rw [srcFns]; exact ⟨nofun, nofun⟩
  | .other v => by rw [srcFns]; exact ⟨nofun, nofun⟩
  | .call g args => by
      rw [srcFns, List.mem_cons, mem_srcFnsAll f args]
      constructor
      · rintro (rfl | ⟨x, h1, h2⟩)
        · exact .here _
        · exact .arg h1 h2
      · intro h
        cases h with
        | here => exact .inl rfl
        | arg h1 h2 => exact .inr ⟨_, h1, h2⟩
  | .list xs => by
      rw [srcFns, mem_srcFnsAll f xs]
      constructor
      · rintro ⟨x, h1, h2⟩; exact .item h1 h2
      · intro h; cases h with | item h1 h2 => exact ⟨_, h1, h2⟩
  | .dict kvs => by
      rw [srcFns, mem_srcFnsKvs f kvs]
      constructor
      · rintro ⟨k, x, h1, h2⟩; exact .value h1 h2
      · intro h; cases h with | value h1 h2 => exact ⟨_, _, h1, h2⟩
theorem mem_srcFnsAll (f : String) : ∀ xs : List Src, f ∈ srcFnsAll xs ↔ ∃ x ∈ xs, Calls f x
  | [] => by rw [srcFnsAll]; exact ⟨nofun, nofun⟩
  | x :: r => by
      rw [srcFnsAll, List.mem_append, mem_srcFns f x, mem_srcFnsAll f r]
      simp
theorem mem_srcFnsKvs (f : String) : ∀ kvs : List (String × Src), f ∈ srcFnsKvs kvs ↔ ∃ k x, (k, x) ∈ kvs ∧ Calls f x
  | [] => by rw [srcFnsKvs]; exact ⟨nofun, nofun⟩
  | (k, x) :: r => by
      rw [srcFnsKvs, List.mem_append, mem_srcFns f x, mem_srcFnsKvs f r]
      constructor
      · rintro (h | ⟨k', y, h1, h2⟩)
        · exact ⟨k, x, by simp, h⟩
        · exact ⟨k', y, by simp [h1], h2⟩
      · rintro ⟨k', y, h1, h2⟩
        rcases List.mem_cons.1 h1 with h | h
        · cases h; exact .inl h2
        · exact .inr ⟨k', y, h, h2⟩
end

theorem mem_dmk_unit (l : List String) (x : String) : x ∈ (dmk (l.map fun n => (n, ()))).map (·.1) ↔ x ∈ l := by
  rw [mem_keys_dmk]
  simp

theorem fnTypes_fst (typeOf : String → Ty) (order : List String → List String) (s : Src) :
    (fnTypes typeOf order s).map (·.1) = order ((dmk ((srcFns s).map fun n => (n, ()))).map (·.1)) := by
  unfold fnTypes
  rw [List.map_map]
  exact List.map_id'' (fun _ => rfl) _

variable {typeOf : String → Ty} {order order' : List String → List String}

/-- C63: the checker and the compiled procedure get exactly the functions which are called somewhere in the expression, each
of them once and with the type it was defined with. -/
theorem c63_functions (ho : Lists order) (s : Src) :
    (∀ x, x ∈ (fnTypes typeOf order s).map (·.1) ↔ Calls x s) ∧ ((fnTypes typeOf order s).map (·.1)).Nodup ∧
      ∀ x t, dget (fnTypes typeOf order s) x = some t ↔ Calls x s ∧ t = typeOf x := by
  have h1 : ∀ x, x ∈ (fnTypes typeOf order s).map (·.1) ↔ Calls x s := by
    intro x
    rw [fnTypes_fst, (ho _).mem_iff, mem_dmk_unit, mem_srcFns]
  have h2 : ((fnTypes typeOf order s).map (·.1)).Nodup := by
    rw [fnTypes_fst, (ho _).nodup_iff]
    exact nodup_dmk _
  refine ⟨h1, h2, fun x t => ⟨fun h => ?_, fun h => ?_⟩⟩
  · have hm := dget_mem h
    refine ⟨(h1 x).1 (List.mem_map_of_mem hm), ?_⟩
    obtain ⟨y, _, hy⟩ := List.mem_map.1 hm
    cases hy
    rfl
  · obtain ⟨hc, rfl⟩ := h
    obtain ⟨⟨a, b⟩, hm, he⟩ := List.mem_map.1 ((h1 x).2 hc)
    cases he
    have : b = typeOf a := by
      obtain ⟨y, _, hy⟩ := List.mem_map.1 hm
      cases hy
      rfl
    subst this
    exact dget_of_mem_nodup h2 hm

/-! ### The checker looks names up only -/

theorem check_congr (types : List (String × Ty)) (lim : Nat) : ∀ (n : Nat) (e : Ex), sizeOf e ≤ n →
    ∀ env env' : List (String × Ref), (∀ x, dget env x = dget env' x) → check types lim env e = check types lim env' e := by
  intro n
  induction n with
  | zero => intro e he; cases e <;> simp at he
  | succ n ih =>
    intro e he env env' h
    have all : ∀ xs : List Ex, (∀ x ∈ xs, sizeOf x ≤ n) → checks types lim env xs = checks types lim env' xs := by
      intro xs
      induction xs with
      | nil => intro _; rfl
      | cons x r ihr =>
        intro hx
        simp only [checks]
        rw [ih x (hx x (by simp)) env env' h, ihr fun y hy => hx y (by simp [hy])]
    have under : ∀ (x : String) (r : Ref) y, dget ((x, r) :: env) y = dget ((x, r) :: env') y := by
      intro x r y
      rw [dget_cons, dget_cons, h]
    cases e with
    | sym x r => simp only [check]; rw [h]
    | kw x => rfl
    | const v => rfl
    | list xs =>
      simp only [check]
      rw [all xs fun x hx => by have := List.sizeOf_lt_of_mem hx; simp at he; omega]
    | dict xs =>
      simp only [check]
      rw [all xs fun x hx => by have := List.sizeOf_lt_of_mem hx; simp at he; omega]
    | tup xs r =>
      cases xs with
      | nil => rfl
      | cons hd args =>
        have hhd : sizeOf hd ≤ n := by simp at he; omega
        have hargs : ∀ x ∈ args, sizeOf x ≤ n := fun x hx => by
          have := List.sizeOf_lt_of_mem hx; simp at he; omega
        unfold check
        cases hd.name with
        | none => rfl
        | some nm =>
          dsimp only
          by_cases h1 : nm = "get"
          · rw [if_pos h1, if_pos h1]
            split
            · rename_i obj name nref
              rw [ih obj (hargs obj (by simp)) env env' h]
            · rfl
            · rfl
          rw [if_neg h1, if_neg h1]
          by_cases h2 : nm = "each"
          · rw [if_pos h2, if_pos h2]
            split
            · rename_i var vr col body
              rw [ih col (hargs col (by simp)) env env' h]
              congr 1; funext c; congr 1; funext r
              rw [ih body (hargs body (by simp)) _ _ (under var r)]
            · rfl
            · rfl
          rw [if_neg h2, if_neg h2]
          by_cases h3 : nm = "if_some"
          · rw [if_pos h3, if_pos h3]
            split
            · rename_i var vr e1 a b
              have hb := hargs (.list [.sym var vr, e1]) (by simp)
              rw [ih e1 (by simp at hb; omega) env env' h]
              congr 1; funext c; congr 1; funext r
              rw [ih a (hargs a (by simp)) _ _ (under var r), ih b (hargs b (by simp)) env env' h]
            · rfl
            · rfl
          rw [if_neg h3, if_neg h3, ih hd hhd env env' h, all args hargs]

theorem dget_rootEnv (vars : List (String × Ty)) (x : String) : dget (rootEnv vars) x = (dget vars x).map fun t => .root x t := by
  induction vars with
  | nil => rfl
  | cons v r ih =>
    simp only [rootEnv, List.map_cons] at ih ⊢
    rw [dget_cons, dget_cons]
    by_cases h : v.1 = x
    · subst h; simp
    · rw [if_neg h, if_neg h]; exact ih

theorem exprVars_congr {fns fns' : List (String × Ty)} (h : ∀ x, dget fns x = dget fns' x) (rt : List (String × Ty))
    (node : String) (opts : List GOption) (x : String) :
    dget (exprVars rt fns node opts) x = dget (exprVars rt fns' node opts) x := by
  simp only [exprVars, dget_dset, dget_dupdate, h]

theorem fnTypes_get (ho : Lists order) (ho' : Lists order') (s : Src) (x : String) :
    dget (fnTypes typeOf order s) x = dget (fnTypes typeOf order' s) x := by
  have h := (c63_functions (typeOf := typeOf) ho s).2.2 x
  have h' := (c63_functions (typeOf := typeOf) ho' s).2.2 x
  cases e : dget (fnTypes typeOf order s) x with
  | some t => exact ((h' t).2 ((h t).1 e)).symm
  | none =>
    cases e' : dget (fnTypes typeOf order' s) x with
    | none => rfl
    | some t => rw [(h t).2 ((h' t).1 e')] at e; cases e

/-- C63: an expression is checked, analysed and compiled with the same result (or the same exception) in whatever order
Python lists the set of its functions. -/
theorem c63_order (ho : Lists order) (ho' : Lists order') (H : PyHash) (lim : Nat) (g : Graph) (node : String)
    (opts : List GOption) (s : Src) :
    postprocess H lim g node (fnTypes typeOf order s) opts (toExpr s) =
      postprocess H lim g node (fnTypes typeOf order' s) opts (toExpr s) := by
  unfold postprocess
  congr 1; funext rt
  rw [check_congr g.types lim _ (toExpr s) (Nat.le_refl _) _ (rootEnv (exprVars rt (fnTypes typeOf order' s) node opts)) fun x => by
    rw [dget_rootEnv, dget_rootEnv, exprVars_congr (fnTypes_get ho ho' s)]]

/-- C63: what the names in an expression stand for: `this`, then the options of the field, then the fields and links of the
root of the lower graph, then the functions which are called in it; nothing else. -/
theorem c63_scope (ho : Lists order) (s : Src) (rt : List (String × Ty)) (hrt : (rt.map (·.1)).Nodup) (node : String)
    (opts : List GOption) (hopts : (opts.map (·.name)).Nodup) (x : String) :
    (x = "this" → dget (exprVars rt (fnTypes typeOf order s) node opts) x = some (.ref node)) ∧
    (x ≠ "this" → ∀ o ∈ opts, o.name = x →
      dget (exprVars rt (fnTypes typeOf order s) node opts) x = some (o.ty.getD .any)) ∧
    (x ≠ "this" → x ∉ opts.map (·.name) → ∀ t, (x, t) ∈ rt →
      dget (exprVars rt (fnTypes typeOf order s) node opts) x = some t) ∧
    (x ≠ "this" → x ∉ opts.map (·.name) → x ∉ rt.map (·.1) → Calls x s →
      dget (exprVars rt (fnTypes typeOf order s) node opts) x = some (typeOf x)) ∧
    (x ≠ "this" → x ∉ opts.map (·.name) → x ∉ rt.map (·.1) → ¬ Calls x s →
      dget (exprVars rt (fnTypes typeOf order s) node opts) x = none) := by
  have hf := (c63_functions (typeOf := typeOf) ho s).2.2 x
  have hon : ((opts.map fun o => (o.name, o.ty.getD Ty.any)).map (·.1)).Nodup := by
    rw [List.map_map]; exact hopts
  have ht : ∀ {c : Option Ty}, x ≠ "this" → (if THIS = x then some (Ty.ref node) else c) = c := fun h =>
    if_neg fun e => h e.symm
  have no : x ∉ opts.map (·.name) → dget (opts.map fun o => (o.name, o.ty.getD Ty.any)) x = none := by
    intro h
    cases e : dget (opts.map fun o => (o.name, o.ty.getD Ty.any)) x with
    | none => rfl
    | some t =>
      obtain ⟨o, h1, h2⟩ := List.mem_map.1 (dget_mem e)
      cases h2
      exact absurd (List.mem_map_of_mem h1) h
  have nr : x ∉ rt.map (·.1) → dget rt x = none := by
    intro h
    cases e : dget rt x with
    | none => rfl
    | some t => exact absurd (List.mem_map_of_mem (dget_mem e)) h
  simp only [exprVars, dget_dset, dget_dupdate_nodup _ _ _ hon, dget_dupdate_nodup _ _ _ hrt]
  refine ⟨fun h => if_pos h.symm, fun h o h1 h2 => ?_, fun h h1 t h2 => ?_, fun h h1 h2 h3 => ?_, fun h h1 h2 h3 => ?_⟩
  · rw [ht h, dget_of_mem_nodup hon (v := o.ty.getD .any) (h2 ▸ List.mem_map_of_mem h1)]
    rfl
  · rw [ht h, no h1, dget_of_mem_nodup hrt h2]; rfl
  · rw [ht h, no h1, nr h2, (hf _).2 ⟨h3, rfl⟩]; rfl
  · rw [ht h, no h1, nr h2]
    cases e : dget (fnTypes typeOf order s) x with
    | none => rfl
    | some t => exact absurd ((hf t).1 e).1 h3

mutual
theorem denote_congr {M : Type → Type} [Monad M] (D : PyDom M) (env env' ctx : D.V) (h : ∀ x, D.get env x = D.get env' x) :
    ∀ (t : Term) (ρ : List (String × D.V)), denote D env ctx ρ t = denote D env' ctx ρ t
  | .var x fn, ρ => by simp only [denote, h]
  | .const v, ρ => by simp only [denote]
  | .get t f, ρ => by simp only [denote, denote_congr D env env' ctx h t ρ]
  | .ite t a b, ρ => by
      simp only [denote, denote_congr D env env' ctx h t ρ, denote_congr D env env' ctx h a ρ, denote_congr D env env' ctx h b ρ]
  | .ifSome x e a b, ρ => by
      simp only [denote, denote_congr D env env' ctx h e ρ, denote_congr D env env' ctx h b ρ,
        fun v => denote_congr D env env' ctx h a ((x, v) :: ρ)]
  | .each x col body, ρ => by
      simp only [denote, denote_congr D env env' ctx h col ρ, fun v => denote_congr D env env' ctx h body ((x, v) :: ρ)]
  | .call f args, ρ => by
      simp only [denote, denote_congr D env env' ctx h f ρ, denotes_congr D env env' ctx h args ρ]
  | .list xs, ρ => by simp only [denote, denotes_congr D env env' ctx h xs ρ]
  | .dict kvs, ρ => by simp only [denote, denoteKvs_congr D env env' ctx h kvs ρ]
theorem denotes_congr {M : Type → Type} [Monad M] (D : PyDom M) (env env' ctx : D.V) (h : ∀ x, D.get env x = D.get env' x) :
    ∀ (ts : List Term) (ρ : List (String × D.V)), denotes D env ctx ρ ts = denotes D env' ctx ρ ts
  | [], ρ => by simp only [denotes]
  | t :: r, ρ => by simp only [denotes, denote_congr D env env' ctx h t ρ, denotes_congr D env env' ctx h r ρ]
theorem denoteKvs_congr {M : Type → Type} [Monad M] (D : PyDom M) (env env' ctx : D.V) (h : ∀ x, D.get env x = D.get env' x) :
    ∀ (ts : List (String × Term)) (ρ : List (String × D.V)), denoteKvs D env ctx ρ ts = denoteKvs D env' ctx ρ ts
  | [], ρ => by simp only [denoteKvs]
  | (k, t) :: r, ρ => by simp only [denoteKvs, denote_congr D env env' ctx h t ρ, denoteKvs_congr D env env' ctx h r ρ]
end

/-- C63: the value of an expression (see C55) does not depend on the order either. -/
theorem c63_meaning (ho : Lists order) (ho' : Lists order') (F : Fns) (D : Data) (sub : SubSem) (g : Graph) (node : GNode)
    (opts : List GOption) (s : Src) (i : Val) (vs : List Val) :
    meaning F D sub g node ⟨fnTypes typeOf order s, opts, s⟩ i vs =
      meaning F D sub g node ⟨fnTypes typeOf order' s, opts, s⟩ i vs := by
  have hm : ∀ x, x ∈ (fnTypes typeOf order s).map (·.1) ↔ x ∈ (fnTypes typeOf order' s).map (·.1) := fun x => by
    rw [(c63_functions ho s).1, (c63_functions ho' s).1]
  have hfn : Decl.isFn ⟨fnTypes typeOf order s, opts, s⟩ g = Decl.isFn ⟨fnTypes typeOf order' s, opts, s⟩ g := by
    funext x
    simp only [Decl.isFn, Decl.params]
    congr 1
    exact decide_eq_decide.2 (hm x)
  unfold meaning
  rw [hfn]
  dsimp only [Decl.params]
  cases source (Decl.isFn ⟨fnTypes typeOf order' s, opts, s⟩ g) s with
  | none => rfl
  | some t =>
    refine denote_congr (pyDom F (dataGet D sub g)) _ _ _ (fun x => ?_) t _
    show PV.get (dataGet D sub g) (.fns _) x = PV.get (dataGet D sub g) (.fns _) x
    simp only [PV.get, hm x]

/-! An example: `[if_(S.this.title, show(S.this.title, S.sep), None), each(S.g, S.this.genres, show(S.g.name, S.sep))]` -/

def exSrc : Src :=
  .list [.call "if" [.dot "this" ["title"], .call "show" [.dot "this" ["title"], .dot "sep" []], .other .none],
    .call "each" [.dot "g" [], .dot "this" ["genres"], .call "show" [.dot "g" ["name"], .dot "sep" []]]]

example : fnTypes (fun _ => .any) id exSrc = [("if", .any), ("show", .any), ("each", .any)] := by rfl
example : fnTypes (fun _ => .any) List.reverse exSrc = [("each", .any), ("show", .any), ("if", .any)] := by rfl
example : Lists id := fun _ => .refl _
example : Lists List.reverse := fun l => l.reverse_perm
example : Calls "show" exSrc := .item (List.mem_cons_self ..) (.arg (a := .call "show" [.dot "this" ["title"], .dot "sep" []]) (by simp) (.here _))
example : ¬ Calls "site" exSrc := by
  rw [← mem_srcFns]
  decide

end Hiku.SubExpr
