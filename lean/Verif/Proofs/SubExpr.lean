import Verif.Spec.SubExpr
import Verif.Proofs.SemMerge
import Verif.Props.ExprReqs2
import Verif.Props.Expr
import Verif.Props.Denormalize2

/-! C55: expressions over trees and over the data -/

namespace Hiku.SubExpr

open Hiku.Expr

/-! ### The same values -/

section
variable {O1 O2 : Type} {R : O1 → O2 → Prop}

/-- pairs with the same keys -/
abbrev SameKvs (R : O1 → O2 → Prop) : List (String × PV O1) → List (String × PV O2) → Prop :=
  List.Forall₂ fun a b => a.1 = b.1 ∧ Same R a.2 b.2

theorem Same.ofKvs {xs : List (String × PV O1)} {ys : List (String × PV O2)} (h : SameKvs R xs ys) :
    Same R (.dict xs) (.dict ys) := by
  refine .dict ?_ ?_
  · induction h with
    | nil => rfl
    | cons h _ ih => simp [h.1, ih]
  · rw [List.forall₂_map_left_iff, List.forall₂_map_right_iff]
    exact h.imp fun _ _ h => h.2

theorem Same.toKvs : ∀ {xs : List (String × PV O1)} {ys : List (String × PV O2)}, xs.map Prod.fst = ys.map Prod.fst →
    List.Forall₂ (Same R) (xs.map Prod.snd) (ys.map Prod.snd) → SameKvs R xs ys
  | [], [], _, _ => .nil
  | [], _ :: _, h, _ => by cases h
  | _ :: _, [], h, _ => by cases h
  | x :: xs, y :: ys, h, h' => by
    simp only [List.map_cons, List.cons.injEq] at h
    cases h' with
    | cons h1 h2 => exact .cons ⟨h.1, h1⟩ (Same.toKvs h.2 h2)

theorem SameKvs.get {xs : List (String × PV O1)} {ys : List (String × PV O2)} (h : SameKvs R xs ys) (x : String) :
    (dget xs x = none ∧ dget ys x = none) ∨ ∃ v w, dget xs x = some v ∧ dget ys x = some w ∧ Same R v w := by
  induction h with
  | nil => exact .inl ⟨rfl, rfl⟩
  | @cons a b xs ys h _ ih =>
    rw [dget_cons, dget_cons, ← h.1]
    by_cases e : a.1 = x
    · simp only [e, if_true]
      exact .inr ⟨_, _, rfl, rfl, h.2⟩
    · simp only [e, if_false]
      exact ih

theorem same_refl_map {α : Type} (f : α → Val) (xs : List α) :
    List.Forall₂ (Same R) (xs.map fun x => PV.val (f x)) (xs.map fun x => PV.val (f x)) := by
  induction xs with
  | nil => exact .nil
  | cons x r ih => exact .cons (.val _) ih

theorem same_refl_vals (xs : List Val) : List.Forall₂ (Same R) (xs.map PV.val) (xs.map PV.val) := by
  induction xs with
  | nil => exact .nil
  | cons x r ih => exact .cons (.val x) ih

variable {get1 : O1 → String → Except Err (PV O1)} {get2 : O2 → String → Except Err (PV O2)}

theorem get_same (hS : Stands get1 get2 R) {v : PV O1} {w : PV O2} (h : Same R v w) {f : String} {r : PV O1}
    (hr : PV.get get1 v f = .ok r) : ∃ r', PV.get get2 w f = .ok r' ∧ Same R r r' := by
  cases h with
  | obj h => exact hS _ _ h f r hr
  | list => cases hr
  | fn => cases hr
  | fns ns =>
    simp only [PV.get] at hr ⊢
    split at hr
    · rename_i hn; cases hr; exact ⟨_, if_pos hn, .fn f⟩
    · cases hr
  | dict h1 h2 =>
    simp only [PV.get] at hr ⊢
    rcases (Same.toKvs h1 h2).get f with ⟨e, _⟩ | ⟨v, w, e1, e2, h⟩
    · rw [e] at hr; cases hr
    · rw [e1] at hr; cases hr
      rw [e2]
      exact ⟨_, rfl, h⟩
  | val v =>
    match v with
    | .map _ kvs =>
      simp only [PV.get] at hr ⊢
      cases e : dget kvs (.str f) with
      | none => rw [e] at hr; cases hr
      | some x => rw [e] at hr; cases hr; exact ⟨_, rfl, .val x⟩
    | .atom _ => cases hr
    | .seq _ _ => cases hr
    | .tagged _ _ => cases hr
    | .ref _ _ => cases hr

theorem iter_same {v : PV O1} {w : PV O2} (h : Same R v w) {r : List (PV O1)}
    (hr : v.iter = .ok r) : ∃ r', w.iter = .ok r' ∧ List.Forall₂ (Same R) r r' := by
  cases h with
  | obj h => cases hr
  | list h => cases hr; exact ⟨_, rfl, h⟩
  | fn => cases hr
  | fns ns => cases hr; exact ⟨_, rfl, same_refl_map .str ns⟩
  | @dict xs ys h1 h2 =>
    cases hr
    refine ⟨_, rfl, ?_⟩
    have e1 : (xs.map fun kv => (PV.val (.str kv.1) : PV O1)) = (xs.map Prod.fst).map fun k => PV.val (.str k) := by simp
    have e2 : (ys.map fun kv => (PV.val (.str kv.1) : PV O2)) = (ys.map Prod.fst).map fun k => PV.val (.str k) := by simp
    rw [e1, e2, h1]
    exact same_refl_map .str _
  | val v =>
    match v with
    | .map _ kvs => cases hr; exact ⟨_, rfl, same_refl_map (fun kv : Val × Val => kv.1) kvs⟩
    | .atom a =>
      cases a <;> first
        | (cases hr; exact ⟨_, rfl, same_refl_map (fun c => .str (String.singleton c)) _⟩)
        | cases hr
    | .seq _ xs => cases hr; exact ⟨_, rfl, same_refl_vals xs⟩
    | .tagged _ _ => cases hr
    | .ref _ _ => cases hr

theorem truthy_same {v : PV O1} {w : PV O2} (h : Same R v w) : v.truthy = w.truthy := by
  cases h with
  | list h => cases h <;> rfl
  | @dict xs ys h _ =>
    cases xs <;> cases ys <;> first | rfl | cases h
  | _ => rfl

theorem isNone_same {v : PV O1} {w : PV O2} (h : Same R v w) : v.isNone = w.isNone := by
  cases h with
  | val v =>
    match v with
    | .atom a => cases a <;> rfl
    | .map _ kvs => rfl
    | .seq _ xs => rfl
    | .tagged _ _ => rfl
    | .ref _ _ => rfl
  | _ => rfl

theorem call_same {F : Fns} (hF : Parametric F) (hS : Stands get1 get2 R) {v : PV O1} {w : PV O2} (h : Same R v w)
    {xs : List (PV O1)} {ys : List (PV O2)} (hx : List.Forall₂ (Same R) xs ys) {r : PV O1}
    (hr : (pyDom F get1).call v xs = .ok r) : ∃ r', (pyDom F get2).call w ys = .ok r' ∧ Same R r r' := by
  cases h with
  | fn n => exact hF get1 get2 R hS n xs ys hx r hr
  | _ => cases hr

mutual
theorem reify_same : ∀ (v : PV O1) (w : PV O2), Same R v w → reify v = reify w
  | .val _, _, h => by cases h; simp [reify]
  | .obj _, _, h => by cases h; simp [reify]
  | .fn _, _, h => by cases h; simp [reify]
  | .fns _, _, h => by cases h; simp [reify]
  | .list xs, _, h => by
    cases h with
    | list h => rw [reify, reify, reifyAll_same xs _ h]
  | .dict xs, _, h => by
    cases h with
    | dict h1 h2 => rw [reify, reify, reifyKvs_same xs _ (Same.toKvs h1 h2)]
theorem reifyAll_same : ∀ (xs : List (PV O1)) (ys : List (PV O2)), List.Forall₂ (Same R) xs ys → reifyAll xs = reifyAll ys
  | [], _, h => by cases h; rfl
  | x :: r, _, h => by
    cases h with
    | cons h1 h2 => rw [reifyAll, reifyAll, reify_same x _ h1, reifyAll_same r _ h2]
theorem reifyKvs_same : ∀ (xs : List (String × PV O1)) (ys : List (String × PV O2)), SameKvs R xs ys → reifyKvs xs = reifyKvs ys
  | [], _, h => by cases h; rfl
  | (k, x) :: r, _, h => by
    cases h with
    | @cons _ b _ _ h1 h2 =>
      obtain ⟨k', y⟩ := b
      obtain ⟨rfl, h1⟩ := h1
      rw [reifyKvs, reifyKvs, reify_same x _ h1, reifyKvs_same r _ h2]
end

end

/-! ### Expressions -/

section
variable {D1 D2 : PyDom (Except Err)}

/-- the second Python does what the first one does -/
structure Sim (D1 D2 : PyDom (Except Err)) (S : D1.V → D2.V → Prop) : Prop where
  const : ∀ c, S (D1.const c) (D2.const c)
  list : ∀ xs ys, List.Forall₂ S xs ys → S (D1.list xs) (D2.list ys)
  dict : ∀ xs ys, List.Forall₂ (fun a b => a.1 = b.1 ∧ S a.2 b.2) xs ys → S (D1.dict xs) (D2.dict ys)
  isNone : ∀ v w, S v w → D1.isNone v = D2.isNone w
  truthy : ∀ v w, S v w → ∀ b, D1.truthy v = .ok b → D2.truthy w = .ok b
  get : ∀ v w, S v w → ∀ f r, D1.get v f = .ok r → ∃ r', D2.get w f = .ok r' ∧ S r r'
  iter : ∀ v w, S v w → ∀ r, D1.iter v = .ok r → ∃ r', D2.iter w = .ok r' ∧ List.Forall₂ S r r'
  call : ∀ v w, S v w → ∀ xs ys, List.Forall₂ S xs ys → ∀ r, D1.call v xs = .ok r → ∃ r', D2.call w ys = .ok r' ∧ S r r'

variable {S : D1.V → D2.V → Prop} (hS : Sim D1 D2 S)

theorem mapM_sim {A B C E : Type} {P : A → B → Prop} {Q : C → E → Prop} {f1 : A → Except Err C} {f2 : B → Except Err E}
    (hf : ∀ v w, P v w → ∀ r, f1 v = .ok r → ∃ r', f2 w = .ok r' ∧ Q r r') :
    ∀ {xs : List A} {ys : List B}, List.Forall₂ P xs ys → ∀ r, xs.mapM f1 = .ok r →
      ∃ r', ys.mapM f2 = .ok r' ∧ List.Forall₂ Q r r' := by
  intro xs ys h
  induction h with
  | nil => intro r hr; cases hr; exact ⟨[], rfl, .nil⟩
  | @cons a b xs ys h _ ih =>
    intro r hr
    rw [List.mapM_cons] at hr
    obtain ⟨x, h1, hr⟩ := bind_ok_iff.1 hr
    obtain ⟨xs', h2, hr⟩ := bind_ok_iff.1 hr
    cases hr
    obtain ⟨y, h3, h4⟩ := hf a b h x h1
    obtain ⟨ys', h5, h6⟩ := ih xs' h2
    refine ⟨y :: ys', ?_, .cons h4 h6⟩
    rw [List.mapM_cons, h3, ok_bind', h5, ok_bind']; rfl

theorem sim_get {ρ1 : List (String × D1.V)} {ρ2 : List (String × D2.V)}
    (h : List.Forall₂ (fun a b => a.1 = b.1 ∧ S a.2 b.2) ρ1 ρ2) (x : String) :
    (dget ρ1 x = none ∧ dget ρ2 x = none) ∨ ∃ v w, dget ρ1 x = some v ∧ dget ρ2 x = some w ∧ S v w := by
  induction h with
  | nil => exact .inl ⟨rfl, rfl⟩
  | @cons a b xs ys h _ ih =>
    rw [dget_cons, dget_cons, ← h.1]
    by_cases e : a.1 = x
    · simp only [e, if_true]
      exact .inr ⟨_, _, rfl, rfl, h.2⟩
    · simp only [e, if_false]
      exact ih

variable {e1 c1 : D1.V} {e2 c2 : D2.V} (he : S e1 e2) (hc : S c1 c2)
include hS he hc

mutual
theorem denote_sim : ∀ (t : Term) (ρ1 : List (String × D1.V)) (ρ2 : List (String × D2.V)),
      List.Forall₂ (fun a b => a.1 = b.1 ∧ S a.2 b.2) ρ1 ρ2 → ∀ v,
      denote D1 e1 c1 ρ1 t = .ok v → ∃ w, denote D2 e2 c2 ρ2 t = .ok w ∧ S v w
  | .var x fn, ρ1, ρ2, hρ, v, h => by
    simp only [denote] at h ⊢
    rcases sim_get hρ x with ⟨a, b⟩ | ⟨v', w', a, b, h'⟩
    · rw [a] at h
      rw [b]
      cases fn with
      | true => exact hS.get _ _ he _ _ h
      | false => exact hS.get _ _ hc _ _ h
    · rw [a] at h
      rw [b]
      cases h
      exact ⟨w', rfl, h'⟩
  | .get t f, ρ1, ρ2, hρ, v, h => by
    simp only [denote] at h ⊢
    obtain ⟨a, h1, h2⟩ := bind_ok_iff.1 h
    obtain ⟨b, h3, h4⟩ := denote_sim t ρ1 ρ2 hρ a h1
    rw [h3, ok_bind']
    exact hS.get _ _ h4 _ _ h2
  | .ite t a b, ρ1, ρ2, hρ, v, h => by
    simp only [denote] at h ⊢
    obtain ⟨x, h1, h2⟩ := bind_ok_iff.1 h
    obtain ⟨y, h3, h4⟩ := denote_sim t ρ1 ρ2 hρ x h1
    obtain ⟨z, hz, h2⟩ := bind_ok_iff.1 h2
    rw [h3, ok_bind', hS.truthy _ _ h4 _ hz, ok_bind']
    cases z with
    | true =>
      rw [if_pos rfl] at h2 ⊢
      exact denote_sim a ρ1 ρ2 hρ v h2
    | false =>
      rw [if_neg (by simp)] at h2 ⊢
      exact denote_sim b ρ1 ρ2 hρ v h2
  | .ifSome x e a b, ρ1, ρ2, hρ, v, h => by
    simp only [denote] at h ⊢
    obtain ⟨u, h1, h2⟩ := bind_ok_iff.1 h
    obtain ⟨w, h3, h4⟩ := denote_sim e ρ1 ρ2 hρ u h1
    rw [h3, ok_bind', ← hS.isNone _ _ h4]
    cases hb : D1.isNone u with
    | true =>
      rw [hb, if_pos rfl] at h2
      rw [if_pos rfl]
      exact denote_sim b ρ1 ρ2 hρ v h2
    | false =>
      rw [hb, if_neg (by simp)] at h2
      rw [if_neg (by simp)]
      exact denote_sim a ((x, u) :: ρ1) ((x, w) :: ρ2) (.cons ⟨rfl, h4⟩ hρ) v h2
  | .each x col body, ρ1, ρ2, hρ, v, h => by
    simp only [denote] at h ⊢
    obtain ⟨u, h1, h2⟩ := bind_ok_iff.1 h
    obtain ⟨w, h3, h4⟩ := denote_sim col ρ1 ρ2 hρ u h1
    rw [h3, ok_bind']
    obtain ⟨xs, h5, h6⟩ := bind_ok_iff.1 h2
    obtain ⟨ys, h7, h8⟩ := hS.iter _ _ h4 _ h5
    rw [h7, ok_bind']
    obtain ⟨r, h9, h10⟩ := bind_ok_iff.1 h6
    cases h10
    obtain ⟨r', h11, h12⟩ := mapM_sim (P := S) (Q := S)
      (f2 := fun y => denote D2 e2 c2 ((x, y) :: ρ2) body)
      (fun a b hab r hr => denote_sim body ((x, a) :: ρ1) ((x, b) :: ρ2) (.cons ⟨rfl, hab⟩ hρ) r hr) h8 r h9
    rw [h11, ok_bind']
    exact ⟨_, rfl, hS.list _ _ h12⟩
  | .call f args, ρ1, ρ2, hρ, v, h => by
    simp only [denote] at h ⊢
    obtain ⟨u, h1, h2⟩ := bind_ok_iff.1 h
    obtain ⟨w, h3, h4⟩ := denote_sim f ρ1 ρ2 hρ u h1
    rw [h3, ok_bind']
    obtain ⟨xs, h5, h6⟩ := bind_ok_iff.1 h2
    obtain ⟨ys, h7, h8⟩ := denotes_sim args ρ1 ρ2 hρ xs h5
    rw [h7, ok_bind']
    exact hS.call _ _ h4 _ _ h8 _ h6
  | .list xs, ρ1, ρ2, hρ, v, h => by
    simp only [denote] at h ⊢
    obtain ⟨u, h1, h2⟩ := bind_ok_iff.1 h
    cases h2
    obtain ⟨ys, h7, h8⟩ := denotes_sim xs ρ1 ρ2 hρ u h1
    rw [h7, ok_bind']
    exact ⟨_, rfl, hS.list _ _ h8⟩
  | .dict kvs, ρ1, ρ2, hρ, v, h => by
    simp only [denote] at h ⊢
    obtain ⟨u, h1, h2⟩ := bind_ok_iff.1 h
    cases h2
    obtain ⟨ys, h7, h8⟩ := denoteKvs_sim kvs ρ1 ρ2 hρ u h1
    rw [h7, ok_bind']
    exact ⟨_, rfl, hS.dict _ _ h8⟩
  | .const c, ρ1, ρ2, hρ, v, h => by
    simp only [denote] at h ⊢
    cases h
    exact ⟨_, rfl, hS.const c⟩
theorem denotes_sim : ∀ (ts : List Term) (ρ1 : List (String × D1.V)) (ρ2 : List (String × D2.V)),
      List.Forall₂ (fun a b => a.1 = b.1 ∧ S a.2 b.2) ρ1 ρ2 → ∀ v,
      denotes D1 e1 c1 ρ1 ts = .ok v → ∃ w, denotes D2 e2 c2 ρ2 ts = .ok w ∧ List.Forall₂ S v w
  | [], ρ1, ρ2, hρ, v, h => by
    simp only [denotes] at h ⊢
    cases h
    exact ⟨[], rfl, .nil⟩
  | t :: ts, ρ1, ρ2, hρ, v, h => by
    simp only [denotes] at h ⊢
    obtain ⟨a, h1, h2⟩ := bind_ok_iff.1 h
    obtain ⟨b, h3, h4⟩ := bind_ok_iff.1 h2
    cases h4
    obtain ⟨a', h5, h6⟩ := denote_sim t ρ1 ρ2 hρ a h1
    obtain ⟨b', h7, h8⟩ := denotes_sim ts ρ1 ρ2 hρ b h3
    rw [h5, ok_bind', h7, ok_bind']
    exact ⟨_, rfl, .cons h6 h8⟩
theorem denoteKvs_sim : ∀ (ts : List (String × Term)) (ρ1 : List (String × D1.V)) (ρ2 : List (String × D2.V)),
      List.Forall₂ (fun a b => a.1 = b.1 ∧ S a.2 b.2) ρ1 ρ2 → ∀ v,
      denoteKvs D1 e1 c1 ρ1 ts = .ok v →
      ∃ w, denoteKvs D2 e2 c2 ρ2 ts = .ok w ∧ List.Forall₂ (fun a b => a.1 = b.1 ∧ S a.2 b.2) v w
  | [], ρ1, ρ2, hρ, v, h => by
    simp only [denoteKvs] at h ⊢
    cases h
    exact ⟨[], rfl, .nil⟩
  | (k, t) :: ts, ρ1, ρ2, hρ, v, h => by
    simp only [denoteKvs] at h ⊢
    obtain ⟨a, h1, h2⟩ := bind_ok_iff.1 h
    obtain ⟨b, h3, h4⟩ := bind_ok_iff.1 h2
    cases h4
    obtain ⟨a', h5, h6⟩ := denote_sim t ρ1 ρ2 hρ a h1
    obtain ⟨b', h7, h8⟩ := denoteKvs_sim ts ρ1 ρ2 hρ b h3
    rw [h5, ok_bind', h7, ok_bind']
    exact ⟨_, rfl, .cons ⟨rfl, h6⟩ h8⟩
end

end

/-- Python over trees and Python over the data -/
theorem sim_py {O1 O2 : Type} {R : O1 → O2 → Prop} {get1 : O1 → String → Except Err (PV O1)}
    {get2 : O2 → String → Except Err (PV O2)} {F : Fns} (hF : Parametric F) (hS : Stands get1 get2 R) :
    Sim (pyDom F get1) (pyDom F get2) (Same R) where
  const c := .val c
  list _ _ h := .list h
  dict _ _ h := .ofKvs h
  isNone _ _ h := isNone_same h
  truthy v w h b hb := by
    have hb : Except.ok (PV.truthy v) = Except.ok b := hb
    cases hb
    show Except.ok (PV.truthy w) = _
    rw [truthy_same h]
  get _ _ h _ _ hr := get_same hS h hr
  iter _ _ h _ hr := iter_same h hr
  call _ _ h _ _ hx _ hr := call_same hF hS h hx hr

end Hiku.SubExpr
