import Verif.Spec.Builder
import Verif.Proofs.Basic

/-! C48: the query builder builds what is written -/

namespace Hiku.Builder

variable {hp hp' : Heap}

/-! ### Handles and heaps -/

def ObjOk (hp : Heap) : Obj → Prop
  | .handle k => k < hp.length
  | .other => True

/-- nothing refers to the handle -/
def Unref (hp : Heap) (k : Nat) : Prop := ∀ (j : Nat) (h : Handle) (os : List Obj), hp[j]? = some h → h.items = some os → Obj.handle k ∉ os

/-- existing handles are unchanged -/
structure Ext (hp hp' : Heap) : Prop where
  len : hp.length ≤ hp'.length
  same : ∀ k, k < hp.length → hp'[k]? = hp[k]?

theorem Ext.refl (hp : Heap) : Ext hp hp := ⟨Nat.le_refl _, fun _ _ => rfl⟩

theorem Ext.trans {a b c : Heap} (h1 : Ext a b) (h2 : Ext b c) : Ext a c :=
  ⟨Nat.le_trans h1.len h2.len, fun k h => by rw [h2.same k (Nat.lt_of_lt_of_le h h1.len), h1.same k h]⟩

theorem ext_append (hp : Heap) (l : List Handle) : Ext hp (hp ++ l) :=
  ⟨by simp, fun k h => List.getElem?_append_left h⟩

theorem ext_set {a b : Heap} {k : Nat} (h : Ext a b) (hk : a.length ≤ k) (x : Handle) : Ext a (b.set k x) :=
  ⟨by simp [h.len], fun j hj => by rw [List.getElem?_set_ne (by omega), h.same j hj]⟩

theorem objOk_len {hp hp' : Heap} (h : hp.length ≤ hp'.length) {o : Obj} (ho : ObjOk hp o) : ObjOk hp' o := by
  cases o with
  | other => trivial
  | handle k => exact Nat.lt_of_lt_of_le ho h

theorem wf_append (h : WF hp) {x : Handle} (hx : ∀ os, x.items = some os → ∀ j, Obj.handle j ∈ os → j < hp.length) :
    WF (hp ++ [x]) := by
  obtain ⟨⟨q, h1, h2⟩, h3⟩ := h
  have h0 : 0 < hp.length := (List.getElem?_eq_some_iff.1 h1).1
  refine ⟨⟨q, by rw [List.getElem?_append_left h0, h1], h2⟩, ?_⟩
  intro k y os hk hy j hj
  rw [List.length_append]
  by_cases hlt : k < hp.length
  · rw [List.getElem?_append_left hlt] at hk
    exact Nat.lt_add_right _ (h3 k y os hk hy j hj)
  · rw [List.getElem?_append_right (by omega)] at hk
    have : y = x := by
      cases hkk : k - hp.length with
      | zero => rw [hkk] at hk; simpa using hk.symm
      | succ m => rw [hkk] at hk; simp at hk
    subst this
    exact Nat.lt_add_right _ (hx os hy j hj)

theorem wf_set (h : WF hp) {k : Nat} {x y : Handle} (hk : hp[k]? = some x) (hn : y.name = x.name)
    (hy : ∀ os, y.items = some os → ∀ j, Obj.handle j ∈ os → j < hp.length) : WF (hp.set k y) := by
  obtain ⟨⟨q, h1, h2⟩, h3⟩ := h
  have hlt := (List.getElem?_eq_some_iff.1 hk).1
  refine ⟨?_, ?_⟩
  · by_cases h0 : k = 0
    · subst h0
      rw [hk] at h1
      cases h1
      exact ⟨y, by rw [List.getElem?_set_self hlt], by rw [hn, h2]⟩
    · exact ⟨q, by rw [List.getElem?_set_ne h0, h1], h2⟩
  · intro j z os hj hz i hi
    rw [List.length_set]
    by_cases hjk : k = j
    · subst hjk
      rw [List.getElem?_set_self hlt] at hj
      cases hj
      exact hy os hz i hi
    · rw [List.getElem?_set_ne hjk] at hj
      exact h3 j z os hj hz i hi

/-! ### Single operations -/

theorem getattr_ok {o o' : Obj} {n : String} (h : getattr hp o n = .ok (o', hp')) :
    o' = .handle hp.length ∧ hp' = hp ++ [{ name := some n }] := by
  unfold getattr at h
  cases o with
  | other => cases h
  | handle k =>
    simp only at h
    cases hk : hp[k]? with
    | none => rw [hk] at h; cases h
    | some x =>
      rw [hk] at h
      simp only at h
      cases hn : x.name with
      | some m => rw [hn] at h; simp at h
      | none => rw [hn] at h; simp [alloc] at h; exact ⟨h.1.symm, h.2.symm⟩

theorem getitem_ok {o o' : Obj} {ix : Index} (h : getitem hp o ix = .ok (o', hp')) :
    ∃ k x os, o = .handle k ∧ hp[k]? = some x ∧ x.items = none ∧ itemsOf ix = .ok os ∧ o' = .handle k ∧
      hp' = hp.set k { x with items := some os } := by
  unfold getitem at h
  cases o with
  | other => cases h
  | handle k =>
    simp only at h
    cases hk : hp[k]? with
    | none => rw [hk] at h; cases h
    | some x =>
      rw [hk] at h
      simp only at h
      cases hi : x.items with
      | some m => rw [hi] at h; simp at h
      | none =>
        rw [hi] at h
        simp only [Option.isSome_none, Bool.false_eq_true, if_false] at h
        cases ho : itemsOf ix with
        | error e => rw [ho] at h; cases h
        | ok os =>
          rw [ho] at h
          cases h
          exact ⟨k, x, os, rfl, hk, hi, rfl, rfl, rfl⟩

theorem call_ok {o o' : Obj} {opts : List (String × Val)} (h : call hp o opts = .ok (o', hp')) :
    ∃ k x, o = .handle k ∧ hp[k]? = some x ∧ x.options = none ∧ o' = .handle k ∧
      hp' = hp.set k { x with options := some opts } := by
  unfold call at h
  cases o with
  | other => cases h
  | handle k =>
    simp only at h
    cases hk : hp[k]? with
    | none => rw [hk] at h; cases h
    | some x =>
      rw [hk] at h
      simp only at h
      cases hi : x.options with
      | some m => rw [hi] at h; simp at h
      | none =>
        rw [hi] at h
        simp only [Option.isSome_none, Bool.false_eq_true, if_false] at h
        cases h
        exact ⟨k, x, rfl, hk, hi, rfl, rfl⟩

theorem lshift_ok {o p o' : Obj} (h : lshift hp o p = .ok (o', hp')) :
    ∃ k j x t, o = .handle k ∧ p = .handle j ∧ hp[k]? = some x ∧ hp[j]? = some t ∧
      noOptions x.options = true ∧ noAlias x.alias_ = true ∧ noItems x.items = true ∧ o' = .handle hp.length ∧
      hp' = hp ++ [{ name := t.name, options := t.options, alias_ := x.name, items := t.items }] := by
  unfold lshift at h
  cases o with
  | other => cases h
  | handle k =>
    simp only at h
    cases hk : hp[k]? with
    | none => rw [hk] at h; cases p <;> cases h
    | some x =>
      rw [hk] at h
      cases p with
      | other => cases h
      | handle j =>
        simp only at h
        cases hj : hp[j]? with
        | none => rw [hj] at h; cases h
        | some t =>
          rw [hj] at h
          simp only at h
          by_cases hc : (noOptions x.options && noAlias x.alias_ && noItems x.items) = true
          · rw [if_pos hc] at h
            simp only [Bool.and_eq_true] at hc
            cases h
            exact ⟨k, j, x, t, rfl, rfl, hk, hj, hc.1.1, hc.1.2, hc.2, rfl, rfl⟩
          · rw [if_neg hc] at h; cases h

theorem itemsOf_ok {ix : Index} {os : List Obj} (h : itemsOf ix = .ok os) :
    (∃ k, ix = .one (.handle k) ∧ os = [.handle k]) ∨ ix = .tuple os := by
  cases ix with
  | one o =>
    cases o with
    | handle k => cases h; exact .inl ⟨k, rfl, rfl⟩
    | other => cases h
  | tuple os' => cases h; exact .inr rfl

/-! ### Reachable heaps -/

theorem start_wf : WF start := by
  refine ⟨⟨{}, rfl, rfl⟩, ?_⟩
  intro k h os hk ho
  cases k with
  | zero =>
    have : h = {} := by simpa [start] using hk.symm
    subst this
    cases ho
  | succ k => simp [start] at hk

mutual
theorem known_len {hp hp' : Heap} (h : hp.length ≤ hp'.length) : (e : Ex) → Known hp e → Known hp' e
  | .q, hk => hk
  | .other, hk => hk
  | .var k, hk => Nat.lt_of_lt_of_le hk h
  | .attr e n, hk => by rw [Known] at hk ⊢; exact known_len h e hk
  | .call e n, hk => by rw [Known] at hk ⊢; exact known_len h e hk
  | .index e x, hk => by rw [Known] at hk ⊢; exact ⟨known_len h e hk.1, known_len h x hk.2⟩
  | .shift e x, hk => by rw [Known] at hk ⊢; exact ⟨known_len h e hk.1, known_len h x hk.2⟩
  | .indexes e xs, hk => by rw [Known] at hk ⊢; exact ⟨known_len h e hk.1, knownAll_len h xs hk.2⟩
theorem knownAll_len {hp hp' : Heap} (h : hp.length ≤ hp'.length) : (es : List Ex) → KnownAll hp es → KnownAll hp' es
  | [], _ => trivial
  | e :: r, hk => by rw [KnownAll] at hk ⊢; exact ⟨known_len h e hk.1, knownAll_len h r hk.2⟩
end

theorem getitem_wf {o o' : Obj} {ix : Index} (hw : WF hp) (hi : ∀ os, itemsOf ix = .ok os → ∀ p ∈ os, ObjOk hp p)
    (h : getitem hp o ix = .ok (o', hp')) : WF hp' ∧ hp.length ≤ hp'.length ∧ ObjOk hp' o' := by
  obtain ⟨k, x, os, rfl, hk, _, ho, rfl, rfl⟩ := getitem_ok h
  refine ⟨wf_set hw hk rfl ?_, by simp, ?_⟩
  · intro os' e j hj
    cases e
    exact hi os ho _ hj
  · simpa [ObjOk] using (List.getElem?_eq_some_iff.1 hk).1

mutual
/-- every expression keeps heaps well-formed, whatever it does -/
theorem eval_wf : (e : Ex) → ∀ (hp hp' : Heap) (o : Obj), WF hp → Known hp e → eval hp e = .ok (o, hp') →
    WF hp' ∧ hp.length ≤ hp'.length ∧ ObjOk hp' o
  | .q => by
      intro hp hp' o hw _ h
      rw [eval] at h
      cases h
      obtain ⟨q, h1, _⟩ := hw.q
      exact ⟨hw, Nat.le_refl _, (List.getElem?_eq_some_iff.1 h1).1⟩
  | .var k => by
      intro hp hp' o hw hk h
      rw [eval] at h
      cases h
      exact ⟨hw, Nat.le_refl _, hk⟩
  | .other => by
      intro hp hp' o hw hk h
      rw [eval] at h
      cases h
      exact ⟨hw, Nat.le_refl _, trivial⟩
  | .attr e n => by
      intro hp hp' o hw hk h
      rw [eval] at h
      rw [Known] at hk
      cases he : eval hp e with
      | error x => rw [he] at h; cases h
      | ok r =>
        obtain ⟨o1, hp1⟩ := r
        rw [he] at h
        obtain ⟨h1, h2, _⟩ := eval_wf e _ _ _ hw hk he
        obtain ⟨rfl, rfl⟩ := getattr_ok h
        refine ⟨wf_append h1 (by intro os e; cases e), by simp; omega, by simp [ObjOk]⟩
  | .call e opts => by
      intro hp hp' o hw hk h
      rw [eval] at h
      rw [Known] at hk
      cases he : eval hp e with
      | error x => rw [he] at h; cases h
      | ok r =>
        obtain ⟨o1, hp1⟩ := r
        rw [he] at h
        obtain ⟨h1, h2, _⟩ := eval_wf e _ _ _ hw hk he
        obtain ⟨k, x, rfl, hx, _, rfl, rfl⟩ := call_ok h
        refine ⟨wf_set h1 hx rfl (fun os hi j hj => h1.items k x os hx hi j hj), by simpa using h2, ?_⟩
        simpa [ObjOk] using (List.getElem?_eq_some_iff.1 hx).1
  | .index e x => by
      intro hp hp' o hw hk h
      rw [eval] at h
      rw [Known] at hk
      cases he : eval hp e with
      | error x => rw [he] at h; cases h
      | ok r =>
        obtain ⟨o1, hp1⟩ := r
        rw [he] at h
        obtain ⟨h1, h2, _⟩ := eval_wf e _ _ _ hw hk.1 he
        simp only at h
        cases hx : eval hp1 x with
        | error x => rw [hx] at h; cases h
        | ok r =>
          obtain ⟨o2, hp2⟩ := r
          rw [hx] at h
          obtain ⟨h3, h4, h5⟩ := eval_wf x _ _ _ h1 (known_len h2 x hk.2) hx
          obtain ⟨h6, h7, h8⟩ := getitem_wf h3 (by
            intro os hi p hp
            rcases itemsOf_ok hi with ⟨k, e, rfl⟩ | e
            · cases e; simp at hp; subst hp; exact h5
            · cases e) h
          exact ⟨h6, by omega, h8⟩
  | .indexes e xs => by
      intro hp hp' o hw hk h
      rw [eval] at h
      rw [Known] at hk
      cases he : eval hp e with
      | error x => rw [he] at h; cases h
      | ok r =>
        obtain ⟨o1, hp1⟩ := r
        rw [he] at h
        obtain ⟨h1, h2, _⟩ := eval_wf e _ _ _ hw hk.1 he
        simp only at h
        cases hx : evalList hp1 xs with
        | error x => rw [hx] at h; cases h
        | ok r =>
          obtain ⟨os, hp2⟩ := r
          rw [hx] at h
          obtain ⟨h3, h4, h5⟩ := evalList_wf xs _ _ _ h1 (knownAll_len h2 xs hk.2) hx
          obtain ⟨h6, h7, h8⟩ := getitem_wf h3 (by
            intro os' hi p hp
            cases hi
            exact h5 p hp) h
          exact ⟨h6, by omega, h8⟩
  | .shift e x => by
      intro hp hp' o hw hk h
      rw [eval] at h
      rw [Known] at hk
      cases he : eval hp e with
      | error x => rw [he] at h; cases h
      | ok r =>
        obtain ⟨o1, hp1⟩ := r
        rw [he] at h
        obtain ⟨h1, h2, _⟩ := eval_wf e _ _ _ hw hk.1 he
        simp only at h
        cases hx : eval hp1 x with
        | error x => rw [hx] at h; cases h
        | ok r =>
          obtain ⟨o2, hp2⟩ := r
          rw [hx] at h
          obtain ⟨h3, h4, h5⟩ := eval_wf x _ _ _ h1 (known_len h2 x hk.2) hx
          obtain ⟨k, j, y, t, rfl, rfl, hy, ht, _, _, _, rfl, rfl⟩ := lshift_ok h
          exact ⟨wf_append h3 (fun os hi j' hj' => h3.items j t os ht hi j' hj'), by simp; omega, by simp [ObjOk]⟩
theorem evalList_wf : (es : List Ex) → ∀ (hp hp' : Heap) (os : List Obj), WF hp → KnownAll hp es →
    evalList hp es = .ok (os, hp') → WF hp' ∧ hp.length ≤ hp'.length ∧ ∀ o ∈ os, ObjOk hp' o
  | [] => by
      intro hp hp' os hw _ h
      rw [evalList] at h
      cases h
      exact ⟨hw, Nat.le_refl _, by simp⟩
  | e :: r => by
      intro hp hp' os hw hk h
      rw [evalList] at h
      rw [KnownAll] at hk
      cases he : eval hp e with
      | error x => rw [he] at h; cases h
      | ok y =>
        obtain ⟨o1, hp1⟩ := y
        rw [he] at h
        obtain ⟨h1, h2, h3⟩ := eval_wf e _ _ _ hw hk.1 he
        simp only at h
        cases hx : evalList hp1 r with
        | error x => rw [hx] at h; cases h
        | ok y =>
          obtain ⟨os', hp2⟩ := y
          rw [hx] at h
          obtain ⟨h4, h5, h6⟩ := evalList_wf r _ _ _ h1 (knownAll_len h2 r hk.2) hx
          cases h
          refine ⟨h4, by omega, ?_⟩
          intro o ho
          rcases List.mem_cons.1 ho with rfl | ho
          · exact objOk_len h5 h3
          · exact h6 o ho
end

/-- C48: all heaps of programs are well-formed: those after any sequence of expressions with known variables. -/
theorem c48_reachable {es : List Ex} {os : List Obj} (hk : KnownAll start es) (h : evalList start es = .ok (os, hp)) : WF hp :=
  (evalList_wf es _ _ _ start_wf hk h).1

/-! ### Denotations do not depend on other handles -/

mutual
theorem denotes_ext {hp hp' : Heap} (hw : WF hp) (hx : Ext hp hp') {o : Obj} {i : QItem} :
    Denotes hp o i → Denotes hp' o i
  | .field (k := k) h1 h2 h3 => .field (by rw [hx.same k (List.getElem?_eq_some_iff.1 h1).1, h1]) h2 h3
  | .link (k := k) h1 h2 h3 h4 =>
      .link (by rw [hx.same k (List.getElem?_eq_some_iff.1 h1).1, h1]) h2 h3 (denotesAll_ext hw hx h4)
theorem denotesAll_ext {hp hp' : Heap} (hw : WF hp) (hx : Ext hp hp') {os : List Obj} {is : List QItem} :
    DenotesAll hp os is → DenotesAll hp' os is
  | .nil => .nil
  | .cons h1 h2 => .cons (denotes_ext hw hx h1) (denotesAll_ext hw hx h2)
end

mutual
/-- the converse: existing handles denote what they denoted -/
theorem denotes_shrink {hp hp' : Heap} (hw : WF hp) (hx : Ext hp hp') {o : Obj} {i : QItem} :
    Denotes hp' o i → ObjOk hp o → Denotes hp o i
  | .field (k := k) h1 h2 h3, ho => .field (by rw [← hx.same k ho, h1]) h2 h3
  | .link (k := k) (h := h) (os := os) h1 h2 h3 h4, ho => by
      have h1' : hp[k]? = some h := by rw [← hx.same k ho, h1]
      refine .link h1' h2 h3 (denotesAll_shrink hw hx h4 ?_)
      intro p hp
      cases p with
      | other => trivial
      | handle j => exact hw.items k h os h1' h3 j hp
theorem denotesAll_shrink {hp hp' : Heap} (hw : WF hp) (hx : Ext hp hp') {os : List Obj} {is : List QItem} :
    DenotesAll hp' os is → (∀ o ∈ os, ObjOk hp o) → DenotesAll hp os is
  | .nil, _ => .nil
  | .cons h1 h2, ho => .cons (denotes_shrink hw hx h1 (ho _ (by simp)))
      (denotesAll_shrink hw hx h2 (fun o h => ho o (List.mem_cons_of_mem _ h)))
end

mutual
/-- a change of an unreferenced handle does not change what other handles denote -/
theorem denotes_set {hp hp' : Heap} {k : Nat} (hs : ∀ j, j ≠ k → hp'[j]? = hp[j]?) (hu : Unref hp k) {o : Obj} {i : QItem} :
    Denotes hp o i → o ≠ .handle k → Denotes hp' o i
  | .field (k := j) h1 h2 h3, ho => .field (by rw [hs j (by rintro rfl; exact ho rfl), h1]) h2 h3
  | .link (k := j) (h := h) (os := os) h1 h2 h3 h4, ho => by
      refine .link (by rw [hs j (by rintro rfl; exact ho rfl), h1]) h2 h3 (denotesAll_set hs hu h4 ?_)
      intro p hp e
      subst e
      exact hu j h os h1 h3 hp
theorem denotesAll_set {hp hp' : Heap} {k : Nat} (hs : ∀ j, j ≠ k → hp'[j]? = hp[j]?) (hu : Unref hp k) {os : List Obj} {is : List QItem} :
    DenotesAll hp os is → (∀ o ∈ os, o ≠ .handle k) → DenotesAll hp' os is
  | .nil, _ => .nil
  | .cons h1 h2, ho => .cons (denotes_set hs hu h1 (ho _ (by simp)))
      (denotesAll_set hs hu h2 (fun o h => ho o (List.mem_cons_of_mem _ h)))
end

/-! ### `build` reads denotations -/

mutual
theorem buildItem_denotes {hp : Heap} {o : Obj} {i : QItem} : Denotes hp o i → ∀ {lim}, depth i ≤ lim → buildItem lim hp o = .ok i
  | .field h1 h2 h3, lim, _ => by rw [buildItem]; simp only [h1, h2, h3]
  | .link h1 h2 h3 h4, lim, hl => by
      rw [depth] at hl
      obtain ⟨m, rfl⟩ : ∃ m, lim = m + 1 := ⟨lim - 1, by omega⟩
      rw [buildItem]
      simp only [h1, h2, h3, buildItems_denotes h4 (show _ ≤ m by omega)]
theorem buildItems_denotes {hp : Heap} {os : List Obj} {is : List QItem} : DenotesAll hp os is → ∀ {lim}, depthAll is ≤ lim →
    buildItems lim hp os = .ok is
  | .nil, lim, _ => by rw [buildItems]
  | .cons h1 h2, lim, hl => by
      rw [depthAll] at hl
      rw [buildItems, buildItem_denotes h1 (by omega)]
      simp only [buildItems_denotes h2 (show _ ≤ lim by omega)]
end

theorem buildItem_inv {hp : Heap} : ∀ (lim : Nat),
    (∀ {o i}, buildItem lim hp o = .ok i → Denotes hp o i) ∧ (∀ {os is}, buildItems lim hp os = .ok is → DenotesAll hp os is) := by
  intro lim
  induction lim with
  | zero =>
    have key : ∀ {o i}, buildItem 0 hp o = .ok i → Denotes hp o i := by
      intro o i h
      cases o with
      | other => rw [buildItem] at h; cases h
      | handle k =>
        rw [buildItem] at h
        cases hk : hp[k]? with
        | none => simp only [hk] at h; cases h
        | some x =>
          simp only [hk] at h
          cases hn : x.name with
          | none => simp only [hn] at h; cases h
          | some n =>
            simp only [hn] at h
            cases hi : x.items with
            | none => simp only [hi] at h; cases h; exact .field hk hn hi
            | some os => simp only [hi] at h; cases h
    refine ⟨key, ?_⟩
    intro os
    induction os with
    | nil => intro is h; rw [buildItems] at h; cases h; exact .nil
    | cons o r ih =>
      intro is h
      rw [buildItems] at h
      cases h1 : buildItem 0 hp o with
      | error e => rw [h1] at h; cases h
      | ok i =>
        rw [h1] at h
        simp only at h
        cases h2 : buildItems 0 hp r with
        | error e => rw [h2] at h; cases h
        | ok js => rw [h2] at h; cases h; exact .cons (key h1) (ih h2)
  | succ lim ihl =>
    have key : ∀ {o i}, buildItem (lim + 1) hp o = .ok i → Denotes hp o i := by
      intro o i h
      cases o with
      | other => rw [buildItem] at h; cases h
      | handle k =>
        rw [buildItem] at h
        cases hk : hp[k]? with
        | none => simp only [hk] at h; cases h
        | some x =>
          simp only [hk] at h
          cases hn : x.name with
          | none => simp only [hn] at h; cases h
          | some n =>
            simp only [hn] at h
            cases hi : x.items with
            | none => simp only [hi] at h; cases h; exact .field hk hn hi
            | some os =>
              simp only [hi] at h
              cases hb : buildItems lim hp os with
              | error e => simp only [hb] at h; cases h
              | ok is => simp only [hb] at h; cases h; exact .link hk hn hi (ihl.2 hb)
    refine ⟨key, ?_⟩
    intro os
    induction os with
    | nil => intro is h; rw [buildItems] at h; cases h; exact .nil
    | cons o r ih =>
      intro is h
      rw [buildItems] at h
      cases h1 : buildItem (lim + 1) hp o with
      | error e => rw [h1] at h; cases h
      | ok i =>
        rw [h1] at h
        simp only at h
        cases h2 : buildItems (lim + 1) hp r with
        | error e => rw [h2] at h; cases h
        | ok js => rw [h2] at h; cases h; exact .cons (key h1) (ih h2)

/-- C48: `build` of handles gives the items of the handles in order: exactly when every handle denotes an item
(within the recursion limit). -/
theorem c48_build {hp : Heap} {os : List Obj} {q : QNode} :
    (∃ lim, build lim hp os = .ok q) ↔ ∃ is, q = .mk is false ∧ DenotesAll hp os is := by
  constructor
  · rintro ⟨lim, h⟩
    unfold build at h
    cases hb : buildItems lim hp os with
    | error e => rw [hb] at h; cases h
    | ok is => rw [hb] at h; cases h; exact ⟨is, rfl, (buildItem_inv lim).2 hb⟩
  · rintro ⟨is, rfl, h⟩
    refine ⟨depthAll is, ?_⟩
    unfold build
    rw [buildItems_denotes h (Nat.le_refl _)]

/-! ### Evaluation of expressions -/

mutual
theorem writes_ext {hp hp' : Heap} (hw : WF hp) (hx : Ext hp hp') {e : Ex} {i : QItem} : Writes hp e i → Writes hp' e i
  | .name n => .name n
  | .var h => .var (denotes_ext hw hx h)
  | .call h1 h2 => .call (writes_ext hw hx h1) h2
  | .index h1 h2 => .index (writes_ext hw hx h1) (writes_ext hw hx h2)
  | .indexes h1 h2 => .indexes (writes_ext hw hx h1) (writesAll_ext hw hx h2)
  | .shift h1 h2 h3 => .shift (writes_ext hw hx h1) h2 (writes_ext hw hx h3)
theorem writesAll_ext {hp hp' : Heap} (hw : WF hp) (hx : Ext hp hp') {es : List Ex} {is : List QItem} :
    WritesAll hp es is → WritesAll hp' es is
  | .nil => .nil
  | .cons h1 h2 => .cons (writes_ext hw hx h1) (writesAll_ext hw hx h2)
end

mutual
theorem writes_shrink {hp hp' : Heap} (hw : WF hp) (hx : Ext hp hp') {e : Ex} {i : QItem} :
    Writes hp' e i → Known hp e → Writes hp e i
  | .name n, _ => .name n
  | .var h, hk => .var (denotes_shrink hw hx h hk)
  | .call h1 h2, hk => .call (writes_shrink hw hx h1 (by rw [Known] at hk; exact hk)) h2
  | .index h1 h2, hk => by
      rw [Known] at hk
      exact .index (writes_shrink hw hx h1 hk.1) (writes_shrink hw hx h2 hk.2)
  | .indexes h1 h2, hk => by
      rw [Known] at hk
      exact .indexes (writes_shrink hw hx h1 hk.1) (writesAll_shrink hw hx h2 hk.2)
  | .shift h1 h2 h3, hk => by
      rw [Known] at hk
      exact .shift (writes_shrink hw hx h1 hk.1) h2 (writes_shrink hw hx h3 hk.2)
theorem writesAll_shrink {hp hp' : Heap} (hw : WF hp) (hx : Ext hp hp') {es : List Ex} {is : List QItem} :
    WritesAll hp' es is → KnownAll hp es → WritesAll hp es is
  | .nil, _ => .nil
  | .cons h1 h2, hk => by
      rw [KnownAll] at hk
      exact .cons (writes_shrink hw hx h1 hk.1) (writesAll_shrink hw hx h2 hk.2)
end

theorem unref_append {k : Nat} (h : Unref hp k) {x : Handle} (hx : ∀ os, x.items = some os → Obj.handle k ∉ os) :
    Unref (hp ++ [x]) k := by
  intro j y os hj hy
  by_cases hlt : j < hp.length
  · rw [List.getElem?_append_left hlt] at hj
    exact h j y os hj hy
  · rw [List.getElem?_append_right (by omega)] at hj
    have : y = x := by
      cases hkk : j - hp.length with
      | zero => rw [hkk] at hj; simpa using hj.symm
      | succ m => rw [hkk] at hj; simp at hj
    subst this
    exact hx os hy

theorem unref_new (h : WF hp) : Unref hp hp.length := by
  intro j y os hj hy hm
  exact absurd (h.items j y os hj hy _ hm) (Nat.lt_irrefl _)

theorem unref_set {k j : Nat} (h : Unref hp k) {x : Handle} (hx : ∀ os, x.items = some os → Obj.handle k ∉ os) :
    Unref (hp.set j x) k := by
  intro m y os hm hy
  by_cases e : j = m
  · subst e
    rw [List.getElem?_set] at hm
    simp only [if_true] at hm
    split at hm
    · cases hm; exact hx os hy
    · cases hm
  · rw [List.getElem?_set_ne e] at hm
    exact h m y os hm hy

/-- what is known about an evaluated expression -/
structure Evaluated (hp : Heap) (e : Ex) (o : Obj) (hp' : Heap) : Prop where
  wf : WF hp'
  ext : Ext hp hp'
  ok : ∃ k, o = .handle k ∧ k < hp'.length ∧ (NotVar e → hp.length ≤ k ∧ Unref hp' k ∧ ∃ h n, hp'[k]? = some h ∧ n ≠ "" ∧ (h.name = some n ∨ h.alias_ = some n))
  unref : ∀ hp0 k, Known hp0 e → hp0.length ≤ k → k < hp.length → Unref hp k → Unref hp' k ∧ o ≠ .handle k
  denotes : ∀ i, Denotes hp' o i ↔ Writes hp e i

structure EvaluatedAll (hp : Heap) (es : List Ex) (os : List Obj) (hp' : Heap) : Prop where
  wf : WF hp'
  ext : Ext hp hp'
  ok : ∀ o ∈ os, ObjOk hp' o
  unref : ∀ hp0 k, KnownAll hp0 es → hp0.length ≤ k → k < hp.length → Unref hp k → Unref hp' k ∧ Obj.handle k ∉ os
  denotes : ∀ is, DenotesAll hp' os is ↔ WritesAll hp es is

theorem getElem?_lt {α : Type} {l : List α} {k : Nat} {a : α} (h : l[k]? = some a) : k < l.length :=
  (List.getElem?_eq_some_iff.1 h).1

theorem noOptions_iff {o : Opts} : noOptions o = true ↔ o = none ∨ o = some [] := by
  unfold noOptions
  split
  · simp
  · simp
  · rename_i h1 h2
    simp only [Bool.false_eq_true, false_iff]
    rintro (h | h)
    · exact h1 h
    · exact h2 h

theorem noItems_iff {o : Option (List Obj)} : noItems o = true ↔ o = none ∨ o = some [] := by
  unfold noItems
  split
  · simp
  · simp
  · rename_i h1 h2
    simp only [Bool.false_eq_true, false_iff]
    rintro (h | h)
    · exact h1 h
    · exact h2 h

theorem noAlias_iff {o : Option String} : noAlias o = true ↔ o = none ∨ o = some "" := by
  unfold noAlias
  split
  · simp
  · simp
  · rename_i h1 h2
    simp only [Bool.false_eq_true, false_iff]
    rintro (h | h)
    · exact h1 h
    · exact h2 h

theorem denotes_field_inv {k : Nat} {n : String} {o : Opts} {a : Option String} (h : Denotes hp (.handle k) (.field n o a)) :
    ∃ x, hp[k]? = some x ∧ x.name = some n ∧ x.options = o ∧ x.alias_ = a ∧ x.items = none := by
  cases h with
  | field h1 h2 h3 => exact ⟨_, h1, h2, rfl, rfl, h3⟩

theorem denotes_opts {k : Nat} {i : QItem} (h : Denotes hp (.handle k) i) :
    ∃ x, hp[k]? = some x ∧ x.name = some i.name ∧ x.options = i.options ∧ x.alias_ = i.alias_ ∧
      (x.items = none ∧ i.isLink = false ∨
        ∃ os n is, x.items = some os ∧ i = .link n (.mk is false) x.options x.alias_ ∧ DenotesAll hp os is) := by
  cases h with
  | field h1 h2 h3 => exact ⟨_, h1, h2, rfl, rfl, .inl ⟨h3, rfl⟩⟩
  | link h1 h2 h3 h4 => exact ⟨_, h1, h2, rfl, rfl, .inr ⟨_, _, _, h3, rfl, h4⟩⟩

/-- setting the items of a fresh handle -/
theorem evaluated_items {hp hp1 hp2 hp3 : Heap} {e ex : Ex} {o1 o3 : Obj} {ix : Index} {os : List Obj}
    (h1 : Evaluated hp e o1 hp1) (hn : NotVar e) (hwf2 : WF hp2) (hext2 : Ext hp1 hp2)
    (hos : ∀ o ∈ os, ObjOk hp2 o) (hix : itemsOf ix = .ok os)
    (hun : ∀ k, hp.length ≤ k → k < hp1.length → Unref hp1 k → Unref hp2 k ∧ Obj.handle k ∉ os)
    (hun0 : ∀ (hp0 : Heap) k, Known hp0 ex → hp0.length ≤ k → k < hp.length → Unref hp k → Unref hp2 k ∧ Obj.handle k ∉ os ∧ o1 ≠ .handle k)
    (hnv : NotVar ex)
    (hd : ∀ i, Writes hp ex i ↔ ∃ n o a is, i = .link n (.mk is false) o a ∧ Writes hp e (.field n o a) ∧ DenotesAll hp2 os is)
    (h : getitem hp2 o1 ix = .ok (o3, hp3)) : Evaluated hp ex o3 hp3 := by
  obtain ⟨k, x, os', rfl, hk, hi, ho, rfl, rfl⟩ := getitem_ok h
  rw [hix] at ho
  cases ho
  obtain ⟨k', e1, hlt, hfr⟩ := h1.ok
  cases e1
  obtain ⟨hge, hu, h0, n, hh0, hne, hname⟩ := hfr hn
  obtain ⟨hu2, hnot⟩ := hun k hge hlt hu
  have hx0 : hp2[k]? = hp1[k]? := hext2.same k hlt
  have e2 : x = h0 := by rw [hk] at hx0; rw [hh0] at hx0; cases hx0; rfl
  subst e2
  have hlt2 := getElem?_lt hk
  have hu3 : Unref (hp2.set k { x with items := some os }) k :=
    unref_set hu2 (by intro os' e; cases e; exact hnot)
  have hget : (hp2.set k { x with items := some os })[k]? = some { x with items := some os } := List.getElem?_set_self hlt2
  have hsame : ∀ j, j ≠ k → (hp2.set k { x with items := some os })[j]? = hp2[j]? :=
    fun j hj => List.getElem?_set_ne (Ne.symm hj)
  have hnk : ∀ o ∈ os, o ≠ Obj.handle k := by rintro o ho rfl; exact hnot ho
  refine ⟨wf_set hwf2 hk rfl ?_, ext_set (h1.ext.trans hext2) hge _, ?_, ?_, ?_⟩
  · intro os' e j hj
    cases e
    exact hos _ hj
  · exact ⟨k, rfl, by simpa using hlt2, fun _ => ⟨hge, hu3, _, n, hget, hne, hname⟩⟩
  · intro hp0 k' hk0 hle hlt' hu'
    obtain ⟨h5, h6, h7⟩ := hun0 hp0 k' hk0 hle hlt' hu'
    refine ⟨unref_set h5 (by intro os' e; cases e; exact h6), h7⟩
  · intro i
    rw [hd]
    constructor
    · intro hi'
      obtain ⟨y, hy1, hy2, hy3, hy4, hy5⟩ := denotes_opts hi'
      rw [hget] at hy1
      cases hy1
      rcases hy5 with ⟨h, _⟩ | ⟨os', n', is, h5, h6, h7⟩
      · cases h
      · cases h5
        have hy2 : x.name = some n' := by rw [h6] at hy2; exact hy2
        refine ⟨n', x.options, x.alias_, is, h6, ?_, denotesAll_set (fun j hj => (hsame j hj).symm) hu3 h7 hnk⟩
        rw [← h1.denotes]
        exact .field hh0 hy2 hi
    · rintro ⟨n', o, a, is, rfl, hw, hda⟩
      rw [← h1.denotes] at hw
      obtain ⟨y, hy1, hy2, rfl, rfl, hy5⟩ := denotes_field_inv hw
      rw [hh0] at hy1
      cases hy1
      exact .link (h := { x with items := some os }) hget hy2 rfl (denotesAll_set hsame hu2 hda hnk)

mutual
theorem eval_pure : (e : Ex) → ∀ (hp hp' : Heap) (o : Obj), WF hp → Known hp e → Pure e → eval hp e = .ok (o, hp') →
    Evaluated hp e o hp'
  | .q => by intro hp hp' o _ _ h; rw [Pure] at h; cases h
  | .other => by intro hp hp' o _ _ h; rw [Pure] at h; cases h
  | .var k => by
      intro hp hp' o hw hk _ h
      rw [eval] at h
      cases h
      refine ⟨hw, Ext.refl _, ⟨k, rfl, hk, fun h => h.elim⟩, ?_, ?_⟩
      · intro hp0 j h1 h2 _ h3
        refine ⟨h3, ?_⟩
        intro e
        cases e
        rw [Known] at h1
        omega
      · intro i
        constructor
        · exact .var
        · intro h; cases h; assumption
  | .attr e n => by
      intro hp hp' o hw hk hpu h
      rw [Pure] at hpu
      obtain ⟨rfl, hne⟩ := hpu
      rw [eval, eval] at h
      simp only at h
      obtain ⟨rfl, rfl⟩ := getattr_ok h
      have hget : (hp ++ [({ name := some n } : Handle)])[hp.length]? = some { name := some n } := by simp
      refine ⟨wf_append hw (by intro os e; cases e), ext_append _ _, ⟨_, rfl, by simp, fun _ => ⟨Nat.le_refl _, ?_, _, n, hget, hne, .inl rfl⟩⟩, ?_, ?_⟩
      · exact unref_append (unref_new hw) (by intro os e; cases e)
      · intro hp0 j h1 h2 h3 h4
        exact ⟨unref_append h4 (by intro os e; cases e), by intro e; cases e; omega⟩
      · intro i
        constructor
        · intro h
          obtain ⟨y, h1, h2, h3, h4, h5⟩ := denotes_opts h
          rw [hget] at h1
          cases h1
          rcases h5 with ⟨_, h5⟩ | ⟨os, _, _, h5, _⟩
          · cases i with
            | link => cases h5
            | field m o a =>
              simp only [QItem.name, QItem.options, QItem.alias_] at h2 h3 h4
              cases h2
              subst h3
              subst h4
              exact .name n
          · cases h5
        · intro h
          cases h
          exact .field (h := { name := some n }) hget rfl rfl
  | .call e opts => by
      intro hp hp' o hw hk hpu h
      rw [Pure] at hpu
      rw [Known] at hk
      rw [eval] at h
      cases he : eval hp e with
      | error x => rw [he] at h; cases h
      | ok r =>
        obtain ⟨o1, hp1⟩ := r
        rw [he] at h
        have h1 := eval_pure e _ _ _ hw hk hpu.2 he
        obtain ⟨k, x, rfl, hkx, hopt, rfl, rfl⟩ := call_ok h
        obtain ⟨k', e1, hlt, hfr⟩ := h1.ok
        cases e1
        obtain ⟨hge, hu, h0, n, hh0, hne, hname⟩ := hfr hpu.1
        rw [hkx] at hh0
        cases hh0
        have hget : (hp1.set k { x with options := some opts })[k]? = some { x with options := some opts } := List.getElem?_set_self hlt
        have hsame : ∀ j, j ≠ k → (hp1.set k { x with options := some opts })[j]? = hp1[j]? :=
          fun j hj => List.getElem?_set_ne (Ne.symm hj)
        have hu' : Unref (hp1.set k { x with options := some opts }) k := unref_set hu (fun os e => hu k x os hkx e)
        refine ⟨wf_set h1.wf hkx rfl (fun os hi j hj => h1.wf.items k x os hkx hi j hj), ext_set h1.ext hge _,
          ⟨k, rfl, by simpa using hlt, fun _ => ⟨hge, hu', _, n, hget, hne, hname⟩⟩, ?_, ?_⟩
        · intro hp0 j h2 h3 h4 h5
          rw [Known] at h2
          obtain ⟨h6, h7⟩ := h1.unref hp0 j h2 h3 h4 h5
          exact ⟨unref_set h6 (fun os e => h6 k x os hkx e), h7⟩
        · intro i
          constructor
          · intro hd
            cases hd with
            | field h2 h3 h4 =>
              rw [hget] at h2
              cases h2
              have : Writes hp e (.field _ x.options x.alias_) := (h1.denotes _).1 (.field hkx h3 h4)
              exact .call this hopt
            | link h2 h3 h4 h5 =>
              rw [hget] at h2
              cases h2
              have : Writes hp e (.link _ (.mk _ false) x.options x.alias_) := (h1.denotes _).1 (.link hkx h3 h4
                (denotesAll_set (fun j hj => (hsame j hj).symm) hu' h5 (by rintro o ho rfl; exact hu k x _ hkx h4 ho)))
              exact .call this hopt
          · intro hd
            cases hd with
            | call h2 h3 =>
              rw [← h1.denotes] at h2
              cases h2 with
              | field h4 h5 h6 =>
                rw [hkx] at h4
                cases h4
                exact .field (h := { x with options := some opts }) hget h5 h6
              | link h4 h5 h6 h7 =>
                rw [hkx] at h4
                cases h4
                exact .link (h := { x with options := some opts }) hget h5 h6
                  (denotesAll_set hsame hu h7 (by rintro o ho rfl; exact hu k x _ hkx h6 ho))
  | .index e x => by
      intro hp hp' o hw hk hpu h
      rw [Pure] at hpu
      rw [Known] at hk
      rw [eval] at h
      cases he : eval hp e with
      | error x => rw [he] at h; cases h
      | ok r =>
        obtain ⟨o1, hp1⟩ := r
        rw [he] at h
        have h1 := eval_pure e _ _ _ hw hk.1 hpu.2.1 he
        simp only at h
        cases hx : eval hp1 x with
        | error x => rw [hx] at h; cases h
        | ok r =>
          obtain ⟨o2, hp2⟩ := r
          rw [hx] at h
          have h2 := eval_pure x _ _ _ h1.wf (known_len h1.ext.len x hk.2) hpu.2.2 hx
          obtain ⟨j, rfl, hj, _⟩ := h2.ok
          refine evaluated_items (os := [.handle j]) h1 hpu.1 h2.wf h2.ext (by simpa [ObjOk] using hj) rfl ?_ ?_ trivial ?_ h
          · intro k h3 h4 h5
            obtain ⟨h6, h7⟩ := h2.unref hp k hk.2 h3 h4 h5
            exact ⟨h6, by simpa using Ne.symm h7⟩
          · intro hp0 k h3 h4 h5 h6
            rw [Known] at h3
            obtain ⟨h7, h8⟩ := h1.unref hp0 k h3.1 h4 h5 h6
            obtain ⟨h9, h10⟩ := h2.unref hp0 k h3.2 h4 (Nat.lt_of_lt_of_le h5 h1.ext.len) h7
            exact ⟨h9, by simpa using Ne.symm h10, h8⟩
          · intro i
            constructor
            · intro h
              cases h with
              | index h3 h4 =>
                exact ⟨_, _, _, _, rfl, h3, .cons ((h2.denotes _).2 (writes_ext hw h1.ext h4)) .nil⟩
            · rintro ⟨n, o, a, is, rfl, h3, h4⟩
              cases h4 with
              | cons h5 h6 =>
                cases h6
                exact .index h3 (writes_shrink hw h1.ext ((h2.denotes _).1 h5) hk.2)
  | .indexes e xs => by
      intro hp hp' o hw hk hpu h
      rw [Pure] at hpu
      rw [Known] at hk
      rw [eval] at h
      cases he : eval hp e with
      | error x => rw [he] at h; cases h
      | ok r =>
        obtain ⟨o1, hp1⟩ := r
        rw [he] at h
        have h1 := eval_pure e _ _ _ hw hk.1 hpu.2.1 he
        simp only at h
        cases hx : evalList hp1 xs with
        | error x => rw [hx] at h; cases h
        | ok r =>
          obtain ⟨os, hp2⟩ := r
          rw [hx] at h
          have h2 := evalList_pure xs _ _ _ h1.wf (knownAll_len h1.ext.len xs hk.2) hpu.2.2 hx
          refine evaluated_items (os := os) h1 hpu.1 h2.wf h2.ext h2.ok rfl ?_ ?_ trivial ?_ h
          · intro k h3 h4 h5
            exact h2.unref hp k hk.2 h3 h4 h5
          · intro hp0 k h3 h4 h5 h6
            rw [Known] at h3
            obtain ⟨h7, h8⟩ := h1.unref hp0 k h3.1 h4 h5 h6
            obtain ⟨h9, h10⟩ := h2.unref hp0 k h3.2 h4 (Nat.lt_of_lt_of_le h5 h1.ext.len) h7
            exact ⟨h9, h10, h8⟩
          · intro i
            constructor
            · intro h
              cases h with
              | indexes h3 h4 =>
                exact ⟨_, _, _, _, rfl, h3, (h2.denotes _).2 (writesAll_ext hw h1.ext h4)⟩
            · rintro ⟨n, o, a, is, rfl, h3, h4⟩
              exact .indexes h3 (writesAll_shrink hw h1.ext ((h2.denotes _).1 h4) hk.2)
  | .shift e x => by
      intro hp hp' o hw hk hpu h
      rw [Pure] at hpu
      rw [Known] at hk
      rw [eval] at h
      cases he : eval hp e with
      | error x => rw [he] at h; cases h
      | ok r =>
        obtain ⟨o1, hp1⟩ := r
        rw [he] at h
        have h1 := eval_pure e _ _ _ hw hk.1 hpu.2.1 he
        simp only at h
        cases hx : eval hp1 x with
        | error x => rw [hx] at h; cases h
        | ok r =>
          obtain ⟨o2, hp2⟩ := r
          rw [hx] at h
          have h2 := eval_pure x _ _ _ h1.wf (known_len h1.ext.len x hk.2) hpu.2.2 hx
          obtain ⟨k, j, y, t, rfl, rfl, hy, ht, hno, hna, hni, rfl, rfl⟩ := lshift_ok h
          obtain ⟨k', e1, hlt, hfr⟩ := h1.ok
          cases e1
          obtain ⟨hge, hu, y', n, hy', hne, hname⟩ := hfr hpu.1
          have : y' = y := by
            have := h2.ext.same k hlt
            rw [hy, hy'] at this
            cases this
            rfl
          subst this
          have hname : y'.name = some n := by
            rcases hname with h3 | h3
            · exact h3
            · rw [h3] at hna
              rcases noAlias_iff.1 hna with h4 | h4
              · cases h4
              · cases h4; exact absurd rfl hne
          generalize hz : ({ name := t.name, options := t.options, alias_ := y'.name, items := t.items } : Handle) = z
          have hzi : z.items = t.items := by rw [← hz]
          have hzn : z.name = t.name := by rw [← hz]
          have hzo : z.options = t.options := by rw [← hz]
          have hza : z.alias_ = some n := by rw [← hz, ← hname]
          have hget : (hp2 ++ [z])[hp2.length]? = some z := by simp
          have hex : Ext hp2 (hp2 ++ [z]) := ext_append _ _
          have htok : ∀ os, t.items = some os → ∀ o ∈ os, ObjOk hp2 o := by
            intro os h3 o ho
            cases o with
            | other => trivial
            | handle i => exact h2.wf.items j t os ht h3 i ho
          have hbare : ∃ i, Writes hp e i ∧ Bare i ∧ i.name = n := by
            rw [noOptions_iff] at hno
            rw [noAlias_iff] at hna
            rcases noItems_iff.1 hni with h3 | h3
            · exact ⟨_, (h1.denotes _).1 (.field hy' hname h3), ⟨hno, hna⟩, rfl⟩
            · exact ⟨_, (h1.denotes _).1 (.link hy' hname h3 .nil), ⟨rfl, hno, hna⟩, rfl⟩
          refine ⟨wf_append h2.wf ?_, (h1.ext.trans h2.ext).trans hex, ⟨_, rfl, by simp, fun _ => ⟨?_, ?_, ?_⟩⟩, ?_, ?_⟩
          · intro os h3 i hi
            rw [hzi] at h3
            exact h2.wf.items j t os ht h3 i hi
          · have := h1.ext.len; have := h2.ext.len; omega
          · refine unref_append (unref_new h2.wf) ?_
            intro os h3 hm
            rw [hzi] at h3
            exact absurd (h2.wf.items j t os ht h3 _ hm) (Nat.lt_irrefl _)
          · exact ⟨z, n, hget, hne, .inr hza⟩
          · intro hp0 i h3 h4 h5 h6
            rw [Known] at h3
            obtain ⟨h7, h8⟩ := h1.unref hp0 i h3.1 h4 h5 h6
            obtain ⟨h9, h10⟩ := h2.unref hp0 i h3.2 h4 (Nat.lt_of_lt_of_le h5 h1.ext.len) h7
            refine ⟨unref_append h9 ?_, ?_⟩
            · intro os h11
              rw [hzi] at h11
              exact h9 j t os ht h11
            · intro e
              cases e
              have := h1.ext.len; have := h2.ext.len; omega
          · intro i
            constructor
            · intro hd
              obtain ⟨i0, hb1, hb2, rfl⟩ := hbare
              cases hd with
              | field h3 h4 h5 =>
                rw [hget] at h3
                cases h3
                rw [hzn] at h4
                rw [hzi] at h5
                have := writes_shrink hw h1.ext ((h2.denotes _).1 (.field ht h4 h5)) hk.2
                rw [hza, hzo]
                exact .shift hb1 hb2 this
              | link h3 h4 h5 h6 =>
                rw [hget] at h3
                cases h3
                rw [hzn] at h4
                rw [hzi] at h5
                have := writes_shrink hw h1.ext ((h2.denotes _).1 (.link ht h4 h5
                  (denotesAll_shrink h2.wf hex h6 (htok _ h5)))) hk.2
                rw [hza, hzo]
                exact .shift hb1 hb2 this
            · intro hd
              cases hd with
              | shift h3 h4 h5 =>
                rw [← h1.denotes] at h3
                obtain ⟨y2, h6, h7, _⟩ := denotes_opts h3
                rw [hy'] at h6
                cases h6
                rw [hname] at h7
                cases h7
                have h5 := (h2.denotes _).2 (writes_ext hw h1.ext h5)
                cases h5 with
                | field h8 h9 h10 =>
                  rw [ht] at h8
                  cases h8
                  have := Denotes.field hget (hzn.trans h9) (hzi.trans h10)
                  rw [hza, hzo] at this
                  exact this
                | link h8 h9 h10 h11 =>
                  rw [ht] at h8
                  cases h8
                  have := Denotes.link hget (hzn.trans h9) (hzi.trans h10) (denotesAll_ext h2.wf hex h11)
                  rw [hza, hzo] at this
                  exact this
theorem evalList_pure : (es : List Ex) → ∀ (hp hp' : Heap) (os : List Obj), WF hp → KnownAll hp es → PureAll es →
    evalList hp es = .ok (os, hp') → EvaluatedAll hp es os hp'
  | [] => by
      intro hp hp' os hw _ _ h
      rw [evalList] at h
      cases h
      refine ⟨hw, Ext.refl _, by simp, fun _ _ _ _ _ h => ⟨h, by simp⟩, ?_⟩
      intro is
      constructor
      · intro h; cases h; exact .nil
      · intro h; cases h; exact .nil
  | e :: r => by
      intro hp hp' os hw hk hpu h
      rw [PureAll] at hpu
      rw [KnownAll] at hk
      rw [evalList] at h
      cases he : eval hp e with
      | error x => rw [he] at h; cases h
      | ok y =>
        obtain ⟨o1, hp1⟩ := y
        rw [he] at h
        have h1 := eval_pure e _ _ _ hw hk.1 hpu.1 he
        simp only at h
        cases hx : evalList hp1 r with
        | error x => rw [hx] at h; cases h
        | ok y =>
          obtain ⟨os', hp2⟩ := y
          rw [hx] at h
          have h2 := evalList_pure r _ _ _ h1.wf (knownAll_len h1.ext.len r hk.2) hpu.2 hx
          cases h
          obtain ⟨k, rfl, hlt, _⟩ := h1.ok
          refine ⟨h2.wf, h1.ext.trans h2.ext, ?_, ?_, ?_⟩
          · intro o ho
            rcases List.mem_cons.1 ho with rfl | ho
            · exact Nat.lt_of_lt_of_le hlt h2.ext.len
            · exact h2.ok o ho
          · intro hp0 j h3 h4 h5 h6
            rw [KnownAll] at h3
            obtain ⟨h7, h8⟩ := h1.unref hp0 j h3.1 h4 h5 h6
            obtain ⟨h9, h10⟩ := h2.unref hp0 j h3.2 h4 (Nat.lt_of_lt_of_le h5 h1.ext.len) h7
            refine ⟨h9, ?_⟩
            intro hm
            rcases List.mem_cons.1 hm with e | hm
            · exact h8 e.symm
            · exact h10 hm
          · intro is
            constructor
            · intro h
              cases h with
              | cons h3 h4 =>
                exact .cons ((h1.denotes _).1 (denotes_shrink h1.wf h2.ext h3 hlt))
                  (writesAll_shrink hw h1.ext ((h2.denotes _).1 h4) hk.2)
            · intro h
              cases h with
              | cons h3 h4 =>
                exact .cons (denotes_ext h1.wf h2.ext ((h1.denotes _).2 h3))
                  ((h2.denotes _).2 (writesAll_ext hw h1.ext h4))
end

/-! ### Expressions are evaluated or an assertion fails -/

theorem getitem_total {k : Nat} {x : Handle} {ix : Index} {os : List Obj} (hk : hp[k]? = some x) (hi : itemsOf ix = .ok os) :
    (∃ r, getitem hp (.handle k) ix = .ok r) ↔ x.items = none := by
  constructor
  · rintro ⟨⟨o, hp'⟩, h⟩
    obtain ⟨k', y, os', e, h1, h2, _⟩ := getitem_ok h
    cases e
    rw [hk] at h1
    cases h1
    exact h2
  · intro h
    refine ⟨(.handle k, hp.set k { x with items := some os }), ?_⟩
    simp only [getitem, hk, h, hi, Option.isSome_none, Bool.false_eq_true, if_false]

theorem getitem_fails {k : Nat} {x : Handle} {ix : Index} {os : List Obj} {e : Err} (hk : hp[k]? = some x) (hi : itemsOf ix = .ok os)
    (h : getitem hp (.handle k) ix = .error e) : e = .assertionError := by
  simp only [getitem, hk, hi] at h
  by_cases hx : x.items.isSome = true
  · rw [if_pos hx] at h; cases h; rfl
  · rw [if_neg hx] at h; cases h

theorem call_fails {k : Nat} {x : Handle} {o : List (String × Val)} {e : Err} (hk : hp[k]? = some x)
    (h : call hp (.handle k) o = .error e) : e = .assertionError := by
  simp only [call, hk] at h
  by_cases hx : x.options.isSome = true
  · rw [if_pos hx] at h; cases h; rfl
  · rw [if_neg hx] at h; cases h

theorem lshift_fails {k j : Nat} {x y : Handle} {e : Err} (hk : hp[k]? = some x) (hj : hp[j]? = some y)
    (h : lshift hp (.handle k) (.handle j) = .error e) : e = .assertionError := by
  simp only [lshift, hk, hj] at h
  by_cases hx : (noOptions x.options && noAlias x.alias_ && noItems x.items) = true
  · rw [if_pos hx] at h; cases h
  · rw [if_neg hx] at h; cases h; rfl

theorem getElem?_of_lt {α : Type} {l : List α} {k : Nat} (h : k < l.length) : ∃ a, l[k]? = some a :=
  ⟨_, List.getElem?_eq_getElem h⟩

mutual
theorem eval_total : (e : Ex) → ∀ (hp : Heap), WF hp → Known hp e → Pure e →
    (∀ x, eval hp e = .error x → x = .assertionError) ∧ ∀ i, Writes hp e i → ∃ r, eval hp e = .ok r
  | .q => by intro hp _ _ h; rw [Pure] at h; cases h
  | .other => by intro hp _ _ h; rw [Pure] at h; cases h
  | .var k => by
      intro hp hw hk _
      refine ⟨?_, fun _ _ => ⟨_, by rw [eval]⟩⟩
      intro x h
      rw [eval] at h
      cases h
  | .attr e n => by
      intro hp hw hk hpu
      rw [Pure] at hpu
      obtain ⟨rfl, _⟩ := hpu
      obtain ⟨q, h1, h2⟩ := hw.q
      have h : eval hp (.attr .q n) = .ok (alloc hp { name := some n }) := by
        rw [eval, eval]
        simp only [getattr, h1, h2]
        rfl
      refine ⟨?_, fun _ _ => ⟨_, h⟩⟩
      intro x hx
      rw [h] at hx
      cases hx
  | .call e o => by
      intro hp hw hk hpu
      rw [Pure] at hpu
      rw [Known] at hk
      obtain ⟨ih1, ih2⟩ := eval_total e hp hw hk hpu.2
      rw [eval]
      cases he : eval hp e with
      | error x =>
        refine ⟨fun y h => by cases h; exact ih1 _ he, ?_⟩
        intro i h
        cases h with
        | call h1 h2 =>
          obtain ⟨r, hr⟩ := ih2 _ h1
          rw [he] at hr
          cases hr
      | ok r =>
        obtain ⟨o1, hp1⟩ := r
        have h1 := eval_pure e _ _ _ hw hk hpu.2 he
        obtain ⟨k, rfl, hlt, _⟩ := h1.ok
        obtain ⟨x, hx⟩ := getElem?_of_lt hlt
        refine ⟨fun y h => call_fails hx h, ?_⟩
        intro i h
        cases h with
        | call h2 h3 =>
          rw [← h1.denotes] at h2
          obtain ⟨y, h4, _, h5, _⟩ := denotes_opts h2
          rw [h3] at h5
          exact ⟨_, by simp only [call, h4, h5, Option.isSome_none, Bool.false_eq_true, if_false]; rfl⟩
  | .index e x => by
      intro hp hw hk hpu
      rw [Pure] at hpu
      rw [Known] at hk
      obtain ⟨ih1, ih2⟩ := eval_total e hp hw hk.1 hpu.2.1
      rw [eval]
      cases he : eval hp e with
      | error x =>
        refine ⟨fun y h => by cases h; exact ih1 _ he, ?_⟩
        intro i h
        cases h with
        | index h1 h2 =>
          obtain ⟨r, hr⟩ := ih2 _ h1
          rw [he] at hr
          cases hr
      | ok r =>
        obtain ⟨o1, hp1⟩ := r
        have h1 := eval_pure e _ _ _ hw hk.1 hpu.2.1 he
        obtain ⟨ih3, ih4⟩ := eval_total x hp1 h1.wf (known_len h1.ext.len x hk.2) hpu.2.2
        simp only
        cases hx : eval hp1 x with
        | error y =>
          refine ⟨fun z h => by cases h; exact ih3 _ hx, ?_⟩
          intro i h
          cases h with
          | index h2 h3 =>
            obtain ⟨r, hr⟩ := ih4 _ (writes_ext hw h1.ext h3)
            rw [hx] at hr
            cases hr
        | ok r =>
          obtain ⟨o2, hp2⟩ := r
          have h2 := eval_pure x _ _ _ h1.wf (known_len h1.ext.len x hk.2) hpu.2.2 hx
          obtain ⟨k, rfl, hlt, _⟩ := h1.ok
          obtain ⟨j, rfl, hj, _⟩ := h2.ok
          obtain ⟨y, hy⟩ := getElem?_of_lt hlt
          have hy2 : hp2[k]? = some y := by rw [h2.ext.same k hlt, hy]
          refine ⟨fun z h => getitem_fails hy2 rfl h, ?_⟩
          intro i h
          cases h with
          | index h3 h4 =>
            rw [← h1.denotes] at h3
            obtain ⟨y', h5, _, _, _, h6⟩ := denotes_field_inv h3
            rw [hy] at h5
            cases h5
            exact (getitem_total hy2 rfl).2 h6
  | .indexes e xs => by
      intro hp hw hk hpu
      rw [Pure] at hpu
      rw [Known] at hk
      obtain ⟨ih1, ih2⟩ := eval_total e hp hw hk.1 hpu.2.1
      rw [eval]
      cases he : eval hp e with
      | error x =>
        refine ⟨fun y h => by cases h; exact ih1 _ he, ?_⟩
        intro i h
        cases h with
        | indexes h1 h2 =>
          obtain ⟨r, hr⟩ := ih2 _ h1
          rw [he] at hr
          cases hr
      | ok r =>
        obtain ⟨o1, hp1⟩ := r
        have h1 := eval_pure e _ _ _ hw hk.1 hpu.2.1 he
        obtain ⟨ih3, ih4⟩ := evalList_total xs hp1 h1.wf (knownAll_len h1.ext.len xs hk.2) hpu.2.2
        simp only
        cases hx : evalList hp1 xs with
        | error y =>
          refine ⟨fun z h => by cases h; exact ih3 _ hx, ?_⟩
          intro i h
          cases h with
          | indexes h2 h3 =>
            obtain ⟨r, hr⟩ := ih4 _ (writesAll_ext hw h1.ext h3)
            rw [hx] at hr
            cases hr
        | ok r =>
          obtain ⟨os, hp2⟩ := r
          have h2 := evalList_pure xs _ _ _ h1.wf (knownAll_len h1.ext.len xs hk.2) hpu.2.2 hx
          obtain ⟨k, rfl, hlt, _⟩ := h1.ok
          obtain ⟨y, hy⟩ := getElem?_of_lt hlt
          have hy2 : hp2[k]? = some y := by rw [h2.ext.same k hlt, hy]
          refine ⟨fun z h => getitem_fails hy2 rfl h, ?_⟩
          intro i h
          cases h with
          | indexes h3 h4 =>
            rw [← h1.denotes] at h3
            obtain ⟨y', h5, _, _, _, h6⟩ := denotes_field_inv h3
            rw [hy] at h5
            cases h5
            exact (getitem_total hy2 rfl).2 h6
  | .shift e x => by
      intro hp hw hk hpu
      rw [Pure] at hpu
      rw [Known] at hk
      obtain ⟨ih1, ih2⟩ := eval_total e hp hw hk.1 hpu.2.1
      rw [eval]
      cases he : eval hp e with
      | error x =>
        refine ⟨fun y h => by cases h; exact ih1 _ he, ?_⟩
        intro i h
        cases h with
        | shift h1 h2 h3 =>
          obtain ⟨r, hr⟩ := ih2 _ h1
          rw [he] at hr
          cases hr
      | ok r =>
        obtain ⟨o1, hp1⟩ := r
        have h1 := eval_pure e _ _ _ hw hk.1 hpu.2.1 he
        obtain ⟨ih3, ih4⟩ := eval_total x hp1 h1.wf (known_len h1.ext.len x hk.2) hpu.2.2
        simp only
        cases hx : eval hp1 x with
        | error y =>
          refine ⟨fun z h => by cases h; exact ih3 _ hx, ?_⟩
          intro i h
          cases h with
          | shift h2 h3 h4 =>
            obtain ⟨r, hr⟩ := ih4 _ (writes_ext hw h1.ext h4)
            rw [hx] at hr
            cases hr
        | ok r =>
          obtain ⟨o2, hp2⟩ := r
          have h2 := eval_pure x _ _ _ h1.wf (known_len h1.ext.len x hk.2) hpu.2.2 hx
          obtain ⟨k, rfl, hlt, _⟩ := h1.ok
          obtain ⟨j, rfl, hj, _⟩ := h2.ok
          obtain ⟨y, hy⟩ := getElem?_of_lt hlt
          obtain ⟨t, ht⟩ := getElem?_of_lt hj
          have hy2 : hp2[k]? = some y := by rw [h2.ext.same k hlt, hy]
          refine ⟨fun z h => lshift_fails hy2 ht h, ?_⟩
          intro i h
          cases h with
          | shift h3 h4 h5 =>
            rw [← h1.denotes] at h3
            obtain ⟨y', h6, h7, h8, h9, h10⟩ := denotes_opts h3
            rw [hy] at h6
            cases h6
            have hc : (noOptions y.options && noAlias y.alias_ && noItems y.items) = true := by
              rw [Bool.and_eq_true, Bool.and_eq_true, noOptions_iff, noAlias_iff, noItems_iff, h8, h9]
              rcases h10 with ⟨h11, h12⟩ | ⟨os, n, is, h11, h12, h13⟩
              · rename_i i0 _
                cases i0 with
                | field => exact ⟨h4, .inl h11⟩
                | link => cases h12
              · subst h12
                have h14 : is = [] := h4.1
                subst h14
                cases h13
                exact ⟨h4.2, .inr h11⟩
            exact ⟨_, by simp only [lshift, hy2, ht, if_pos hc]; rfl⟩
theorem evalList_total : (es : List Ex) → ∀ (hp : Heap), WF hp → KnownAll hp es → PureAll es →
    (∀ x, evalList hp es = .error x → x = .assertionError) ∧ ∀ is, WritesAll hp es is → ∃ r, evalList hp es = .ok r
  | [] => by
      intro hp _ _ _
      refine ⟨?_, fun _ _ => ⟨_, by rw [evalList]⟩⟩
      intro x h
      rw [evalList] at h
      cases h
  | e :: r => by
      intro hp hw hk hpu
      rw [PureAll] at hpu
      rw [KnownAll] at hk
      obtain ⟨ih1, ih2⟩ := eval_total e hp hw hk.1 hpu.1
      rw [evalList]
      cases he : eval hp e with
      | error x =>
        refine ⟨fun y h => by cases h; exact ih1 _ he, ?_⟩
        intro is h
        cases h with
        | cons h1 h2 =>
          obtain ⟨r, hr⟩ := ih2 _ h1
          rw [he] at hr
          cases hr
      | ok y =>
        obtain ⟨o1, hp1⟩ := y
        have h1 := eval_pure e _ _ _ hw hk.1 hpu.1 he
        obtain ⟨ih3, ih4⟩ := evalList_total r hp1 h1.wf (knownAll_len h1.ext.len r hk.2) hpu.2
        simp only
        cases hx : evalList hp1 r with
        | error y =>
          refine ⟨fun z h => by cases h; exact ih3 _ hx, ?_⟩
          intro is h
          cases h with
          | cons h2 h3 =>
            obtain ⟨r, hr⟩ := ih4 _ (writesAll_ext hw h1.ext h3)
            rw [hx] at hr
            cases hr
        | ok y =>
          exact ⟨fun z h => (by cases h), fun _ _ => ⟨_, rfl⟩⟩
end

/-! ### The property -/

/-- C48: `build([...])` gives the written query: the items in order with the written names, options, aliases and
nesting.  In any state of the program; variables stand for their handles, provided that the expressions do not
change them. -/
theorem c48_written {es : List Ex} {is : List QItem} {lim : Nat} (hw : WF hp) (hk : KnownAll hp es) (hp' : PureAll es)
    (h : WritesAll hp es is) (hl : depthAll is ≤ lim) : run lim hp es = .ok (.mk is false) := by
  obtain ⟨⟨os, hp2⟩, hr⟩ := (evalList_total es hp hw hk hp').2 is h
  have h1 := evalList_pure es _ _ _ hw hk hp' hr
  unfold run
  rw [hr]
  unfold build
  simp only [buildItems_denotes ((h1.denotes is).2 h) hl]

/-- C48: and nothing else: if a query is built, it is the written one. -/
theorem c48_exact {es : List Ex} {q : QNode} {lim : Nat} (hw : WF hp) (hk : KnownAll hp es) (hp' : PureAll es)
    (h : run lim hp es = .ok q) : ∃ is, q = .mk is false ∧ WritesAll hp es is := by
  unfold run at h
  cases hr : evalList hp es with
  | error e => rw [hr] at h; cases h
  | ok r =>
    obtain ⟨os, hp2⟩ := r
    rw [hr] at h
    obtain ⟨is, h1, h2⟩ := c48_build.1 ⟨lim, h⟩
    exact ⟨is, h1, ((evalList_pure es _ _ _ hw hk hp' hr).denotes is).1 h2⟩

/-- C48: handles in variables, and `Q`, denote after the expressions what they denoted before. -/
theorem c48_unchanged {es : List Ex} {os : List Obj} {hp2 : Heap} (hw : WF hp) (hk : KnownAll hp es) (hp' : PureAll es)
    (h : evalList hp es = .ok (os, hp2)) {k : Nat} (hlt : k < hp.length) : hp2[k]? = hp[k]? ∧
      ∀ i, Denotes hp2 (.handle k) i ↔ Denotes hp (.handle k) i :=
  have h1 := evalList_pure es _ _ _ hw hk hp' h
  ⟨h1.ext.same k hlt, fun _ => ⟨fun hd => denotes_shrink hw h1.ext hd hlt, denotes_ext hw h1.ext⟩⟩

/-- C48: otherwise AssertionError (when an expression is evaluated). -/
theorem c48_assertion {es : List Ex} {e : Err} (hw : WF hp) (hk : KnownAll hp es) (hp' : PureAll es)
    (h : evalList hp es = .error e) : e = .assertionError ∧ ¬ ∃ is, WritesAll hp es is := by
  obtain ⟨h1, h2⟩ := evalList_total es hp hw hk hp'
  refine ⟨h1 e h, ?_⟩
  rintro ⟨is, h3⟩
  obtain ⟨r, hr⟩ := h2 is h3
  rw [h] at hr
  cases hr

/-! ### Expressions without variables -/

mutual
theorem writes_closed {hp1 hp2 : Heap} {e : Ex} {i : QItem} : Writes hp1 e i → Known [] e → Writes hp2 e i
  | .name n, _ => .name n
  | .var _, hk => absurd hk (Nat.not_lt_zero _)
  | .call h1 h2, hk => .call (writes_closed h1 (by rw [Known] at hk; exact hk)) h2
  | .index h1 h2, hk => by
      rw [Known] at hk
      exact .index (writes_closed h1 hk.1) (writes_closed h2 hk.2)
  | .indexes h1 h2, hk => by
      rw [Known] at hk
      exact .indexes (writes_closed h1 hk.1) (writesAll_closed h2 hk.2)
  | .shift h1 h2 h3, hk => by
      rw [Known] at hk
      exact .shift (writes_closed h1 hk.1) h2 (writes_closed h3 hk.2)
theorem writesAll_closed {hp1 hp2 : Heap} {es : List Ex} {is : List QItem} :
    WritesAll hp1 es is → KnownAll [] es → WritesAll hp2 es is
  | .nil, _ => .nil
  | .cons h1 h2, hk => by
      rw [KnownAll] at hk
      exact .cons (writes_closed h1 hk.1) (writesAll_closed h2 hk.2)
end

/-- C48: the query does not depend on what was done before (even to `Q` itself). -/
theorem c48_stateless {es : List Ex} {q : QNode} (hk : KnownAll [] es) (hp' : PureAll es) {hp1 hp2 : Heap} (h1 : WF hp1) (h2 : WF hp2)
    {lim : Nat} (h : run lim hp1 es = .ok q) : ∃ lim', run lim' hp2 es = .ok q := by
  obtain ⟨is, rfl, hw⟩ := c48_exact h1 (knownAll_len (Nat.zero_le _) es hk) hp' h
  exact ⟨depthAll is, c48_written h2 (knownAll_len (Nat.zero_le _) es hk) hp' (writesAll_closed hw hk) (Nat.le_refl _)⟩

/-- options as they are written -/
def writeOptions (e : Ex) : Opts → Ex
  | none => e
  | some o => .call e o

/-- an alias as it is written -/
def writeAlias (e : Ex) : Option String → Ex
  | none => e
  | some a => .shift (.attr .q a) e

mutual
/-- an item of a query as the documentation writes it: `Q.alias << Q.name(options)[items]` -/
def write : QItem → Ex
  | .field n o a => writeAlias (writeOptions (.attr .q n) o) a
  | .link n (.mk fs _) o a => writeAlias (.indexes (writeOptions (.attr .q n) o) (writeAll fs)) a
def writeAll : List QItem → List Ex
  | [] => []
  | i :: r => write i :: writeAll r
end

mutual
/-- unordered queries, where all names and aliases are not empty -/
def Writable : QItem → Prop
  | .field n _ a => n ≠ "" ∧ a ≠ some ""
  | .link n (.mk fs ord) _ a => n ≠ "" ∧ a ≠ some "" ∧ ord = false ∧ WritableAll fs
def WritableAll : List QItem → Prop
  | [] => True
  | i :: r => Writable i ∧ WritableAll r
end

theorem writes_options {e : Ex} {n : String} (h : Writes hp e (.field n none none)) (o : Opts) :
    Writes hp (writeOptions e o) (.field n o none) := by
  cases o with
  | none => exact h
  | some o => exact .call h rfl

theorem pure_options {n : String} (hn : n ≠ "") (o : Opts) :
    NotVar (writeOptions (.attr .q n) o) ∧ Pure (writeOptions (.attr .q n) o) ∧ Known [] (writeOptions (.attr .q n) o) := by
  cases o with
  | none => exact ⟨trivial, by rw [writeOptions, Pure]; exact ⟨rfl, hn⟩, by rw [writeOptions, Known, Known]; trivial⟩
  | some o =>
    refine ⟨trivial, ?_, ?_⟩
    · rw [writeOptions, Pure, Pure]; exact ⟨trivial, rfl, hn⟩
    · rw [writeOptions, Known, Known, Known]; trivial

theorem alias_field {e : Ex} {n : String} {o : Opts} (h : Writes hp e (.field n o none)) (a : Option String) :
    Writes hp (writeAlias e a) (.field n o a) := by
  cases a with
  | none => exact h
  | some a => exact .shift (.name a) ⟨.inl rfl, .inl rfl⟩ h

theorem alias_link {e : Ex} {n : String} {q : QNode} {o : Opts} (h : Writes hp e (.link n q o none)) (a : Option String) :
    Writes hp (writeAlias e a) (.link n q o a) := by
  cases a with
  | none => exact h
  | some a => exact .shift (.name a) ⟨.inl rfl, .inl rfl⟩ h

theorem pure_alias {e : Ex} (h : Pure e ∧ Known [] e) {a : Option String} (ha : a ≠ some "") :
    Pure (writeAlias e a) ∧ Known [] (writeAlias e a) := by
  cases a with
  | none => exact h
  | some a =>
    rw [writeAlias, Pure, Pure, Known, Known, Known]
    exact ⟨⟨trivial, ⟨rfl, fun e => ha (by rw [e])⟩, h.1⟩, trivial, h.2⟩

mutual
theorem write_ok : (i : QItem) → Writable i → Pure (write i) ∧ Known [] (write i) ∧ ∀ hp, Writes hp (write i) i
  | .field n o a, h => by
      rw [Writable] at h
      rw [write]
      obtain ⟨h1, h2, h3⟩ := pure_options h.1 o
      obtain ⟨h4, h5⟩ := pure_alias ⟨h2, h3⟩ h.2
      exact ⟨h4, h5, fun hp => alias_field (writes_options (.name n) o) a⟩
  | .link n (.mk fs ord) o a, h => by
      rw [Writable] at h
      obtain ⟨hn, ha, rfl, hfs⟩ := h
      rw [write]
      obtain ⟨h1, h2, h3⟩ := pure_options hn o
      obtain ⟨h6, h7, h8⟩ := writeAll_ok fs hfs
      obtain ⟨h4, h5⟩ := pure_alias (e := .indexes (writeOptions (.attr .q n) o) (writeAll fs))
        ⟨by rw [Pure]; exact ⟨h1, h2, h6⟩, by rw [Known]; exact ⟨h3, h7⟩⟩ ha
      exact ⟨h4, h5, fun hp => alias_link (.indexes (writes_options (.name n) o) (h8 hp)) a⟩
theorem writeAll_ok : (is : List QItem) → WritableAll is → PureAll (writeAll is) ∧ KnownAll [] (writeAll is) ∧ ∀ hp, WritesAll hp (writeAll is) is
  | [], _ => by rw [writeAll, PureAll, KnownAll]; exact ⟨trivial, trivial, fun _ => .nil⟩
  | i :: r, h => by
      rw [WritableAll] at h
      rw [writeAll, PureAll, KnownAll]
      obtain ⟨h1, h2, h3⟩ := write_ok i h.1
      obtain ⟨h4, h5, h6⟩ := writeAll_ok r h.2
      exact ⟨⟨h1, h4⟩, ⟨h2, h5⟩, fun hp => .cons (h3 hp) (h6 hp)⟩
end

/-- C48: every unordered query can be written, in any state of the program. -/
theorem c48_every {is : List QItem} (h : WritableAll is) (hw : WF hp) {lim : Nat} (hl : depthAll is ≤ lim) :
    run lim hp (writeAll is) = .ok (.mk is false) := by
  obtain ⟨h1, h2, h3⟩ := writeAll_ok is h
  exact c48_written hw (knownAll_len (Nat.zero_le _) _ h2) h1 (h3 hp) hl

/-! ### Examples -/

/-- `build([Q.foo, Q.bar(arg=42)[Q.baz], Q.aliased << Q.field])`, the example of the documentation of `build` -/
def exDoc : List Ex := [.attr .q "foo", .index (.call (.attr .q "bar") [("arg", .int 42)]) (.attr .q "baz"),
  .shift (.attr .q "aliased") (.attr .q "field")]

def exItems : List QItem := [.field "foo" none none,
  .link "bar" (.mk [.field "baz" none none] false) (some [("arg", .int 42)]) none, .field "field" none (some "aliased")]

theorem exDoc_writes : WritesAll start exDoc exItems :=
  .cons (.name _) (.cons (.index (.call (.name _) rfl) (.name _)) (.cons (.shift (.name _) ⟨.inl rfl, .inl rfl⟩ (.name _)) .nil))

theorem exDoc_pure : PureAll exDoc ∧ KnownAll start exDoc := by
  simp [exDoc, PureAll, Pure, NotVar, KnownAll, Known]

theorem exDoc_built : run 1 start exDoc = .ok (.mk exItems false) :=
  c48_written start_wf exDoc_pure.2 exDoc_pure.1 exDoc_writes (by decide)

/-- `Q(x=1)` changes the global `Q`; written queries do not depend on it -/
theorem exPolluted : ∃ hp, eval start (.call .q [("x", .int 1)]) = .ok (.handle 0, hp) ∧ WF hp ∧ run 1 hp exDoc = .ok (.mk exItems false) := by
  have h : eval start (.call .q [("x", .int 1)]) = .ok (.handle 0, [{ options := some [("x", .int 1)] }]) := rfl
  have hw := (eval_wf _ _ _ _ start_wf (by rw [Known, Known]; trivial) h).1
  refine ⟨_, h, hw, ?_⟩
  have h2 : KnownAll [] exDoc := by simp [exDoc, KnownAll, Known]
  exact c48_written hw (knownAll_len (Nat.zero_le _) _ h2) exDoc_pure.1 (writesAll_closed exDoc_writes h2) (by decide)

/-- `x = Q.a[Q.b]; build([x, Q.c << x, Q.d[x]])`: a handle may be used many times -/
theorem exShared : run 2 [{}, { name := some "a", items := some [.handle 2] }, { name := some "b" }]
    [.var 1, .shift (.attr .q "c") (.var 1), .index (.attr .q "d") (.var 1)] =
    .ok (.mk [.link "a" (.mk [.field "b" none none] false) none none, .link "a" (.mk [.field "b" none none] false) none (some "c"),
      .link "d" (.mk [.link "a" (.mk [.field "b" none none] false) none none] false) none none] false) := by
  simp [run, evalList, eval, getattr, getitem, lshift, alloc, itemsOf, noOptions, noAlias, noItems, build, buildItems, buildItem]

/-! ### Defects -/

/-- Expressions which change a handle in a variable do not build what is written:
`x = Q.a; build([x, x(n=1)])` has the options in both places. -/
theorem c48_changed_variable : run 1 [{}, { name := some "a" }] [.var 1, .call (.var 1) [("n", .int 1)]] =
    .ok (.mk [.field "a" (some [("n", .int 1)]) none, .field "a" (some [("n", .int 1)]) none] false) := by
  simp [run, evalList, eval, call, build, buildItems, buildItem]

/-- `build([Q(x=1).a])` builds the field without the options, and only once: `Q(x=1)` changes the global `Q` and
the next `Q(x=1)` is an AssertionError. -/
theorem c48_global : ∃ hp os, evalList start [.attr (.call .q [("x", .int 1)]) "a"] = .ok (os, hp) ∧
    build 1 hp os = .ok (.mk [.field "a" none none] false) ∧
    run 1 hp [.attr (.call .q [("x", .int 1)]) "a"] = .error .assertionError := by
  refine ⟨[{ options := some [("x", .int 1)] }, { name := some "a" }], [.handle 1], rfl, ?_, rfl⟩
  simp [build, buildItems, buildItem]

/-- `build([Q])` is an AssertionError -/
theorem c48_nameless : run 1 start [.q] = .error .assertionError := by
  simp [run, evalList, eval, build, buildItems, buildItem, start]

/-- `build([Q.a['b']])` is an AssertionError, `build([Q.a['b', 'c']])` an AttributeError -/
theorem c48_other : run 1 start [.index (.attr .q "a") .other] = .error .assertionError ∧
    run 1 start [.indexes (.attr .q "a") [.other, .other]] = .error .attributeError := by
  refine ⟨rfl, ?_⟩
  simp [run, evalList, eval, build, buildItems, buildItem, start, getattr, getitem, alloc, itemsOf]

/-- a handle which contains itself (`x = Q.a; x[x]`): RecursionError whatever the limit is -/
theorem c48_cycle (lim : Nat) : run lim [{}, { name := some "a" }] [.index (.var 1) (.var 1)] = .error .recursionError := by
  have h : evalList [{}, { name := some "a" }] [.index (.var 1) (.var 1)] =
    .ok ([.handle 1], [{}, { name := some "a", items := some [.handle 1] }]) := rfl
  have key : ∀ lim, buildItem lim [{}, { name := some "a", items := some [.handle 1] }] (.handle 1) = .error .recursionError := by
    intro lim
    induction lim with
    | zero => rw [buildItem]; rfl
    | succ n ih => rw [buildItem]; simp [buildItems, ih]
  unfold run
  rw [h]
  simp only [build]
  rw [buildItems, key]

/-- an alias of an alias: the inner one is lost -/
theorem c48_alias_twice : run 1 start [.shift (.attr .q "a") (.shift (.attr .q "b") (.attr .q "c"))] =
    .ok (.mk [.field "c" none (some "a")] false) := by
  simp [run, evalList, eval, getattr, lshift, alloc, noOptions, noAlias, noItems, build, buildItems, buildItem, start]

end Hiku.Builder
