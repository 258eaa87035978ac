import Verif.Spec.QueryObjects
import Verif.Proofs.Merge
import Verif.Proofs.Dict
import Verif.Props.Options

/-! # C71: query objects with their caches stand for trees -/

namespace Hiku.QObj
open Hiku

variable {H : PyHash}

/-! ### what objects are made of -/

def Attrs.name? : Attrs → Option String
  | .field n _ _ => some n
  | .link n _ _ _ => some n
  | .node .. => none
def Attrs.opts? : Attrs → Option Opts
  | .field _ o _ => some o
  | .link _ _ o _ => some o
  | .node .. => none
def Attrs.key? : Attrs → Option String
  | .field n _ a => some (a.getD n)
  | .link n _ _ a => some (a.getD n)
  | .node .. => none

/-- the objects of `h` are still there in `h'`, with the same attributes -/
def Ext (h h' : Heap) : Prop := ∀ o a, attrsAt h o = some a → attrsAt h' o = some a

theorem Ext.refl (h : Heap) : Ext h h := fun _ _ e => e
theorem Ext.trans {a b c : Heap} (h1 : Ext a b) (h2 : Ext b c) : Ext a c := fun _ _ e => h2 _ _ (h1 _ _ e)

mutual
theorem IsItem.ext {h h' : Heap} (e : Ext h h') : ∀ {o i}, IsItem h o i → IsItem h' o i
  | _, _, .field a => .field (e _ _ a)
  | _, _, .link a n => .link (e _ _ a) (n.ext e)
theorem IsNode.ext {h h' : Heap} (e : Ext h h') : ∀ {o q}, IsNode h o q → IsNode h' o q
  | _, _, .node a n => .node (e _ _ a) (n.ext e)
theorem IsItems.ext {h h' : Heap} (e : Ext h h') : ∀ {o q}, IsItems h o q → IsItems h' o q
  | _, _, .nil => .nil
  | _, _, .cons a n => .cons (a.ext e) (n.ext e)
end

/-- what is remembered is what would be computed -/
structure Fresh (H : PyHash) (h : Heap) (x : Obj) : Prop where
  resultKey : ∀ k, x.cache.resultKey = some k → x.attrs.key? = some k
  optionsHash : ∀ k, x.cache.optionsHash = some k → ∃ o, x.attrs.opts? = some o ∧ k = Hiku.optionsHash H o
  indexKey : ∀ k, x.cache.indexKey = some k → ∃ n o, x.attrs.name? = some n ∧ x.attrs.opts? = some o ∧ k = Hiku.indexKey H n o
  fieldsMap : ∀ m, x.cache.fieldsMap = some m → ∃ fs b ns, x.attrs = .node fs b ∧
    List.Forall₂ (fun f n => (attrsAt h f).bind Attrs.name? = some n) fs ns ∧ m = dmk (ns.zip fs)
  resultMap : ∀ m, x.cache.resultMap = some m → ∃ fs b ns, x.attrs = .node fs b ∧
    List.Forall₂ (fun f n => (attrsAt h f).bind Attrs.key? = some n) fs ns ∧ m = dmk (ns.zip fs)

def Inv (H : PyHash) (h : Heap) : Prop := ∀ (o : Nat) (x : Obj), h[o]? = some x → Fresh H h x

theorem bind_ext {h h' : Heap} (e : Ext h h') {f : Nat} {g : Attrs → Option String} {n : String}
    (hn : (attrsAt h f).bind g = some n) : (attrsAt h' f).bind g = some n := by
  obtain ⟨a, ha, hg⟩ := Option.bind_eq_some_iff.1 hn
  rw [e _ _ ha]
  exact hg

theorem Fresh.ext {h h' : Heap} (e : Ext h h') {x : Obj} (hf : Fresh H h x) : Fresh H h' x where
  resultKey := hf.resultKey
  optionsHash := hf.optionsHash
  indexKey := hf.indexKey
  fieldsMap m hm := by
    obtain ⟨fs, b, ns, h1, h2, h3⟩ := hf.fieldsMap m hm
    exact ⟨fs, b, ns, h1, h2.imp fun _ _ hn => bind_ext e hn, h3⟩
  resultMap m hm := by
    obtain ⟨fs, b, ns, h1, h2, h3⟩ := hf.resultMap m hm
    exact ⟨fs, b, ns, h1, h2.imp fun _ _ hn => bind_ext e hn, h3⟩

theorem fresh_new (h : Heap) (a : Attrs) : Fresh H h { attrs := a } where
  resultKey _ e := by cases e
  optionsHash _ e := by cases e
  indexKey _ e := by cases e
  fieldsMap _ e := by cases e
  resultMap _ e := by cases e

/-! ### programs -/

/-- a program which keeps the invariant and the objects, whatever its outcome -/
def Good (H : PyHash) {α : Type} (m : M α) : Prop := ∀ h, Inv H h → Inv H (m h).2 ∧ Ext h (m h).2

theorem bind_eq {α β : Type} (m : M α) (f : α → M β) (h : Heap) :
    (m >>= f) h = match m h with | (.ok a, h') => f a h' | (.error e, h') => (.error e, h') := rfl

theorem bind_of {α β : Type} {m : M α} {f : α → M β} {h h' : Heap} {a : α} (e : m h = (.ok a, h')) :
    (m >>= f) h = f a h' := by rw [bind_eq, e]

theorem good_pure {α : Type} (a : α) : Good H (pure a : M α) := fun h hi => ⟨hi, Ext.refl h⟩
theorem good_raise {α : Type} (e : Err) : Good H (raise e : M α) := fun h hi => ⟨hi, Ext.refl h⟩
theorem good_lift {α : Type} (x : Except Err α) : Good H (lift x) := by
  cases x with
  | ok a => exact good_pure a
  | error e => exact good_raise e

theorem good_load (o : Nat) : Good H (load o) := by
  intro h hi
  unfold load
  split <;> exact ⟨hi, Ext.refl h⟩

theorem good_bind {α β : Type} {m : M α} {f : α → M β} (hm : Good H m) (hf : ∀ a, Good H (f a)) : Good H (m >>= f) := by
  intro h hi
  rw [bind_eq]
  obtain ⟨h1, h2⟩ := hm h hi
  cases hc : m h with
  | mk r h' =>
    rw [hc] at h1 h2
    cases r with
    | error e => exact ⟨h1, h2⟩
    | ok a =>
      obtain ⟨h3, h4⟩ := hf a h' h1
      exact ⟨h3, h2.trans h4⟩

/-- a program which continues with an object it has loaded -/
theorem good_load_bind {β : Type} {o : Nat} {f : Obj → M β}
    (hf : ∀ h x, Inv H h → h[o]? = some x → Inv H (f x h).2 ∧ Ext h (f x h).2) : Good H (load o >>= f) := by
  intro h hi
  rw [bind_eq]
  unfold load
  cases hx : h[o]? with
  | none => exact ⟨hi, Ext.refl h⟩
  | some x => exact hf h x hi hx

theorem attrsAt_append (h : Heap) (x : Obj) (o : Nat) :
    attrsAt (h ++ [x]) o = if o = h.length then some x.attrs else attrsAt h o := by
  unfold attrsAt
  split
  · next e => subst e; simp
  · next e =>
    rw [List.getElem?_append]
    split
    · rfl
    · next hl =>
      rw [List.getElem?_eq_none (by simp; omega), List.getElem?_eq_none (by omega)]

theorem attrsAt_lt {h : Heap} {o : Nat} {a : Attrs} (e : attrsAt h o = some a) : o < h.length := by
  unfold attrsAt at e
  rcases Nat.lt_or_ge o h.length with h1 | h1
  · exact h1
  · rw [List.getElem?_eq_none h1] at e; cases e

theorem ext_new (h : Heap) (a : Attrs) : Ext h (new a h).2 := by
  intro o b e
  show attrsAt (h ++ [_]) o = _
  rw [attrsAt_append, if_neg (Nat.ne_of_lt (attrsAt_lt e)), e]

theorem good_new (a : Attrs) : Good H (new a) := by
  intro h hi
  refine ⟨?_, ext_new h a⟩
  intro o x hx
  change (h ++ [({ attrs := a } : Obj)])[o]? = some x at hx
  rw [List.getElem?_append] at hx
  split at hx
  · exact (hi o x hx).ext (ext_new h a)
  · rw [List.getElem?_singleton] at hx
    split at hx
    · cases hx
      exact fresh_new _ a
    · cases hx

theorem attrsAt_save (o : Nat) (f : Cache → Cache) (h : Heap) (o' : Nat) : attrsAt (save o f h).2 o' = attrsAt h o' := by
  show ((h.modify o fun x => { x with cache := f x.cache })[o']?).map Obj.attrs = _
  rw [List.getElem?_modify]
  unfold attrsAt
  cases h[o']? with
  | none => simp
  | some x => simp; split <;> rfl

theorem ext_save (o : Nat) (f : Cache → Cache) (h : Heap) : Ext h (save o f h).2 := by
  intro o' a e
  rw [attrsAt_save, e]

theorem save_ok {o : Nat} {f : Cache → Cache} {h : Heap} (hi : Inv H h) {a : Attrs} (ha : attrsAt h o = some a)
    (hf : ∀ c, Fresh H h { attrs := a, cache := c } → Fresh H h { attrs := a, cache := f c }) :
    Inv H (save o f h).2 ∧ Ext h (save o f h).2 := by
  refine ⟨?_, ext_save o f h⟩
  intro o' y hy
  change (h.modify o fun x => { x with cache := f x.cache })[o']? = some y at hy
  rw [List.getElem?_modify, Option.map_eq_map, Option.map_eq_some_iff] at hy
  obtain ⟨z, hz, rfl⟩ := hy
  refine Fresh.ext (ext_save o f h) ?_
  have hz' := hi _ _ hz
  by_cases e : o = o'
  · subst e
    obtain ⟨za, zc⟩ := z
    have : za = a := by
      unfold attrsAt at ha
      rw [hz] at ha
      simpa using ha
    subst this
    simp only [if_pos]
    exact hf zc hz'
  · simp only [if_neg e]
    exact hz'

/-- `f` reads `v` from `o` -/
def Reads (H : PyHash) {α : Type} (m : M α) (h : Heap) (v : α) : Prop :=
  ∃ h', m h = (.ok v, h') ∧ Inv H h' ∧ Ext h h'

theorem Reads.bind {α β : Type} {m : M α} {f : α → M β} {h : Heap} {v : α} {P : β → Heap → Prop}
    (hr : Reads H m h v) (hf : ∀ h', Inv H h' → Ext h h' → ∃ w h'', f v h' = (.ok w, h'') ∧ Inv H h'' ∧ Ext h' h'' ∧ P w h'') :
    ∃ w h'', (m >>= f) h = (.ok w, h'') ∧ Inv H h'' ∧ Ext h h'' ∧ P w h'' := by
  obtain ⟨h', e, h1, h2⟩ := hr
  obtain ⟨w, h'', e2, h3, h4, h5⟩ := hf h' h1 h2
  exact ⟨w, h'', by rw [bind_of e, e2], h3, h2.trans h4, h5⟩

theorem load_of {h : Heap} {o : Nat} {a : Attrs} (e : attrsAt h o = some a) :
    ∃ x, h[o]? = some x ∧ x.attrs = a ∧ load o h = (.ok x, h) := by
  unfold attrsAt at e
  obtain ⟨x, hx, ha⟩ := Option.map_eq_some_iff.1 e
  exact ⟨x, hx, ha, by unfold load; rw [hx]⟩

theorem attrsAt_of {h : Heap} {o : Nat} {x : Obj} (e : h[o]? = some x) : attrsAt h o = some x.attrs := by
  unfold attrsAt; rw [e]; rfl

theorem good_nameOf (o : Nat) : Good H (nameOf o) := by
  refine good_bind (good_load o) fun x => ?_
  split
  · exact good_pure _
  · exact good_pure _
  · exact good_raise _

theorem good_fieldsOf (o : Nat) : Good H (fieldsOf o) := by
  refine good_bind (good_load o) fun x => ?_
  split
  · exact good_pure _
  · exact good_raise _

theorem good_orderedOf (o : Nat) : Good H (orderedOf o) := by
  refine good_bind (good_load o) fun x => ?_
  split
  · exact good_pure _
  · exact good_raise _

theorem good_each {α β : Type} {f : α → M β} (hf : ∀ a, Good H (f a)) : ∀ l, Good H (each f l)
  | [] => good_pure _
  | x :: r => good_bind (hf x) fun _ => good_bind (good_each hf r) fun _ => good_pure _

theorem save_pure {α : Type} {o : Nat} {f : Cache → Cache} {v : α} {h : Heap} :
    (save o f >>= fun _ => (pure v : M α)) h = (.ok v, (save o f h).2) := rfl

theorem fresh_resultKey {h : Heap} {a : Attrs} {k : String} (ha : a.key? = some k) (c : Cache)
    (hf : Fresh H h { attrs := a, cache := c }) : Fresh H h { attrs := a, cache := { c with resultKey := some k } } :=
  { hf with resultKey := fun k' e => by cases e; exact ha }

theorem fresh_optionsHash {h : Heap} {a : Attrs} {o : Opts} (ha : a.opts? = some o) (c : Cache)
    (hf : Fresh H h { attrs := a, cache := c }) :
    Fresh H h { attrs := a, cache := { c with optionsHash := some (Hiku.optionsHash H o) } } :=
  { hf with optionsHash := fun k' e => by cases e; exact ⟨o, ha, rfl⟩ }

theorem resultKey_reads {h : Heap} (hi : Inv H h) {o : Nat} {a : Attrs} {k : String} (ha : attrsAt h o = some a)
    (hk : a.key? = some k) : Reads H (resultKey o) h k := by
  obtain ⟨x, hx, rfl, hl⟩ := load_of ha
  unfold resultKey Reads
  rw [bind_of hl]
  cases hc : x.cache.resultKey with
  | some k' =>
    have := (hi _ _ hx).resultKey _ hc
    rw [hk] at this
    cases this
    exact ⟨h, rfl, hi, Ext.refl h⟩
  | none =>
    dsimp only
    have hs := save_ok hi ha (fresh_resultKey hk)
    generalize hxa : x.attrs = a at hk
    cases a with
    | field n os al => cases hk; exact ⟨_, save_pure, hs⟩
    | link n c os al => cases hk; exact ⟨_, save_pure, hs⟩
    | node fs b => cases hk

theorem good_resultKey (o : Nat) : Good H (resultKey o) := by
  intro h hi
  cases ha : attrsAt h o with
  | none =>
    have : h[o]? = none := by
      unfold attrsAt at ha
      simpa using ha
    unfold resultKey
    rw [bind_eq]
    unfold load
    rw [this]
    exact ⟨hi, Ext.refl h⟩
  | some a =>
    cases hk : a.key? with
    | some k =>
      obtain ⟨h', e, h1, h2⟩ := resultKey_reads hi ha hk
      rw [e]
      exact ⟨h1, h2⟩
    | none =>
      obtain ⟨x, hx, rfl, hl⟩ := load_of ha
      unfold resultKey
      rw [bind_of hl]
      cases hc : x.cache.resultKey with
      | some k' => exact ⟨hi, Ext.refl h⟩
      | none =>
        dsimp only
        generalize x.attrs = a at hk
        cases a with
        | field n os al => cases hk
        | link n c os al => cases hk
        | node fs b => exact ⟨hi, Ext.refl h⟩

theorem optionsHash_reads {h : Heap} (hi : Inv H h) {o : Nat} {a : Attrs} {os : Opts} (ha : attrsAt h o = some a)
    (hk : a.opts? = some os) : Reads H (optionsHash H o) h (Hiku.optionsHash H os) := by
  obtain ⟨x, hx, rfl, hl⟩ := load_of ha
  unfold optionsHash Reads
  rw [bind_of hl]
  cases hc : x.cache.optionsHash with
  | some k' =>
    obtain ⟨o', h1, rfl⟩ := (hi _ _ hx).optionsHash _ hc
    rw [hk] at h1
    cases h1
    exact ⟨h, rfl, hi, Ext.refl h⟩
  | none =>
    dsimp only
    have hs := save_ok hi ha (fresh_optionsHash hk)
    generalize hxa : x.attrs = a at hk
    cases a with
    | field n os al => cases hk; exact ⟨_, save_pure, hs⟩
    | link n c os al => cases hk; exact ⟨_, save_pure, hs⟩
    | node fs b => cases hk

theorem good_optionsHash (o : Nat) : Good H (optionsHash H o) := by
  intro h hi
  cases ha : attrsAt h o with
  | none =>
    have : h[o]? = none := by
      unfold attrsAt at ha
      simpa using ha
    unfold optionsHash
    rw [bind_eq]
    unfold load
    rw [this]
    exact ⟨hi, Ext.refl h⟩
  | some a =>
    cases hk : a.opts? with
    | some k =>
      obtain ⟨h', e, h1, h2⟩ := optionsHash_reads hi ha hk
      rw [e]
      exact ⟨h1, h2⟩
    | none =>
      obtain ⟨x, hx, rfl, hl⟩ := load_of ha
      unfold optionsHash
      rw [bind_of hl]
      cases hc : x.cache.optionsHash with
      | some k' => exact ⟨hi, Ext.refl h⟩
      | none =>
        dsimp only
        generalize x.attrs = a at hk
        cases a with
        | field n os al => cases hk
        | link n c os al => cases hk
        | node fs b => exact ⟨hi, Ext.refl h⟩

theorem nameOf_of {h : Heap} {o : Nat} {a : Attrs} {n : String} (ha : attrsAt h o = some a) (hn : a.name? = some n) :
    nameOf o h = (.ok n, h) := by
  obtain ⟨x, hx, rfl, hl⟩ := load_of ha
  unfold nameOf
  rw [bind_of hl]
  generalize x.attrs = a at hn
  cases a <;> cases hn <;> rfl

theorem fieldsOf_of {h : Heap} {o : Nat} {fs : List Nat} {b : Bool} (ha : attrsAt h o = some (.node fs b)) :
    fieldsOf o h = (.ok fs, h) := by
  obtain ⟨x, hx, hxa, hl⟩ := load_of ha
  unfold fieldsOf
  rw [bind_of hl, hxa]
  rfl

theorem orderedOf_of {h : Heap} {o : Nat} {fs : List Nat} {b : Bool} (ha : attrsAt h o = some (.node fs b)) :
    orderedOf o h = (.ok b, h) := by
  obtain ⟨x, hx, hxa, hl⟩ := load_of ha
  unfold orderedOf
  rw [bind_of hl, hxa]
  rfl

theorem fresh_indexKey {h : Heap} {a : Attrs} {n : String} {o : Opts} (hn : a.name? = some n) (ho : a.opts? = some o)
    (c : Cache) (hf : Fresh H h { attrs := a, cache := c }) :
    Fresh H h { attrs := a, cache := { c with indexKey := some (Hiku.indexKey H n o) } } :=
  { hf with indexKey := fun k' e => by cases e; exact ⟨n, o, hn, ho, rfl⟩ }

theorem fresh_fieldsMap {h : Heap} {fs : List Nat} {b : Bool} {ns : List String}
    (hn : List.Forall₂ (fun f n => (attrsAt h f).bind Attrs.name? = some n) fs ns)
    (c : Cache) (hf : Fresh H h { attrs := .node fs b, cache := c }) :
    Fresh H h { attrs := .node fs b, cache := { c with fieldsMap := some (dmk (ns.zip fs)) } } :=
  { hf with fieldsMap := fun m e => by cases e; exact ⟨fs, b, ns, rfl, hn, rfl⟩ }

theorem fresh_resultMap {h : Heap} {fs : List Nat} {b : Bool} {ns : List String}
    (hn : List.Forall₂ (fun f n => (attrsAt h f).bind Attrs.key? = some n) fs ns)
    (c : Cache) (hf : Fresh H h { attrs := .node fs b, cache := c }) :
    Fresh H h { attrs := .node fs b, cache := { c with resultMap := some (dmk (ns.zip fs)) } } :=
  { hf with resultMap := fun m e => by cases e; exact ⟨fs, b, ns, rfl, hn, rfl⟩ }

theorem indexKey_text (n : String) (os : Opts) : Hiku.indexKey H n os = keyText n (Hiku.optionsHash H os) := by
  unfold Hiku.indexKey keyText
  rfl

theorem indexKey_reads {h : Heap} (hi : Inv H h) {o : Nat} {a : Attrs} {n : String} {os : Opts} (ha : attrsAt h o = some a)
    (hn : a.name? = some n) (ho : a.opts? = some os) : Reads H (indexKey H o) h (Hiku.indexKey H n os) := by
  obtain ⟨x, hx, rfl, hl⟩ := load_of ha
  unfold indexKey Reads
  rw [bind_of hl]
  cases hc : x.cache.indexKey with
  | some k' =>
    obtain ⟨n', o', h1, h2, rfl⟩ := (hi _ _ hx).indexKey _ hc
    rw [hn] at h1; rw [ho] at h2
    cases h1; cases h2
    exact ⟨h, rfl, hi, Ext.refl h⟩
  | none =>
    dsimp only
    obtain ⟨h1, e1, hi1, he1⟩ := optionsHash_reads hi ha ho
    have ha1 := he1 _ _ ha
    rw [bind_of e1, bind_of (nameOf_of ha1 hn)]
    have hs := save_ok hi1 ha1 (fresh_indexKey (H := H) hn ho)
    rw [indexKey_text] at hs ⊢
    exact ⟨_, save_pure, hs.1, he1.trans hs.2⟩

/-- a program which starts with an object -/
theorem good_of_attrs {α : Type} {o : Nat} {f : Obj → M α}
    (hf : ∀ h a, Inv H h → attrsAt h o = some a → Inv H ((load o >>= f) h).2 ∧ Ext h ((load o >>= f) h).2) :
    Good H (load o >>= f) := by
  intro h hi
  cases ha : attrsAt h o with
  | none =>
    have : h[o]? = none := by
      unfold attrsAt at ha
      simpa using ha
    rw [bind_eq]
    unfold load
    rw [this]
    exact ⟨hi, Ext.refl h⟩
  | some a => exact hf h a hi ha

theorem key_name {a : Attrs} {n : String} (h : a.name? = some n) : ∃ o, a.opts? = some o := by
  cases a <;> cases h <;> exact ⟨_, rfl⟩

theorem good_indexKey (o : Nat) : Good H (indexKey H o) := by
  unfold indexKey
  refine good_of_attrs fun h a hi ha => ?_
  cases hn : a.name? with
  | some n =>
    obtain ⟨os, ho⟩ := key_name hn
    obtain ⟨h', e, h1, h2⟩ := indexKey_reads hi ha hn ho
    unfold indexKey at e
    rw [e]
    exact ⟨h1, h2⟩
  | none =>
    obtain ⟨x, hx, rfl, hl⟩ := load_of ha
    rw [bind_of hl]
    cases hc : x.cache.indexKey with
    | some k' => exact ⟨hi, Ext.refl h⟩
    | none =>
      dsimp only
      obtain ⟨h1, h2⟩ := good_optionsHash (H := H) o h hi
      rw [bind_eq]
      cases hr : optionsHash H o h with
      | mk r h' =>
        rw [hr] at h1 h2
        cases r with
        | error e => exact ⟨h1, h2⟩
        | ok v =>
          dsimp only
          have ha' := h2 _ _ ha
          obtain ⟨x', hx', hxa', hl'⟩ := load_of ha'
          have : nameOf o h' = (.error .attributeError, h') := by
            unfold nameOf
            rw [bind_of hl', hxa']
            generalize x.attrs = a at hn
            cases a <;> cases hn <;> rfl
          rw [bind_eq, this]
          exact ⟨h1, h2⟩

theorem each_of {α β : Type} {f : α → M β} {R : α → β → Heap → Prop}
    (hR : ∀ x y h h', Ext h h' → R x y h → R x y h')
    {h : Heap} (hi : Inv H h) {l : List α}
    (hf : ∀ x ∈ l, ∀ h', Inv H h' → Ext h h' → ∃ y h'', f x h' = (.ok y, h'') ∧ Inv H h'' ∧ Ext h' h'' ∧ R x y h'') :
    ∃ ys h', each f l h = (.ok ys, h') ∧ Inv H h' ∧ Ext h h' ∧ List.Forall₂ (fun x y => R x y h') l ys := by
  induction l generalizing h with
  | nil => exact ⟨[], h, rfl, hi, Ext.refl h, .nil⟩
  | cons x r ih =>
    obtain ⟨y, h1, e1, hi1, he1, hy⟩ := hf x (by simp) h hi (Ext.refl h)
    obtain ⟨ys, h2, e2, hi2, he2, hys⟩ := ih hi1 fun x' hx' h' hi' he' => hf x' (by simp [hx']) h' hi' (he1.trans he')
    refine ⟨y :: ys, h2, ?_, hi2, he1.trans he2, .cons (hR _ _ _ _ he2 hy) hys⟩
    unfold each
    rw [bind_of e1, bind_of e2]
    rfl

theorem mem_left {α β : Type} {R : α → β → Prop} {l : List α} {m : List β} (h : List.Forall₂ R l m) {x : α} (hx : x ∈ l) :
    ∃ y, y ∈ m ∧ R x y := by
  induction h with
  | nil => cases hx
  | cons h _ ih =>
    rcases List.mem_cons.1 hx with rfl | hx
    · exact ⟨_, by simp, h⟩
    · obtain ⟨y, h1, h2⟩ := ih hx
      exact ⟨y, by simp [h1], h2⟩

theorem forall2_eq {α β : Type} {l : List α} {a b : List β} {R : α → β → Prop} (hR : ∀ x y z, R x y → R x z → y = z)
    (h1 : List.Forall₂ R l a) (h2 : List.Forall₂ R l b) : a = b := by
  induction h1 generalizing b with
  | nil => cases h2; rfl
  | cons h _ ih =>
    cases h2 with
    | cons h' h2' => rw [hR _ _ _ h h', ih h2']

theorem fieldsMap_reads {h : Heap} (hi : Inv H h) {o : Nat} {fs : List Nat} {b : Bool} {ns : List String}
    (ha : attrsAt h o = some (.node fs b))
    (hn : List.Forall₂ (fun f n => (attrsAt h f).bind Attrs.name? = some n) fs ns) :
    Reads H (fieldsMap o) h (dmk (ns.zip fs)) := by
  obtain ⟨x, hx, hxa, hl⟩ := load_of ha
  unfold fieldsMap Reads
  rw [bind_of hl]
  cases hc : x.cache.fieldsMap with
  | some m =>
    obtain ⟨fs', b', ns', h1, h2, rfl⟩ := (hi _ _ hx).fieldsMap _ hc
    rw [hxa] at h1
    cases h1
    rw [forall2_eq (fun _ _ _ e e' => by rw [e] at e'; exact Option.some.inj e') h2 hn]
    exact ⟨h, rfl, hi, Ext.refl h⟩
  | none =>
    dsimp only
    rw [bind_of (fieldsOf_of ha)]
    obtain ⟨ys, h1, e1, hi1, he1, h2⟩ := each_of (H := H) (f := nameOf)
      (R := fun f n h => (attrsAt h f).bind Attrs.name? = some n) (fun _ _ _ _ he hb => bind_ext he hb) hi (l := fs) (by
        intro f hf h' hi' he'
        have hex : ∃ n, (attrsAt h f).bind Attrs.name? = some n := by
          obtain ⟨n, _, hn'⟩ := mem_left hn hf
          exact ⟨n, hn'⟩
        obtain ⟨n, hn'⟩ := hex
        have hn'' := bind_ext he' hn'
        obtain ⟨a, ha', hna⟩ := Option.bind_eq_some_iff.1 hn''
        exact ⟨n, h', nameOf_of ha' hna, hi', Ext.refl _, hn''⟩)
    rw [bind_of e1]
    have : ys = ns := forall2_eq (fun _ _ _ e e' => by rw [e] at e'; exact Option.some.inj e') h2 (hn.imp fun _ _ e => bind_ext he1 e)
    subst this
    have hs := save_ok hi1 (he1 _ _ ha) (fresh_fieldsMap (H := H) h2)
    exact ⟨_, save_pure, hs.1, he1.trans hs.2⟩

theorem resultMap_reads {h : Heap} (hi : Inv H h) {o : Nat} {fs : List Nat} {b : Bool} {ns : List String}
    (ha : attrsAt h o = some (.node fs b))
    (hn : List.Forall₂ (fun f n => (attrsAt h f).bind Attrs.key? = some n) fs ns) :
    Reads H (resultMap o) h (dmk (ns.zip fs)) := by
  obtain ⟨x, hx, hxa, hl⟩ := load_of ha
  unfold resultMap Reads
  rw [bind_of hl]
  cases hc : x.cache.resultMap with
  | some m =>
    obtain ⟨fs', b', ns', h1, h2, rfl⟩ := (hi _ _ hx).resultMap _ hc
    rw [hxa] at h1
    cases h1
    rw [forall2_eq (fun _ _ _ e e' => by rw [e] at e'; exact Option.some.inj e') h2 hn]
    exact ⟨h, rfl, hi, Ext.refl h⟩
  | none =>
    dsimp only
    rw [bind_of (fieldsOf_of ha)]
    obtain ⟨ys, h1, e1, hi1, he1, h2⟩ := each_of (H := H) (f := resultKey)
      (R := fun f n h => (attrsAt h f).bind Attrs.key? = some n) (fun _ _ _ _ he hb => bind_ext he hb) hi (l := fs) (by
        intro f hf h' hi' he'
        have hex : ∃ n, (attrsAt h f).bind Attrs.key? = some n := by
          obtain ⟨n, _, hn'⟩ := mem_left hn hf
          exact ⟨n, hn'⟩
        obtain ⟨n, hn'⟩ := hex
        have hn'' := bind_ext he' hn'
        obtain ⟨a, ha', hna⟩ := Option.bind_eq_some_iff.1 hn''
        obtain ⟨h'', e, h1, h2⟩ := resultKey_reads hi' ha' hna
        exact ⟨n, h'', e, h1, h2, bind_ext h2 hn''⟩)
    rw [bind_of e1]
    have : ys = ns := forall2_eq (fun _ _ _ e e' => by rw [e] at e'; exact Option.some.inj e') h2 (hn.imp fun _ _ e => bind_ext he1 e)
    subst this
    have hs := save_ok hi1 (he1 _ _ ha) (fresh_resultMap (H := H) h2)
    exact ⟨_, save_pure, hs.1, he1.trans hs.2⟩

/-- `each` with a partial function of the heap -/
theorem each_ok {α β : Type} {f : α → M β} (hf : ∀ a, Good H (f a)) {R : α → β → Heap → Prop}
    (hR : ∀ x y h h', Ext h h' → R x y h → R x y h')
    (hv : ∀ x h y h', Inv H h → f x h = (.ok y, h') → R x y h') {l : List α} :
    ∀ {h : Heap} {ys : List β} {h' : Heap}, Inv H h → each f l h = (.ok ys, h') → List.Forall₂ (fun x y => R x y h') l ys := by
  induction l with
  | nil => intro h ys h' _ e; cases e; exact .nil
  | cons x r ih =>
    intro h ys h' hi e
    unfold each at e
    rw [bind_eq] at e
    obtain ⟨h1, h2⟩ := hf x h hi
    cases hx : f x h with
    | mk y h1' =>
      rw [hx] at e h1 h2
      cases y with
      | error _ => cases e
      | ok y =>
        dsimp only at e h1 h2
        rw [bind_eq] at e
        obtain ⟨h3, h4⟩ := good_each hf r h1' h1
        cases hy : each f r h1' with
        | mk z h2' =>
          rw [hy] at e h3 h4
          cases z with
          | error _ => cases e
          | ok z =>
            dsimp only at e h3 h4
            cases e
            exact .cons (hR _ _ _ _ h4 (hv _ _ _ _ hi hx)) (ih h1 hy)

theorem nameOf_ok {h h' : Heap} {o : Nat} {n : String} (e : nameOf o h = (.ok n, h')) :
    (attrsAt h' o).bind Attrs.name? = some n := by
  unfold nameOf at e
  rw [bind_eq] at e
  unfold load at e
  cases hx : h[o]? with
  | none => rw [hx] at e; cases e
  | some x =>
    rw [hx] at e
    dsimp only at e
    cases ha : x.attrs with
    | field n' o' a' => rw [ha] at e; cases e; rw [attrsAt_of hx, ha]; rfl
    | link n' c' o' a' => rw [ha] at e; cases e; rw [attrsAt_of hx, ha]; rfl
    | node fs b => rw [ha] at e; cases e

theorem resultKey_ok {h h' : Heap} {o : Nat} {k : String} (hi : Inv H h) (e : resultKey o h = (.ok k, h')) :
    (attrsAt h' o).bind Attrs.key? = some k := by
  have hg := good_resultKey (H := H) o h hi
  rw [e] at hg
  cases hx : h[o]? with
  | none => unfold resultKey at e; rw [bind_eq] at e; unfold load at e; rw [hx] at e; cases e
  | some x =>
    refine bind_ext hg.2 ?_
    rw [attrsAt_of hx]
    cases hk : x.attrs.key? with
    | some k' =>
      obtain ⟨h2, e2, _⟩ := resultKey_reads hi (attrsAt_of hx) hk
      rw [e] at e2
      cases e2
      exact hk
    | none =>
      unfold resultKey at e
      rw [bind_eq] at e
      unfold load at e
      rw [hx] at e
      dsimp only at e
      cases hc : x.cache.resultKey with
      | some k' =>
        have := (hi _ _ hx).resultKey _ hc
        rw [hk] at this
        cases this
      | none =>
        rw [hc] at e
        dsimp only at e
        cases ha : x.attrs with
        | field n' o' a' => rw [ha] at hk; cases hk
        | link n' c' o' a' => rw [ha] at hk; cases hk
        | node fs b => rw [ha] at e; cases e

theorem good_fieldsMap (o : Nat) : Good H (fieldsMap o) := by
  unfold fieldsMap
  refine good_of_attrs fun h a hi ha => ?_
  obtain ⟨x, hx, rfl, hl⟩ := load_of ha
  rw [bind_of hl]
  cases hc : x.cache.fieldsMap with
  | some m => exact ⟨hi, Ext.refl h⟩
  | none =>
    dsimp only
    cases hxa : x.attrs with
    | node fs b =>
      rw [hxa] at ha
      rw [bind_of (fieldsOf_of ha), bind_eq]
      obtain ⟨h1, h2⟩ := good_each (H := H) good_nameOf fs h hi
      cases hr : each nameOf fs h with
      | mk r h' =>
        rw [hr] at h1 h2
        cases r with
        | error e => exact ⟨h1, h2⟩
        | ok ns =>
          have hn := each_ok (H := H) good_nameOf (R := fun f n h => (attrsAt h f).bind Attrs.name? = some n)
            (fun _ _ _ _ he hb => bind_ext he hb) (fun _ _ _ _ _ e => nameOf_ok e) hi hr
          have hs := save_ok h1 (h2 _ _ ha) (fresh_fieldsMap (H := H) hn)
          exact ⟨hs.1, h2.trans hs.2⟩
    | field n os al =>
      have : fieldsOf o h = (.error .attributeError, h) := by unfold fieldsOf; rw [bind_of hl, hxa]; rfl
      rw [bind_eq, this]
      exact ⟨hi, Ext.refl h⟩
    | link n c os al =>
      have : fieldsOf o h = (.error .attributeError, h) := by unfold fieldsOf; rw [bind_of hl, hxa]; rfl
      rw [bind_eq, this]
      exact ⟨hi, Ext.refl h⟩

theorem good_resultMap (o : Nat) : Good H (resultMap o) := by
  unfold resultMap
  refine good_of_attrs fun h a hi ha => ?_
  obtain ⟨x, hx, rfl, hl⟩ := load_of ha
  rw [bind_of hl]
  cases hc : x.cache.resultMap with
  | some m => exact ⟨hi, Ext.refl h⟩
  | none =>
    dsimp only
    cases hxa : x.attrs with
    | node fs b =>
      rw [hxa] at ha
      rw [bind_of (fieldsOf_of ha), bind_eq]
      obtain ⟨h1, h2⟩ := good_each (H := H) good_resultKey fs h hi
      cases hr : each resultKey fs h with
      | mk r h' =>
        rw [hr] at h1 h2
        cases r with
        | error e => exact ⟨h1, h2⟩
        | ok ns =>
          have hn := each_ok (H := H) good_resultKey (R := fun f n h => (attrsAt h f).bind Attrs.key? = some n)
            (fun _ _ _ _ he hb => bind_ext he hb) (fun _ _ _ _ hi e => resultKey_ok hi e) hi hr
          have hs := save_ok h1 (h2 _ _ ha) (fresh_resultMap (H := H) hn)
          exact ⟨hs.1, h2.trans hs.2⟩
    | field n os al =>
      have : fieldsOf o h = (.error .attributeError, h) := by unfold fieldsOf; rw [bind_of hl, hxa]; rfl
      rw [bind_eq, this]
      exact ⟨hi, Ext.refl h⟩
    | link n c os al =>
      have : fieldsOf o h = (.error .attributeError, h) := by unfold fieldsOf; rw [bind_of hl, hxa]; rfl
      rw [bind_eq, this]
      exact ⟨hi, Ext.refl h⟩

theorem good_copy (o : Nat) (kw : Kw) : Good H (copy o kw) := good_bind (good_load o) fun _ => good_new _

theorem good_mergeLoop : ∀ fs seen gs, Good H (mergeLoop H fs seen gs)
  | [], _, _ => good_pure _
  | f :: r, seen, gs => by
    refine good_bind (good_nameOf f) fun n => good_bind (good_optionsHash f) fun oh => good_bind (good_load f) fun x => ?_
    split
    · split
      · exact good_mergeLoop r _ _
      · exact good_bind (good_mergeLoop r _ _) fun _ => good_pure _
    · exact good_mergeLoop r _ _
    · exact good_raise _

theorem good_merge : ∀ lim os, Good H (merge H lim os)
  | 0, _ => good_raise _
  | lim + 1, os =>
    good_bind (good_each good_orderedOf os) fun _ => good_bind (good_each good_fieldsOf os) fun _ =>
      good_bind (good_mergeLoop _ _ _) fun _ =>
        good_bind (good_each (fun _ => good_bind (good_merge lim _) fun _ => good_copy _ _) _) fun _ => good_new _

theorem good_visitFields {keep : String → Bool} {v : Nat → M Nat} (hv : ∀ o, Good H (v o)) : ∀ fs, Good H (visitFields keep v fs)
  | [] => good_pure _
  | f :: r => by
    refine good_bind (good_nameOf f) fun n => ?_
    split
    · exact good_bind (hv f) fun _ => good_bind (good_visitFields hv r) fun _ => good_pure _
    · exact good_visitFields hv r

theorem good_transform {keep : String → Bool} : ∀ lim o, Good H (transform keep lim o)
  | 0, _ => good_raise _
  | lim + 1, o => by
    refine good_bind (good_load o) fun x => ?_
    split
    · exact good_copy _ _
    · exact good_bind (good_transform lim _) fun _ => good_copy _ _
    · exact good_bind (good_visitFields (good_transform lim) _) fun _ => good_copy _ _

theorem good_init {g : Graph} : ∀ lim gn o, Good H (init g lim gn o)
  | 0, _, _ => good_raise _
  | lim + 1, gn, o => by
    refine good_bind (good_load o) fun x => ?_
    split
    · split
      · exact good_raise _
      · split
        · exact good_pure _
        · exact good_bind (good_lift _) fun _ => good_copy _ _
    · split
      · exact good_raise _
      · split
        · exact good_raise _
        · refine good_bind (good_init lim _ _) fun _ => ?_
          split
          · exact good_copy _ _
          · exact good_bind (good_lift _) fun _ => good_copy _ _
      · split
        · exact good_copy _ _
        · exact good_bind (good_lift _) fun _ => good_copy _ _
    · exact good_bind (good_each (good_init lim gn) _) fun _ => good_copy _ _

theorem good_eqList {eq : Nat → Nat → M Bool} (he : ∀ a b, Good H (eq a b)) : ∀ l m, Good H (eqList eq l m)
  | [], [] => good_pure _
  | [], _ :: _ => good_pure _
  | _ :: _, [] => good_pure _
  | a :: r, b :: s => by
    unfold eqList
    split
    · exact good_eqList he r s
    · refine good_bind (he a b) fun x => ?_
      split
      · exact good_eqList he r s
      · exact good_pure _

theorem good_eqObj {E : Opts → Opts → Bool} : ∀ lim a b, Good H (eqObj E lim a b)
  | 0, _, _ => good_raise _
  | lim + 1, a, b => by
    refine good_bind (good_load a) fun x => good_bind (good_load b) fun y => ?_
    split
    · exact good_pure _
    · split
      · exact good_bind (good_eqObj lim _ _) fun _ => good_pure _
      · exact good_pure _
    · exact good_bind (good_eqList (good_eqObj lim) _ _) fun _ => good_pure _
    · exact good_pure _

theorem good_step {h : Heap} (hi : Inv H h) (op : Op) : Inv H (step H h op) ∧ Ext h (step H h op) := by
  cases op with
  | field n o a => exact good_new _ h hi
  | link n c o a => exact good_new _ h hi
  | node fs b => exact good_new _ h hi
  | resultKey o => exact good_resultKey o h hi
  | optionsHash o => exact good_optionsHash o h hi
  | indexKey o => exact good_indexKey o h hi
  | fieldsMap o => exact good_fieldsMap o h hi
  | resultMap o => exact good_resultMap o h hi
  | copy o kw => exact good_copy o kw h hi
  | merge lim os => exact good_merge lim os h hi
  | transform keep lim o => exact good_transform lim o h hi
  | init g lim gn o => exact good_init lim gn o h hi
  | eq E lim a b => exact good_eqObj lim a b h hi

theorem good_run {h : Heap} (hi : Inv H h) (ops : List Op) : Inv H (run H ops h) ∧ Ext h (run H ops h) := by
  induction ops generalizing h with
  | nil => exact ⟨hi, Ext.refl h⟩
  | cons op r ih =>
    obtain ⟨h1, h2⟩ := good_step hi op
    obtain ⟨h3, h4⟩ := ih h1
    exact ⟨h3, h2.trans h4⟩

theorem inv_empty : Inv H [] := by
  intro o x hx
  simp at hx

theorem run_append (a b : List Op) (h : Heap) : run H (a ++ b) h = run H b (run H a h) := by
  unfold run
  rw [List.foldl_append]

/-! ### objects and trees -/

/-- `m` gives an object which is `x`, or raises what `x` raises -/
def Does (H : PyHash) {α β : Type} (m : M α) (h : Heap) (R : Heap → α → β → Prop) : Except Err β → Prop
  | .ok t => ∃ o h', m h = (.ok o, h') ∧ Inv H h' ∧ Ext h h' ∧ R h' o t
  | .error e => ∃ h', m h = (.error e, h') ∧ Inv H h' ∧ Ext h h'

theorem does_congr {α β : Type} {m m' : M α} {h : Heap} {R : Heap → α → β → Prop} {x : Except Err β} (e : m h = m' h)
    (hd : Does H m' h R x) : Does H m h R x := by
  cases x with
  | ok t =>
    obtain ⟨o, h', e', r⟩ := hd
    exact ⟨o, h', e.trans e', r⟩
  | error t =>
    obtain ⟨h', e', r⟩ := hd
    exact ⟨h', e.trans e', r⟩

theorem does_bind {α β γ δ : Type} {m : M α} {f : α → M γ} {h : Heap} {R : Heap → α → β → Prop} {S : Heap → γ → δ → Prop}
    {x : Except Err β} {k : β → Except Err δ} (hm : Does H m h R x)
    (hf : ∀ a b h', Inv H h' → Ext h h' → R h' a b → Does H (f a) h' S (k b)) : Does H (m >>= f) h S (x >>= k) := by
  cases x with
  | error e =>
    obtain ⟨h', e1, h1, h2⟩ := hm
    exact ⟨h', by rw [bind_eq, e1], h1, h2⟩
  | ok b =>
    obtain ⟨a, h', e1, h1, h2, h3⟩ := hm
    have := hf a b h' h1 h2 h3
    show Does H (m >>= f) h S (k b)
    cases hk : k b with
    | error e =>
      rw [hk] at this
      obtain ⟨h'', e2, h4, h5⟩ := this
      exact ⟨h'', by rw [bind_of e1, e2], h4, h2.trans h5⟩
    | ok d =>
      rw [hk] at this
      obtain ⟨c, h'', e2, h4, h5, h6⟩ := this
      exact ⟨c, h'', by rw [bind_of e1, e2], h4, h2.trans h5, h6⟩

theorem new_of {h : Heap} (hi : Inv H h) (a : Attrs) :
    ∃ h', new a h = (.ok h.length, h') ∧ Inv H h' ∧ Ext h h' ∧ attrsAt h' h.length = some a := by
  obtain ⟨h1, h2⟩ := good_new (H := H) a h hi
  refine ⟨_, rfl, h1, h2, ?_⟩
  rw [attrsAt_append, if_pos rfl]

theorem copy_of {h : Heap} (hi : Inv H h) {o : Nat} {a : Attrs} (ha : attrsAt h o = some a) (kw : Kw) :
    ∃ h', copy o kw h = (.ok h.length, h') ∧ Inv H h' ∧ Ext h h' ∧ attrsAt h' h.length = some (a.with kw) := by
  obtain ⟨x, hx, rfl, hl⟩ := load_of ha
  obtain ⟨h', e, h1, h2, h3⟩ := new_of hi (x.attrs.with kw)
  exact ⟨h', by unfold copy; rw [bind_of hl, e], h1, h2, h3⟩

theorem items_forall2 {h : Heap} {os : List Nat} {is : List QItem} : IsItems h os is ↔ List.Forall₂ (IsItem h) os is := by
  induction os generalizing is with
  | nil =>
    constructor
    · rintro ⟨⟩; exact .nil
    · rintro ⟨⟩; exact .nil
  | cons o r ih =>
    constructor
    · intro hh; cases hh with
      | cons h1 h2 => exact .cons h1 (ih.1 h2)
    · intro hh; cases hh with
      | cons h1 h2 => exact .cons h1 (ih.2 h2)

theorem node_inv {h : Heap} {o : Nat} {q : QNode} (hn : IsNode h o q) :
    ∃ fs, attrsAt h o = some (.node fs q.ordered) ∧ IsItems h fs q.fields := by
  cases hn with
  | node ha hs => exact ⟨_, ha, hs⟩

theorem item_attrs {h : Heap} {o : Nat} {i : QItem} (hn : IsItem h o i) :
    ∃ a, attrsAt h o = some a ∧ a.name? = some i.name ∧ a.opts? = some i.options ∧ a.key? = some i.resultKey := by
  cases hn with
  | field ha => exact ⟨_, ha, rfl, rfl, rfl⟩
  | link ha hs => exact ⟨_, ha, rfl, rfl, rfl⟩

theorem forall2_ext {h h' : Heap} (e : Ext h h') {os : List Nat} {qs : List QNode} (hf : List.Forall₂ (IsNode h) os qs) :
    List.Forall₂ (IsNode h') os qs := hf.imp fun _ _ hn => hn.ext e

/-! #### merge -/

/-- the state of the loop of `merge` -/
def Groups (H : PyHash) (h : Heap) : List (MKey × Nat × List Nat) → List LinkGroup → Prop :=
  List.Forall₂ fun g g' => g.1 = g'.mkey H ∧ (∃ c, attrsAt h g.2.1 = some (.link g'.name c g'.options g'.alias_)) ∧
    List.Forall₂ (IsNode h) g.2.2 g'.nodes

theorem Groups.ext {h h' : Heap} (e : Ext h h') {gs : List (MKey × Nat × List Nat)} {gs' : List LinkGroup} (hg : Groups H h gs gs') :
    Groups H h' gs gs' :=
  hg.imp fun _ _ ⟨h1, ⟨c, h2⟩, h3⟩ => ⟨h1, ⟨c, e _ _ h2⟩, forall2_ext e h3⟩

theorem addGroup_of {h : Heap} {n : String} {os : Opts} {a : Option String} {f c c0 : Nat} {q : QNode}
    (hf : attrsAt h f = some (.link n c0 os a)) (hc : IsNode h c q) {gs : List (MKey × Nat × List Nat)} {gs' : List LinkGroup}
    (hg : Groups H h gs gs') :
    Groups H h (addGroup (n, Hiku.optionsHash H os, a) f c gs) (addLink H n q os a gs') := by
  induction hg with
  | nil => exact .cons ⟨rfl, ⟨c0, hf⟩, .cons hc .nil⟩ .nil
  | @cons g g' r r' h1 h2 ih =>
    unfold addGroup addLink
    rw [h1.1]
    split
    · next e => exact .cons ⟨rfl, h1.2.1, List.rel_append h1.2.2 (.cons hc .nil)⟩ h2
    · exact .cons h1 ih

theorem mergeLoop_of {fs : List Nat} : ∀ {h : Heap} {is : List QItem} {seen : List MKey} {gs : List (MKey × Nat × List Nat)}
    {gs' : List LinkGroup}, Inv H h → IsItems h fs is → Groups H h gs gs' →
    ∃ out gs1 h', mergeLoop H fs seen gs h = (.ok (out, gs1), h') ∧ Inv H h' ∧ Ext h h' ∧
      IsItems h' out (mergeFields H seen is) ∧ Groups H h' gs1 (linkGroups H gs' is) := by
  induction fs with
  | nil =>
    intro h is seen gs gs' hi hs hg
    cases hs
    exact ⟨[], gs, h, rfl, hi, Ext.refl h, .nil, hg⟩
  | cons f r ih =>
    intro h is seen gs gs' hi hs hg
    cases hs with
    | @cons _ _ i is' h1 h2 =>
    obtain ⟨a, ha, hn, ho, hk⟩ := item_attrs h1
    obtain ⟨h', e1, hi1, he1⟩ := optionsHash_reads hi ha ho
    obtain ⟨x, hx, hxa, hl⟩ := load_of (he1 _ _ ha)
    have hs' := h2.ext he1
    have hg' := hg.ext he1
    have h1' := h1.ext he1
    unfold mergeLoop
    rw [bind_of (nameOf_of ha hn), bind_of e1, bind_of hl, hxa]
    cases h1' with
    | @field _ n os al ha' =>
      have ha2 := he1 _ _ ha
      rw [ha2] at ha'
      cases ha'
      dsimp only
      show ∃ out gs1 h'', (if (n, Hiku.optionsHash H os, al) ∈ seen then _ else _ : M _) h' = _ ∧ _
      by_cases hm : (n, Hiku.optionsHash H os, al) ∈ seen
      · rw [if_pos hm]
        obtain ⟨out, gs1, h'', e2, hi2, he2, h3, h4⟩ := ih (seen := seen) hi1 hs' hg'
        refine ⟨out, gs1, h'', e2, hi2, he1.trans he2, ?_, ?_⟩
        · rw [mergeFields, if_pos hm]; exact h3
        · rw [linkGroups]; exact h4
      · rw [if_neg hm]
        obtain ⟨out, gs1, h'', e2, hi2, he2, h3, h4⟩ := ih (seen := (n, Hiku.optionsHash H os, al) :: seen) hi1 hs' hg'
        refine ⟨f :: out, gs1, h'', ?_, hi2, he1.trans he2, ?_, ?_⟩
        · exact (bind_of e2).trans rfl
        · rw [mergeFields, if_neg hm]; exact .cons (.field (he2 _ _ ha2)) h3
        · rw [linkGroups]; exact h4
    | @link _ n c os al q ha' hc =>
      have ha2 := he1 _ _ ha
      rw [ha2] at ha'
      cases ha'
      dsimp only
      obtain ⟨out, gs1, h'', e2, hi2, he2, h3, h4⟩ := ih (seen := seen) hi1 hs' (addGroup_of (H := H) ha2 hc hg')
      refine ⟨out, gs1, h'', e2, hi2, he1.trans he2, ?_, ?_⟩
      · rw [mergeFields]; exact h3
      · rw [linkGroups]; exact h4

theorem each_ordered {h : Heap} {os : List Nat} {qs : List QNode} (hq : List.Forall₂ (IsNode h) os qs) :
    each orderedOf os h = (.ok (qs.map QNode.ordered), h) := by
  induction hq with
  | nil => rfl
  | cons h1 _ ih =>
    obtain ⟨fs, ha, _⟩ := node_inv h1
    unfold each
    rw [bind_of (orderedOf_of ha), bind_of ih]
    rfl

theorem each_fields {h : Heap} {os : List Nat} {qs : List QNode} (hq : List.Forall₂ (IsNode h) os qs) :
    ∃ fss, each fieldsOf os h = (.ok fss, h) ∧ IsItems h fss.flatten (qs.flatMap QNode.fields) := by
  induction hq with
  | nil => exact ⟨[], rfl, .nil⟩
  | cons h1 _ ih =>
    obtain ⟨fs, ha, hs⟩ := node_inv h1
    obtain ⟨fss, e, h2⟩ := ih
    refine ⟨fs :: fss, ?_, ?_⟩
    · unfold each
      rw [bind_of (fieldsOf_of ha), bind_of e]
      rfl
    · rw [items_forall2] at hs h2 ⊢
      exact List.rel_append hs h2

theorem merge_of (lim : Nat) : ∀ {h : Heap} {os : List Nat} {qs : List QNode}, Inv H h → List.Forall₂ (IsNode h) os qs →
    depthNodes qs < lim → ∃ o h', merge H lim os h = (.ok o, h') ∧ Inv H h' ∧ Ext h h' ∧ IsNode h' o (Hiku.merge H qs) := by
  induction lim with
  | zero => intro h os qs _ _ hd; omega
  | succ lim ih =>
    intro h os qs hi hq hd
    unfold merge
    obtain ⟨fss, e1, hs⟩ := each_fields hq
    rw [bind_of (each_ordered hq), bind_of e1]
    obtain ⟨out, gs1, h1, e2, hi1, he1, h3, h4⟩ := mergeLoop_of (H := H) (seen := []) (gs := []) (gs' := []) hi hs .nil
    rw [bind_of e2]
    have key : ∀ (gs : List (MKey × Nat × List Nat)) (gs' : List LinkGroup) (h : Heap), Inv H h → Groups H h gs gs' →
        (∀ g ∈ gs', depthNodes g.nodes < lim) →
        ∃ ls h', each (fun (g : MKey × Nat × List Nat) => do
            let m ← merge H lim g.2.2
            copy g.2.1 { node := some m }) gs h = (.ok ls, h') ∧ Inv H h' ∧ Ext h h' ∧
          IsItems h' ls (gs'.map fun g => .link g.name (Hiku.merge H g.nodes) g.options g.alias_) := by
      intro gs
      induction gs with
      | nil => intro gs' h hi hg _; cases hg; exact ⟨[], h, rfl, hi, Ext.refl h, .nil⟩
      | cons g r ihg =>
        intro gs' h hi hg hd
        cases hg with
        | @cons _ g' _ r' hh hr =>
        obtain ⟨_, ⟨c, hl⟩, hn⟩ := hh
        obtain ⟨m, h1, e1, hi1, he1, hm⟩ := ih hi hn (hd _ (by simp))
        obtain ⟨h2, e2, hi2, he2, ha2⟩ := copy_of hi1 (he1 _ _ hl) { node := some m }
        obtain ⟨ls, h3, e3, hi3, he3, hs3⟩ := ihg r' h2 hi2 ((show Groups H h r r' from hr).ext (he1.trans he2)) fun x hx => hd _ (by simp [hx])
        refine ⟨h1.length :: ls, h3, ?_, hi3, (he1.trans he2).trans he3, ?_⟩
        · unfold each
          rw [bind_of (m := (do
            let m ← merge H lim g.2.2
            copy g.2.1 { node := some m })) (by rw [bind_of e1, e2]), bind_of e3]
          rfl
        · exact .cons (.link (he3 _ _ ha2) (hm.ext (he2.trans he3))) hs3
    obtain ⟨ls, h2, e3, hi2, he2, hls⟩ := key gs1 _ h1 hi1 h4 (by
      intro g hg
      have := group_depth hg
      omega)
    rw [bind_of e3]
    obtain ⟨h3', e4, hi3, he3, ha3⟩ := new_of hi2 (.node (out ++ ls) ((qs.map QNode.ordered).any id))
    refine ⟨_, h3', e4, hi3, (he1.trans he2).trans he3, ?_⟩
    rw [merge_eq]
    have : (qs.map QNode.ordered).any id = qs.any QNode.ordered := by simp [List.any_map]
    rw [this] at ha3
    refine .node ha3 ?_
    rw [items_forall2]
    exact List.rel_append (items_forall2.1 (h3.ext (he2.trans he3))) (items_forall2.1 (hls.ext he3))

/-! #### transformers -/

mutual
/-- the items with names which are kept -/
def pickNode (keep : String → Bool) : QNode → QNode
  | .mk fs b => .mk (pickItems keep fs) b
def pickItems (keep : String → Bool) : List QItem → List QItem
  | [] => []
  | i :: r => if keep i.name then pickItem keep i :: pickItems keep r else pickItems keep r
def pickItem (keep : String → Bool) : QItem → QItem
  | .field n o a => .field n o a
  | .link n q o a => .link n (pickNode keep q) o a
end

mutual
theorem pickNode_all : ∀ q, pickNode (fun _ => true) q = q
  | .mk fs b => by rw [pickNode, pickItems_all fs]
theorem pickItems_all : ∀ fs, pickItems (fun _ => true) fs = fs
  | [] => rfl
  | i :: r => by rw [pickItems, if_pos rfl, pickItem_all i, pickItems_all r]
theorem pickItem_all : ∀ i, pickItem (fun _ => true) i = i
  | .field n o a => rfl
  | .link n q o a => by rw [pickItem, pickNode_all q]
end

mutual
theorem pickNode_strip : ∀ q, pickNode (fun n => decide (n ≠ "__typename")) q = stripNode q
  | .mk fs b => by rw [pickNode, stripNode, pickItems_strip fs]
theorem pickItems_strip : ∀ fs, pickItems (fun n => decide (n ≠ "__typename")) fs = stripItems fs
  | [] => rfl
  | i :: r => by
    rw [pickItems, stripItems, pickItem_strip i, pickItems_strip r]
    simp only [decide_eq_true_eq]
    rfl
theorem pickItem_strip : ∀ i, pickItem (fun n => decide (n ≠ "__typename")) i = stripItem i
  | .field n o a => rfl
  | .link n q o a => by rw [pickItem, stripItem, pickNode_strip q]
end

theorem visitFields_of {keep : String → Bool} {v : Nat → M Nat} {lim : Nat}
    (hv : ∀ {h : Heap} {o : Nat} {i : QItem}, Inv H h → IsItem h o i → 2 * i.depth + 1 ≤ lim →
      ∃ o' h', v o h = (.ok o', h') ∧ Inv H h' ∧ Ext h h' ∧ IsItem h' o' (pickItem keep i)) :
    ∀ {fs : List Nat} {h : Heap} {is : List QItem}, Inv H h → IsItems h fs is → 2 * depthItems is + 1 ≤ lim →
      ∃ fs' h', visitFields keep v fs h = (.ok fs', h') ∧ Inv H h' ∧ Ext h h' ∧ IsItems h' fs' (pickItems keep is) := by
  intro fs
  induction fs with
  | nil => intro h is hi hs _; cases hs; exact ⟨[], h, rfl, hi, Ext.refl h, .nil⟩
  | cons f r ih =>
    intro h is hi hs hd
    cases hs with
    | @cons _ _ i is' h1 h2 =>
    obtain ⟨a, ha, hn, _, _⟩ := item_attrs h1
    rw [depthItems] at hd
    unfold visitFields
    rw [bind_of (nameOf_of ha hn), pickItems]
    by_cases hk : keep i.name = true
    · rw [if_pos hk, if_pos hk]
      obtain ⟨o', h', e1, hi1, he1, hit⟩ := hv hi h1 (by omega)
      obtain ⟨fs', h'', e2, hi2, he2, his⟩ := ih hi1 (h2.ext he1) (by omega)
      refine ⟨o' :: fs', h'', ?_, hi2, he1.trans he2, .cons (hit.ext he2) his⟩
      rw [bind_of e1, bind_of e2]
      rfl
    · rw [if_neg hk, if_neg hk]
      exact ih hi h2 (by omega)

theorem transform_of {keep : String → Bool} (lim : Nat) :
    (∀ {h : Heap} {o : Nat} {i : QItem}, Inv H h → IsItem h o i → 2 * i.depth + 1 ≤ lim →
      ∃ o' h', transform keep lim o h = (.ok o', h') ∧ Inv H h' ∧ Ext h h' ∧ IsItem h' o' (pickItem keep i)) ∧
    (∀ {h : Heap} {o : Nat} {q : QNode}, Inv H h → IsNode h o q → 2 * q.depth + 2 ≤ lim →
      ∃ o' h', transform keep lim o h = (.ok o', h') ∧ Inv H h' ∧ Ext h h' ∧ IsNode h' o' (pickNode keep q)) := by
  induction lim with
  | zero => exact ⟨fun _ _ hd => by omega, fun _ _ hd => by omega⟩
  | succ lim ih =>
    constructor
    · intro h o i hi hit hd
      unfold transform
      cases hit with
      | field ha =>
        obtain ⟨x, hx, hxa, hl⟩ := load_of ha
        obtain ⟨h', e, h1, h2, h3⟩ := copy_of hi ha {}
        rw [bind_of hl, hxa]
        exact ⟨_, h', e, h1, h2, .field h3⟩
      | link ha hn =>
        obtain ⟨x, hx, hxa, hl⟩ := load_of ha
        rw [QItem.depth] at hd
        obtain ⟨c', h1, e1, hi1, he1, hc⟩ := ih.2 hi hn (by omega)
        obtain ⟨h2, e2, hi2, he2, ha2⟩ := copy_of hi1 (he1 _ _ ha) { node := some c' }
        rw [bind_of hl, hxa]
        exact ⟨_, h2, (bind_of e1).trans e2, hi2, he1.trans he2, .link ha2 (hc.ext he2)⟩
    · intro h o q hi hn hd
      unfold transform
      obtain ⟨fs, b⟩ := q
      obtain ⟨os, ha, hs⟩ := node_inv hn
      obtain ⟨x, hx, hxa, hl⟩ := load_of ha
      rw [QNode.depth] at hd
      obtain ⟨fs', h1, e1, hi1, he1, hs1⟩ := visitFields_of (H := H) ih.1 hi hs (by simp only [QNode.fields]; omega)
      obtain ⟨h2, e2, hi2, he2, ha2⟩ := copy_of hi1 (he1 _ _ ha) { fields := some fs' }
      rw [bind_of hl, hxa]
      exact ⟨_, h2, (bind_of e1).trans e2, hi2, he1.trans he2, .node ha2 (hs1.ext he2)⟩

/-! #### InitOptions -/

theorem lift_of {α : Type} {h : Heap} (hi : Inv H h) (x : Except Err α) :
    Does H (lift x) h (fun _ (a b : α) => a = b) x := by
  cases x with
  | ok a => exact ⟨a, h, rfl, hi, Ext.refl h, rfl⟩
  | error e => exact ⟨h, rfl, hi, Ext.refl h⟩

theorem initItems_of {g : Graph} {gn : GNode} {lim : Nat}
    (hv : ∀ {h : Heap} {o : Nat} {i : QItem}, Inv H h → IsItem h o i → 2 * i.depth + 1 ≤ lim →
      Does H (init g lim gn o) h IsItem (initItem g gn i)) :
    ∀ {fs : List Nat} {h : Heap} {is : List QItem}, Inv H h → IsItems h fs is → 2 * depthItems is + 1 ≤ lim →
      Does H (each (init g lim gn) fs) h IsItems (initItems g gn is) := by
  intro fs
  induction fs with
  | nil => intro h is hi hs _; cases hs; exact ⟨[], h, rfl, hi, Ext.refl h, .nil⟩
  | cons f r ih =>
    intro h is hi hs hd
    cases hs with
    | @cons _ _ i is' h1 h2 =>
    rw [depthItems] at hd
    unfold each
    rw [initItems]
    refine does_bind (hv hi h1 (by omega)) fun a b h' hi' he' hab => ?_
    refine does_bind (ih hi' (h2.ext he') (by omega)) fun as bs h'' hi'' he'' habs => ?_
    exact ⟨_, h'', rfl, hi'', Ext.refl _, .cons (hab.ext he'') habs⟩

theorem init_of {g : Graph} (lim : Nat) :
    (∀ {gn : GNode} {h : Heap} {o : Nat} {i : QItem}, Inv H h → IsItem h o i → 2 * i.depth + 1 ≤ lim →
      Does H (init g lim gn o) h IsItem (initItem g gn i)) ∧
    (∀ {gn : GNode} {h : Heap} {o : Nat} {q : QNode}, Inv H h → IsNode h o q → 2 * q.depth + 2 ≤ lim →
      Does H (init g lim gn o) h IsNode (initNode g gn q)) := by
  induction lim with
  | zero => exact ⟨fun _ _ hd => by omega, fun _ _ hd => by omega⟩
  | succ lim ih =>
    constructor
    · intro gn h o i hi hit hd
      have hit0 := hit
      cases hit with
      | @field _ n os al ha =>
        obtain ⟨x, hx, hxa, hl⟩ := load_of ha
        have : init g (lim + 1) gn o h = (match gn.get n with
            | none => raise .keyError
            | some gi =>
              if gi.options.isEmpty then pure o
              else do
                let os' ← lift (getOptions gi.options os)
                copy o { options := some (some os') } : M Nat) h := by
          rw [init, bind_of hl, hxa]
          rfl
        refine does_congr this ?_
        rw [initItem]
        cases gn.get n with
        | none => exact ⟨h, rfl, hi, Ext.refl h⟩
        | some gi =>
          dsimp only
          by_cases hem : gi.options.isEmpty = true
          · rw [if_pos hem, if_pos hem]
            exact ⟨o, h, rfl, hi, Ext.refl h, hit0⟩
          · rw [if_neg hem, if_neg hem]
            refine does_bind (lift_of hi _) fun a b h' hi' he' hab => ?_
            subst hab
            obtain ⟨h2, e2, hi2, he2, ha2⟩ := copy_of hi' (he' _ _ ha) { options := some (some a) }
            exact ⟨_, h2, e2, hi2, he2, .field ha2⟩
      | @link _ n c os al q ha hn =>
        obtain ⟨x, hx, hxa, hl⟩ := load_of ha
        rw [QItem.depth] at hd
        have : init g (lim + 1) gn o h = (match gn.get n with
          | none => raise .keyError
          | some (.link gl) =>
              match g.node gl.node with
              | none => raise .keyError
              | some t => do
                  let c' ← init g lim t c
                  if gl.options.isEmpty then copy o { node := some c', options := some none }
                  else do
                    let os' ← lift (getOptions gl.options os)
                    copy o { node := some c', options := some (some os') }
          | some (.field gf) =>
              if gf.options.isEmpty then copy o { node := some c, options := some none }
              else do
                let os' ← lift (getOptions gf.options os)
                copy o { node := some c, options := some (some os') } : M Nat) h := by
          rw [init, bind_of hl, hxa]
          rfl
        refine does_congr this ?_
        rw [initItem]
        cases gn.get n with
        | none => exact ⟨h, rfl, hi, Ext.refl h⟩
        | some gi =>
          cases gi with
          | field gf =>
            dsimp only
            by_cases hem : gf.options.isEmpty = true
            · rw [if_pos hem, if_pos hem]
              obtain ⟨h2, e2, hi2, he2, ha2⟩ := copy_of hi ha { node := some c, options := some none }
              exact ⟨_, h2, e2, hi2, he2, .link ha2 (hn.ext he2)⟩
            · rw [if_neg hem, if_neg hem]
              refine does_bind (lift_of hi _) fun a b h' hi' he' hab => ?_
              subst hab
              obtain ⟨h2, e2, hi2, he2, ha2⟩ := copy_of hi' (he' _ _ ha) { node := some c, options := some (some a) }
              exact ⟨_, h2, e2, hi2, he2, .link ha2 (hn.ext (he'.trans he2))⟩
          | link gl =>
            dsimp only
            cases g.node gl.node with
            | none => exact ⟨h, rfl, hi, Ext.refl h⟩
            | some t =>
              dsimp only
              refine does_bind (ih.2 hi hn (by omega)) fun c' q' h1 hi1 he1 hc => ?_
              by_cases hem : gl.options.isEmpty = true
              · rw [if_pos hem, if_pos hem]
                obtain ⟨h2, e2, hi2, he2, ha2⟩ := copy_of hi1 (he1 _ _ ha) { node := some c', options := some none }
                exact ⟨_, h2, e2, hi2, he2, .link ha2 (hc.ext he2)⟩
              · rw [if_neg hem, if_neg hem]
                refine does_bind (lift_of hi1 _) fun a b h' hi' he' hab => ?_
                subst hab
                obtain ⟨h2, e2, hi2, he2, ha2⟩ := copy_of hi' (he' _ _ (he1 _ _ ha)) { node := some c', options := some (some a) }
                exact ⟨_, h2, e2, hi2, he2, .link ha2 (hc.ext (he'.trans he2))⟩
    · intro gn h o q hi hn hd
      obtain ⟨fs, b⟩ := q
      obtain ⟨os, ha, hs⟩ := node_inv hn
      obtain ⟨x, hx, hxa, hl⟩ := load_of ha
      rw [QNode.depth] at hd
      have : init g (lim + 1) gn o h = (do
          let fs' ← each (init g lim gn) os
          copy o { fields := some fs' } : M Nat) h := by
        rw [init, bind_of hl, hxa]
      refine does_congr this ?_
      rw [initNode]
      refine does_bind (initItems_of (H := H) ih.1 hi hs (by omega)) fun fs' is' h1 hi1 he1 hs1 => ?_
      obtain ⟨h2, e2, hi2, he2, ha2⟩ := copy_of hi1 (he1 _ _ ha) { fields := some fs' }
      exact ⟨_, h2, e2, hi2, he2, .node ha2 (hs1.ext he2)⟩

/-! #### equality -/

mutual
/-- an object stands for one tree -/
theorem isItem_unique {h : Heap} : ∀ {o : Nat} {i j : QItem}, IsItem h o i → IsItem h o j → i = j
  | _, _, _, .field ha, h2 => by
    cases h2 with
    | field hb => rw [ha] at hb; cases hb; rfl
    | link hb _ => rw [ha] at hb; cases hb
  | _, _, _, .link ha hn, h2 => by
    cases h2 with
    | field hb => rw [ha] at hb; cases hb
    | link hb hm =>
      rw [ha] at hb
      cases hb
      rw [isNode_unique hn hm]
theorem isNode_unique {h : Heap} : ∀ {o : Nat} {i j : QNode}, IsNode h o i → IsNode h o j → i = j
  | _, _, _, .node ha hs, h2 => by
    cases h2 with
    | node hb ht =>
      rw [ha] at hb
      cases hb
      rw [isItems_unique hs ht]
theorem isItems_unique {h : Heap} : ∀ {os : List Nat} {is js : List QItem}, IsItems h os is → IsItems h os js → is = js
  | _, _, _, .nil, h2 => by cases h2; rfl
  | _, _, _, .cons h1 hs, h2 => by
    cases h2 with
    | cons h2 ht => rw [isItem_unique h1 h2, isItems_unique hs ht]
end

mutual
theorem sameItem_refl {E : Opts → Opts → Bool} (hE : ∀ o, E o o = true) : ∀ i, SameItem E i i
  | .field n o a => by simp [SameItem, hE]
  | .link n q o a => by simp [SameItem, hE, sameNode_refl hE q]
theorem sameNode_refl {E : Opts → Opts → Bool} (hE : ∀ o, E o o = true) : ∀ q, SameNode E q q
  | .mk fs b => by simp [SameNode, sameItems_refl hE fs]
theorem sameItems_refl {E : Opts → Opts → Bool} (hE : ∀ o, E o o = true) : ∀ l, SameItems E l l
  | [] => by simp [SameItems]
  | i :: r => by simp [SameItems, sameItem_refl hE i, sameItems_refl hE r]
end

theorem eqList_of {E : Opts → Opts → Bool} (hE : ∀ o, E o o = true) {h : Heap} {lim : Nat}
    (hv : ∀ {a b : Nat} {i j : QItem}, IsItem h a i → IsItem h b j → 2 * i.depth + 1 ≤ lim →
      ∃ r, eqObj E lim a b h = (.ok r, h) ∧ (r = true ↔ SameItem E i j)) :
    ∀ {as bs : List Nat} {is js : List QItem}, IsItems h as is → IsItems h bs js → 2 * depthItems is + 1 ≤ lim →
      ∃ r, eqList (eqObj E lim) as bs h = (.ok r, h) ∧ (r = true ↔ SameItems E is js) := by
  intro as
  induction as with
  | nil =>
    intro bs is js h1 h2 _
    cases h1
    cases h2 with
    | nil => exact ⟨true, rfl, by simp [SameItems]⟩
    | cons _ _ => exact ⟨false, rfl, by simp [SameItems]⟩
  | cons a r ih =>
    intro bs is js h1 h2 hd
    cases h1 with
    | @cons _ _ i is' h1 h1' =>
    rw [depthItems] at hd
    cases h2 with
    | nil => exact ⟨false, rfl, by simp [SameItems]⟩
    | cons h2 h2' =>
      unfold eqList
      rename_i b s' j js'
      by_cases hab : a = b
      · subst hab
        obtain rfl := isItem_unique h1 h2
        obtain ⟨y, e', hy⟩ := ih h1' h2' (by omega)
        rw [if_pos rfl]
        exact ⟨y, e', by rw [hy, SameItems]; simp [sameItem_refl hE]⟩
      rw [if_neg hab]
      obtain ⟨x, e, hx⟩ := hv h1 h2 (by omega)
      rw [bind_of e, SameItems]
      cases x with
      | false =>
        refine ⟨false, rfl, ?_⟩
        rw [← hx]
        simp
      | true =>
        obtain ⟨y, e', hy⟩ := ih h1' h2' (by omega)
        exact ⟨y, e', by rw [hy, ← hx]; simp⟩

theorem eqObj_of {E : Opts → Opts → Bool} (hE : ∀ o, E o o = true) {h : Heap} (lim : Nat) :
    (∀ {a b : Nat} {i j : QItem}, IsItem h a i → IsItem h b j → 2 * i.depth + 1 ≤ lim →
      ∃ r, eqObj E lim a b h = (.ok r, h) ∧ (r = true ↔ SameItem E i j)) ∧
    (∀ {a b : Nat} {i j : QNode}, IsNode h a i → IsNode h b j → 2 * i.depth + 2 ≤ lim →
      ∃ r, eqObj E lim a b h = (.ok r, h) ∧ (r = true ↔ SameNode E i j)) := by
  induction lim with
  | zero => exact ⟨fun _ _ hd => by omega, fun _ _ hd => by omega⟩
  | succ lim ih =>
    constructor
    · intro a b i j h1 h2 hd
      unfold eqObj
      cases h1 with
      | field ha =>
        obtain ⟨x, hx, hxa, hl⟩ := load_of ha
        cases h2 with
        | field hb =>
          obtain ⟨y, hy, hyb, hl'⟩ := load_of hb
          rw [bind_of hl, bind_of hl', hxa, hyb]
          exact ⟨_, rfl, by simp [SameItem, and_assoc]⟩
        | link hb hn =>
          obtain ⟨y, hy, hyb, hl'⟩ := load_of hb
          rw [bind_of hl, bind_of hl', hxa, hyb]
          exact ⟨false, rfl, by simp [SameItem]⟩
      | @link _ n c o al q ha hm =>
        obtain ⟨x, hx, hxa, hl⟩ := load_of ha
        cases h2 with
        | field hb =>
          obtain ⟨y, hy, hyb, hl'⟩ := load_of hb
          rw [bind_of hl, bind_of hl', hxa, hyb]
          exact ⟨false, rfl, by simp [SameItem]⟩
        | @link _ n' c' o' al' q' hb hn =>
          obtain ⟨y, hy, hyb, hl'⟩ := load_of hb
          rw [bind_of hl, bind_of hl', hxa, hyb]
          dsimp only
          rw [QItem.depth] at hd
          obtain ⟨r, e, hr⟩ := ih.2 hm hn (by omega)
          by_cases hnn : n = n'
          · rw [if_pos hnn]
            exact ⟨_, (bind_of e).trans rfl, by simp [SameItem, hnn, hr, and_assoc]⟩
          · rw [if_neg hnn]
            exact ⟨false, rfl, by simp [SameItem, hnn]⟩
    · intro a b i j h1 h2 hd
      obtain ⟨is, ib⟩ := i
      obtain ⟨js, jb⟩ := j
      obtain ⟨as, ha, hs⟩ := node_inv h1
      obtain ⟨bs, hb, ht⟩ := node_inv h2
      obtain ⟨x, hx, hxa, hl⟩ := load_of ha
      obtain ⟨y, hy, hyb, hl'⟩ := load_of hb
      rw [QNode.depth] at hd
      obtain ⟨r, e, hr⟩ := eqList_of hE ih.1 hs ht (by simp only [QNode.fields]; omega)
      unfold eqObj
      rw [bind_of hl, bind_of hl', hxa, hyb]
      exact ⟨r && decide (ib = jb), (bind_of e).trans rfl, by rw [Bool.and_eq_true, hr, decide_eq_true_eq, SameNode]; rfl⟩

/-! #### maps -/

/-- a map of objects stands for a map of items -/
def MapIs (h : Heap) : List (String × Nat) → List (String × QItem) → Prop :=
  List.Forall₂ fun e e' => e.1 = e'.1 ∧ IsItem h e.2 e'.2

theorem dset_is {h : Heap} {d : List (String × Nat)} {d' : List (String × QItem)} (hd : MapIs h d d') {k : String} {o : Nat}
    {i : QItem} (hi : IsItem h o i) : MapIs h (dset d k o) (dset d' k i) := by
  induction hd with
  | nil => exact .cons ⟨rfl, hi⟩ .nil
  | @cons e e' r r' h1 h2 ih =>
    obtain ⟨k1, o1⟩ := e
    obtain ⟨k2, i2⟩ := e'
    obtain ⟨rfl, h1⟩ := h1
    dsimp only at h1
    unfold dset
    split
    · exact .cons ⟨rfl, hi⟩ h2
    · exact .cons ⟨rfl, h1⟩ ih

theorem dmk_is {h : Heap} {l : List (String × Nat)} {l' : List (String × QItem)} (hl : MapIs h l l') :
    MapIs h (dmk l) (dmk l') := by
  have key : ∀ d d', MapIs h d d' → MapIs h (dupdate d l) (dupdate d' l') := by
    induction hl with
    | nil => exact fun _ _ hd => hd
    | @cons e e' r r' h1 h2 ih =>
      intro d d' hd
      obtain ⟨k1, o1⟩ := e
      obtain ⟨k2, i2⟩ := e'
      obtain ⟨rfl, h1⟩ := h1
      dsimp only at h1
      exact ih _ _ (dset_is hd h1)
  exact key _ _ .nil

theorem zip_is {h : Heap} (f : QItem → String) {fs : List Nat} {is : List QItem} (hs : IsItems h fs is) :
    MapIs h ((is.map f).zip fs) (is.map fun i => (f i, i)) := by
  rw [items_forall2] at hs
  induction hs with
  | nil => exact .nil
  | cons h1 _ ih => exact .cons ⟨rfl, h1⟩ ih

theorem names_of {h : Heap} {fs : List Nat} {is : List QItem} (hs : IsItems h fs is) :
    List.Forall₂ (fun f n => (attrsAt h f).bind Attrs.name? = some n) fs (is.map QItem.name) ∧
    List.Forall₂ (fun f n => (attrsAt h f).bind Attrs.key? = some n) fs (is.map QItem.resultKey) := by
  rw [items_forall2] at hs
  induction hs with
  | nil => exact ⟨.nil, .nil⟩
  | cons h1 _ ih =>
    obtain ⟨a, ha, hn, _, hk⟩ := item_attrs h1
    exact ⟨.cons (by rw [ha]; exact hn) ih.1, .cons (by rw [ha]; exact hk) ih.2⟩

/-! ### C71 -/

/-- **C71**: an object which stands for a tree after some history stands for the same tree after every longer one. -/
theorem c71_immutable (ops more : List Op) {o : Nat} :
    (∀ i, IsItem (run H ops []) o i → IsItem (run H (ops ++ more) []) o i) ∧
    (∀ q, IsNode (run H ops []) o q → IsNode (run H (ops ++ more) []) o q) := by
  rw [run_append]
  have := (good_run (H := H) (good_run inv_empty ops).1 more).2
  exact ⟨fun _ h => h.ext this, fun _ h => h.ext this⟩

/-- C71: after any history, the properties of a field or of a link are those of the tree it stands for, and reading them
changes no tree. -/
theorem c71_keys (ops : List Op) {o : Nat} {i : QItem} (hi : IsItem (run H ops []) o i) :
    (resultKey o (run H ops [])).1 = .ok i.resultKey ∧
    (optionsHash H o (run H ops [])).1 = .ok (Hiku.optionsHash H i.options) ∧
    (indexKey H o (run H ops [])).1 = .ok (i.indexKey H) := by
  have hinv := (good_run (H := H) inv_empty ops).1
  obtain ⟨a, ha, hn, ho, hk⟩ := item_attrs hi
  obtain ⟨_, e1, _⟩ := resultKey_reads hinv ha hk
  obtain ⟨_, e2, _⟩ := optionsHash_reads hinv ha ho
  obtain ⟨_, e3, _⟩ := indexKey_reads hinv ha hn ho
  rw [e1, e2, e3]
  exact ⟨rfl, rfl, rfl⟩

/-- C71: the maps of a node hold, under the names (result keys), the objects which stand for its items -/
theorem c71_maps (ops : List Op) {o : Nat} {q : QNode} (hq : IsNode (run H ops []) o q) :
    (∃ m, (fieldsMap o (run H ops [])).1 = .ok m ∧ List.Forall₂ (fun e e' => e.1 = e'.1 ∧ IsItem (run H ops []) e.2 e'.2) m q.fieldsMap) ∧
    (∃ m, (resultMap o (run H ops [])).1 = .ok m ∧ List.Forall₂ (fun e e' => e.1 = e'.1 ∧ IsItem (run H ops []) e.2 e'.2) m q.resultMap) := by
  have hinv := (good_run (H := H) inv_empty ops).1
  obtain ⟨fs, ha, hs⟩ := node_inv hq
  obtain ⟨hn, hk⟩ := names_of hs
  obtain ⟨_, e1, _⟩ := fieldsMap_reads hinv ha hn
  obtain ⟨_, e2, _⟩ := resultMap_reads hinv ha hk
  rw [e1, e2]
  exact ⟨⟨_, rfl, dmk_is (zip_is QItem.name hs)⟩, ⟨_, rfl, dmk_is (zip_is QItem.resultKey hs)⟩⟩

/-- C71: after any history, what a program does next with objects is what the model does with the trees. -/
theorem c71_merge (ops : List Op) {os : List Nat} {qs : List QNode} (hq : List.Forall₂ (IsNode (run H ops [])) os qs)
    {lim : Nat} (hl : depthNodes qs < lim) :
    ∃ o, (merge H lim os (run H ops [])).1 = .ok o ∧ IsNode (run H (ops ++ [.merge lim os]) []) o (Hiku.merge H qs) := by
  obtain ⟨o, h', e, _, _, h1⟩ := merge_of lim (good_run (H := H) inv_empty ops).1 hq hl
  refine ⟨o, by rw [e], ?_⟩
  rw [run_append]
  show IsNode (merge H lim os (run H ops [])).2 _ _
  rw [e]
  exact h1

/-- C71: the plain transformer copies -/
theorem c71_transform (ops : List Op) {o : Nat} {q : QNode} (hq : IsNode (run H ops []) o q)
    {lim : Nat} (hl : 2 * q.depth + 2 ≤ lim) :
    ∃ o', (transform (fun _ => true) lim o (run H ops [])).1 = .ok o' ∧
      IsNode (run H (ops ++ [.transform (fun _ => true) lim o]) []) o' q := by
  obtain ⟨o', h', e, _, _, h1⟩ := (transform_of (H := H) (keep := fun _ => true) lim).2 (good_run (H := H) inv_empty ops).1 hq hl
  rw [pickNode_all] at h1
  refine ⟨o', by rw [e], ?_⟩
  rw [run_append]
  show IsNode (transform _ lim o (run H ops [])).2 _ _
  rw [e]
  exact h1

/-- C71: `__typename` is stripped as in the model -/
theorem c71_strip (ops : List Op) {o : Nat} {q : QNode} (hq : IsNode (run H ops []) o q)
    {lim : Nat} (hl : 2 * q.depth + 2 ≤ lim) :
    ∃ o', (transform (fun n => decide (n ≠ "__typename")) lim o (run H ops [])).1 = .ok o' ∧
      IsNode (run H (ops ++ [.transform (fun n => decide (n ≠ "__typename")) lim o]) []) o' (stripNode q) := by
  obtain ⟨o', h', e, _, _, h1⟩ :=
    (transform_of (H := H) (keep := fun n => decide (n ≠ "__typename")) lim).2 (good_run (H := H) inv_empty ops).1 hq hl
  rw [pickNode_strip] at h1
  refine ⟨o', by rw [e], ?_⟩
  rw [run_append]
  show IsNode (transform _ lim o (run H ops [])).2 _ _
  rw [e]
  exact h1

/-- C71: options are initialised as in the model, errors included -/
theorem c71_init (ops : List Op) {o : Nat} {q : QNode} (hq : IsNode (run H ops []) o q) (g : Graph)
    {lim : Nat} (hl : 2 * q.depth + 2 ≤ lim) :
    (∀ q', initOptions g q = .ok q' → ∃ o', (init g lim g.root o (run H ops [])).1 = .ok o' ∧
      IsNode (run H (ops ++ [.init g lim g.root o]) []) o' q') ∧
    (∀ e, initOptions g q = .error e → (init g lim g.root o (run H ops [])).1 = .error e) := by
  have hd := (init_of (H := H) (g := g) lim).2 (gn := g.root) (good_run (H := H) inv_empty ops).1 hq hl
  unfold initOptions
  constructor
  · intro q' hq'
    rw [hq'] at hd
    obtain ⟨o', h', e, _, _, h1⟩ := hd
    refine ⟨o', by rw [e], ?_⟩
    rw [run_append]
    show IsNode (init g lim g.root o (run H ops [])).2 _ _
    rw [e]
    exact h1
  · intro e' he
    rw [he] at hd
    obtain ⟨h', e, _⟩ := hd
    rw [e]

/-- C71: `==` compares trees: what was read before and which objects are shared does not matter.  Options
are equal to themselves: `dict.__eq__` does not ask a value whether it is equal to itself. -/
theorem c71_eq (ops : List Op) {E : Opts → Opts → Bool} (hE : ∀ o, E o o = true) {a b : Nat} {p q : QNode} (hp : IsNode (run H ops []) a p)
    (hq : IsNode (run H ops []) b q) {lim : Nat} (hl : 2 * p.depth + 2 ≤ lim) :
    ∃ r, (eqObj E lim a b (run H ops [])).1 = .ok r ∧ (r = true ↔ SameNode E p q) := by
  obtain ⟨r, e, h⟩ := (eqObj_of hE lim).2 hp hq hl
  exact ⟨r, by rw [e], h⟩

/-! ### example: `a(x: 1)`, its key is read, the options are replaced, two queries with the field are merged -/

def exHash : PyHash := ⟨fun _ => 5, fun l => l.length, fun l => l.length⟩

def exOps : List Op :=
  [.field "a" (some [("x", .int 1)]) (some "b"), .indexKey 0, .resultKey 0, .copy 0 { options := some none },
   .link "l" 4 none none, .node [0, 1] false, .node [3, 2] true, .resultMap 4]

theorem exHeap : attrsAt (run exHash exOps []) 1 = some (.field "a" none (some "b")) ∧
    attrsAt (run exHash exOps []) 0 = some (.field "a" (some [("x", .int 1)]) (some "b")) :=
  ⟨rfl, rfl⟩

/-- the key which was read before the copy is still there, and the copy has its own -/
example : (indexKey exHash 0 (run exHash exOps [])).1 = .ok "a[1]" ∧ (indexKey exHash 1 (run exHash exOps [])).1 = .ok "a" := by
  have h1 := (c71_keys (H := exHash) exOps (.field exHeap.1)).2.2
  have h0 := (c71_keys (H := exHash) exOps (.field exHeap.2)).2.2
  rw [h0, h1]
  exact ⟨by decide +kernel, rfl⟩

def exNode : QNode :=
  .mk [.field "a" (some [("x", .int 1)]) (some "b"), .field "a" none (some "b")] false

theorem exIsNode : IsNode (run exHash exOps []) 3 exNode := by
  refine .node (fs := [0, 1]) rfl (.cons (.field exHeap.2) (.cons (.field exHeap.1) .nil))

example : ∃ o, (merge exHash 1 [3, 3] (run exHash exOps [])).1 = .ok o ∧
    IsNode (run exHash (exOps ++ [.merge 1 [3, 3]]) []) o exNode := by
  have := c71_merge (H := exHash) exOps (.cons exIsNode (.cons exIsNode .nil)) (lim := 1)
    (by decide +kernel)
  exact this

/-- two nodes with shared fields are compared -/
example : ∃ r, (eqObj (fun o o' => decide (o = o')) 6 3 3 (run exHash exOps [])).1 = .ok r ∧
    (r = true ↔ SameNode (fun o o' => decide (o = o')) exNode exNode) :=
  c71_eq (H := exHash) exOps (by simp) exIsNode exIsNode (by decide +kernel)

end Hiku.QObj
