import Verif.Model.NestedIndex
import Verif.Proofs.Dict
import Verif.Props.Example

/-! # C72: the nested index is the flat one -/

namespace Hiku.NIdx
open Hiku

variable {H : PyHash}

/-- the dicts of different objects are different, and what is remembered of `root` is right -/
structure Inv (s : NIndex) : Prop where
  bound : ∀ n i a, s.addr n i = some a → a < s.dicts.length
  inj : ∀ n i n' i' a, s.addr n i = some a → s.addr n' i' = some a → n = n' ∧ i = i'
  root : ∀ a, s.root = some a → s.addr rootName rootIdent = some a

/-- what is stored under a key of an object -/
def look (s : NIndex) (n : String) (i : Val) (k : String) : Option Val :=
  ((s.addr n i).bind fun a => s.dicts[a]?).bind fun d => dget d k

/-- both indexes hold the same -/
structure Rep (s : NIndex) (idx : Index) : Prop where
  inv : Inv s
  open_ : s.finished = false
  same : ∀ n i k, look s n i k = dget idx (n, i, k)

theorem bind_of {α β : Type} {m : NM α} {f : α → NM β} {s s' : NIndex} {a : α} (e : m s = (.ok a, s')) :
    (m >>= f) s = f a s' := by
  show NM.bind m f s = _
  unfold NM.bind
  rw [e]

theorem bind_err {α β : Type} {m : NM α} {f : α → NM β} {s s' : NIndex} {x : Err} (e : m s = (.error x, s')) :
    (m >>= f) s = (.error x, s') := by
  show NM.bind m f s = _
  unfold NM.bind
  rw [e]

theorem dhas_iff {κ ν : Type} [DecidableEq κ] {d : List (κ × ν)} {k : κ} : dhas d k = true ↔ ∃ v, dget d k = some v := by
  unfold dhas
  rw [Option.isSome_iff_exists]

theorem getNode_of {s : NIndex} {idx : Index} (h : Rep s idx) (n : String) : ∃ s', getNode n s = (.ok (), s') ∧ Rep s' idx := by
  unfold getNode
  by_cases hd : dhas s.nodes n = true
  · rw [if_pos hd]
    exact ⟨s, rfl, h⟩
  · rw [if_neg hd, if_neg (by rw [h.open_]; simp)]
    refine ⟨_, rfl, ?_⟩
    have hn : dget s.nodes n = none := by
      cases hv : dget s.nodes n with
      | none => rfl
      | some v => exact absurd (dhas_iff.2 ⟨v, hv⟩) hd
    have ha : ∀ n' i', ({ s with nodes := dset s.nodes n [] } : NIndex).addr n' i' = s.addr n' i' := by
      intro n' i'
      unfold NIndex.addr
      simp only [dget_dset]
      by_cases e : n = n'
      · subst e
        rw [if_pos rfl, hn]
        rfl
      · rw [if_neg e]
    refine ⟨⟨?_, ?_, ?_⟩, h.open_, ?_⟩
    · intro n' i' a e
      rw [ha] at e
      exact h.inv.bound _ _ _ e
    · intro n' i' n'' i'' a e e'
      rw [ha] at e e'
      exact h.inv.inj _ _ _ _ _ e e'
    · intro a e
      rw [ha]
      exact h.inv.root a e
    · intro n' i' k
      unfold look
      rw [ha]
      exact h.same n' i' k

theorem getObj_of {s : NIndex} {idx : Index} (h : Rep s idx) (n : String) (i : Val) :
    ∃ a s', getObj n i s = (.ok a, s') ∧ Rep s' idx ∧ s'.addr n i = some a := by
  unfold getObj
  cases hs : s.addr n i with
  | some a => exact ⟨a, s, rfl, h, hs⟩
  | none =>
    dsimp only
    rw [if_neg (by rw [h.open_]; simp)]
    refine ⟨_, _, rfl, ?_, ?_⟩
    · have ha : ∀ n' i', ({ s with nodes := dset s.nodes n (dset ((dget s.nodes n).getD []) i s.dicts.length), dicts := s.dicts ++ [[]] } : NIndex).addr n' i' =
          if n = n' ∧ i = i' then some s.dicts.length else s.addr n' i' := by
        intro n' i'
        unfold NIndex.addr
        simp only [dget_dset]
        by_cases e : n = n'
        · subst e
          rw [if_pos rfl]
          simp only [Option.bind_some, dget_dset, true_and]
          by_cases e' : i = i'
          · rw [if_pos e', if_pos e']
          · rw [if_neg e', if_neg e']
            cases dget s.nodes n with
            | none => rfl
            | some d => rfl
        · rw [if_neg e, if_neg (fun hc => e hc.1)]
      refine ⟨⟨?_, ?_, ?_⟩, h.open_, ?_⟩
      · intro n' i' a e
        rw [ha] at e
        simp only [List.length_append, List.length_singleton]
        split at e
        · cases e; omega
        · have := h.inv.bound _ _ _ e; omega
      · intro n' i' n'' i'' a e e'
        rw [ha] at e e'
        split at e
        · next hc =>
          cases e
          split at e'
          · next hc' => exact ⟨hc.1.symm.trans hc'.1, hc.2.symm.trans hc'.2⟩
          · have := h.inv.bound _ _ _ e'; omega
        · split at e'
          · cases e'
            have := h.inv.bound _ _ _ e; omega
          · exact h.inv.inj _ _ _ _ _ e e'
      · intro a e
        rw [ha]
        have hr := h.inv.root a e
        split
        · next hc =>
          rw [hc.1, hc.2, hr] at hs
          cases hs
        · exact hr
      · intro n' i' k
        rw [← h.same n' i' k]
        unfold look
        rw [ha]
        split
        · next hc =>
          obtain ⟨rfl, rfl⟩ := hc
          rw [hs]
          simp [dget]
        · cases hb : s.addr n' i' with
          | none => rfl
          | some b =>
            have := h.inv.bound _ _ _ hb
            simp only [Option.bind_some]
            rw [List.getElem?_append_left this]
    · unfold NIndex.addr
      simp only [dget_dset_self, Option.bind_some]

theorem getRoot_of {s : NIndex} {idx : Index} (h : Rep s idx) :
    ∃ a s', getRoot s = (.ok a, s') ∧ Rep s' idx ∧ s'.addr rootName rootIdent = some a := by
  unfold getRoot
  cases hr : s.root with
  | some a => exact ⟨a, s, rfl, h, h.inv.root a hr⟩
  | none =>
    dsimp only
    obtain ⟨s1, e1, h1⟩ := getNode_of h rootName
    obtain ⟨a, s2, e2, h2, ha⟩ := getObj_of h1 rootName rootIdent
    rw [bind_of e1, bind_of e2]
    refine ⟨a, _, rfl, ⟨⟨h2.inv.bound, h2.inv.inj, ?_⟩, h2.open_, h2.same⟩, ha⟩
    rintro b ⟨⟩
    exact ha

/-- one pair -/
theorem update_one {s : NIndex} {idx : Index} (h : Rep s idx) {n : String} {i : Val} {a : Nat} (ha : s.addr n i = some a)
    (k : String) (v : Val) : Rep { s with dicts := s.dicts.modify a fun d => dset d k v } (dset idx (n, i, k) v) := by
  refine ⟨⟨?_, h.inv.inj, h.inv.root⟩, h.open_, ?_⟩
  · intro n' i' b e
    rw [List.length_modify]
    exact h.inv.bound n' i' b e
  · intro n' i' k'
    rw [dget_dset, ← h.same n' i' k']
    unfold look
    show ((s.addr n' i').bind fun b => (s.dicts.modify a fun d => dset d k v)[b]?).bind _ = _
    cases hb : s.addr n' i' with
    | none =>
      have : ¬ ((n, i, k) = (n', i', k')) := by
        rintro ⟨⟩
        rw [ha] at hb
        cases hb
      rw [if_neg this]
      rfl
    | some b =>
      have hlt := h.inv.bound _ _ _ hb
      simp only [Option.bind_some]
      rw [List.getElem?_modify, List.getElem?_eq_getElem hlt]
      by_cases e : a = b
      · subst e
        obtain ⟨rfl, rfl⟩ := h.inv.inj _ _ _ _ _ ha hb
        simp only [if_pos, Option.map_eq_map, Option.map_some, Option.bind_some, dget_dset]
        by_cases ek : k = k'
        · subst ek; simp
        · rw [if_neg ek, if_neg (by rintro ⟨⟩; exact ek rfl)]
      · have : ¬ ((n, i, k) = (n', i', k')) := by
          rintro ⟨⟩
          rw [ha] at hb
          cases hb
          exact e rfl
        rw [if_neg this]
        simp [e]

theorem update_of {n : String} {i : Val} {a : Nat} (kvs : List (String × Val)) :
    ∀ {s : NIndex} {idx : Index}, Rep s idx → s.addr n i = some a →
    ∃ s', update a kvs s = (.ok (), s') ∧ Rep s' (dupdate idx (kvs.map fun p => ((n, i, p.1), p.2))) := by
  induction kvs with
  | nil =>
    intro s idx h ha
    refine ⟨s, ?_, h⟩
    unfold update
    have : (fun d : List (String × Val) => dupdate d []) = id := rfl
    rw [this, List.modify_id]
  | cons p r ih =>
    intro s idx h ha
    have h1 := update_one h ha p.1 p.2
    obtain ⟨s', e, h2⟩ := ih h1 ha
    refine ⟨s', ?_, h2⟩
    rw [← e]
    unfold update
    simp only [Prod.mk.injEq, NIndex.mk.injEq, and_true, true_and]
    rw [List.modify_modify_eq]
    rfl

theorem readKey_of {s : NIndex} {idx : Index} (h : Rep s idx) {n : String} {i : Val} {a : Nat} (ha : s.addr n i = some a)
    (k : String) : readKey a k s = (match dget idx (n, i, k) with | some v => .ok v | none => .error .keyError, s) := by
  have := h.same n i k
  unfold look at this
  rw [ha, Option.bind_some] at this
  unfold readKey
  rw [this]
  cases dget idx (n, i, k) <;> rfl

/-- the same outcome on both indexes, which hold the same afterwards -/
def Agree {α : Type} (x : Except Err α × NIndex) (y : Except Err α × Index) : Prop := x.1 = y.1 ∧ Rep x.2 y.2

theorem writeRows_of {n : String} {names : List String} (l : List (Val × List Val)) : ∀ {s : NIndex} {idx : Index}, Rep s idx →
    ∃ s', writeRows n names l s = (.ok (), s') ∧ Rep s' (storeRows idx n names l) := by
  induction l with
  | nil => exact fun h => ⟨_, rfl, h⟩
  | cons p r ih =>
    intro s idx h
    obtain ⟨i, row⟩ := p
    obtain ⟨a, s1, e1, h1, ha⟩ := getObj_of h n i
    obtain ⟨s2, e2, h2⟩ := update_of (names.zip row) h1 ha
    obtain ⟨s3, e3, h3⟩ := ih h2
    refine ⟨s3, ?_, ?_⟩
    · unfold writeRows
      rw [bind_of e1, bind_of e2, e3]
    · rw [storeRows]
      exact h3

theorem storeFields_of {s : NIndex} {idx : Index} (h : Rep s idx) (node : GNode) (qfs : List QItem) (ids : Option (List Val))
    (result : Val) :
    Agree (storeFields H node qfs ids result s) ((storeFieldsFx H idx node qfs ids result).2, (storeFieldsFx H idx node qfs ids result).1) := by
  unfold storeFields storeFieldsFx
  cases hc : checkStoreFields node qfs.length ids result with
  | error e => exact ⟨rfl, h⟩
  | ok rows =>
    rw [bind_of (m := lift (.ok rows)) (s' := s) rfl]
    dsimp only
    cases node.name with
    | some n =>
      cases ids with
      | none => exact ⟨rfl, h⟩
      | some ids =>
        dsimp only
        obtain ⟨s1, e1, h1⟩ := getNode_of h n
        obtain ⟨s2, e2, h2⟩ := writeRows_of (names := qfs.map (QItem.indexKey H)) (n := n) (ids.zip rows) h1
        rw [bind_of e1, e2]
        exact ⟨rfl, h2⟩
    | none =>
      cases ids with
      | some ids => exact ⟨rfl, h⟩
      | none =>
        dsimp only
        match rows with
        | [] => exact ⟨rfl, h⟩
        | [row] =>
          dsimp only
          obtain ⟨a, s1, e1, h1, ha⟩ := getRoot_of h
          obtain ⟨s2, e2, h2⟩ := update_of ((qfs.map (QItem.indexKey H)).zip row) h1 ha
          rw [bind_of e1, e2]
          exact ⟨rfl, h2⟩
        | _ :: _ :: _ => exact ⟨rfl, h⟩

theorem writeLinks_of {n : String} {gl : GLink} {key : String} (l : List (Val × Val)) : ∀ {s : NIndex} {idx : Index}, Rep s idx →
    Agree (writeLinks n gl key l s) ((storeLinkRowsFx idx n gl key l).2, (storeLinkRowsFx idx n gl key l).1) := by
  induction l with
  | nil => exact fun h => ⟨rfl, h⟩
  | cons p r ih =>
    intro s idx h
    obtain ⟨i, res⟩ := p
    unfold writeLinks storeLinkRowsFx
    cases hl : linkRef gl res with
    | error e => exact ⟨rfl, h⟩
    | ok v =>
      rw [bind_of (m := lift (.ok v)) (s' := s) rfl]
      obtain ⟨a, s1, e1, h1, ha⟩ := getObj_of h n i
      obtain ⟨s2, e2, h2⟩ := update_of [(key, v)] h1 ha
      rw [bind_of e1, bind_of e2]
      exact ih h2

theorem storeLinks_of {s : NIndex} {idx : Index} (h : Rep s idx) (node : GNode) (gl : GLink) (ql : QItem) (ids : Option (List Val))
    (result : Val) :
    Agree (storeLinks H node gl ql ids result s) ((storeLinksFx H idx node gl ql ids result).2, (storeLinksFx H idx node gl ql ids result).1) := by
  unfold storeLinks storeLinksFx
  cases hc : checkStoreLinks node gl ids result with
  | error e => exact ⟨rfl, h⟩
  | ok u =>
    rw [bind_of (m := lift (.ok u)) (s' := s) rfl]
    cases node.name with
    | some n =>
      cases ids with
      | none => exact ⟨rfl, h⟩
      | some ids =>
        dsimp only
        obtain ⟨s1, e1, h1⟩ := getNode_of h n
        rw [bind_of e1]
        exact writeLinks_of _ h1
    | none =>
      dsimp only
      cases hl : linkRef gl result with
      | error e => exact ⟨rfl, h⟩
      | ok v =>
        rw [bind_of (m := lift (.ok v)) (s' := s) rfl]
        obtain ⟨a, s1, e1, h1, ha⟩ := getRoot_of h
        obtain ⟨s2, e2, h2⟩ := update_of [(ql.indexKey H, v)] h1 ha
        rw [bind_of e1, e2]
        exact ⟨rfl, h2⟩

theorem readReqs_of {n req : String} (ids : List Val) : ∀ {s : NIndex} {idx : Index}, Rep s idx →
    Agree (readReqs n req ids s) (ids.mapM (fun i => match dget idx (n, i, req) with
      | none => .error Err.keyError
      | some v => .ok v), idx) := by
  induction ids with
  | nil => exact fun h => ⟨rfl, h⟩
  | cons i r ih =>
    intro s idx h
    obtain ⟨a, s1, e1, h1, ha⟩ := getObj_of h n i
    have hr := readKey_of h1 ha req
    unfold readReqs
    rw [bind_of e1, List.mapM_cons]
    cases hd : dget idx (n, i, req) with
    | none =>
      rw [hd] at hr
      rw [bind_err hr]
      exact ⟨rfl, h1⟩
    | some v =>
      rw [hd] at hr
      rw [bind_of hr]
      obtain ⟨h2, h3⟩ := ih h1
      cases hx : readReqs n req r s1 with
      | mk x s2 =>
        rw [hx] at h2 h3
        dsimp only at h2
        cases x with
        | error e =>
          rw [bind_err hx, ← h2]
          exact ⟨rfl, h3⟩
        | ok vs =>
          rw [bind_of hx, ← h2]
          exact ⟨rfl, h3⟩

theorem linkReqs_of {s : NIndex} {idx : Index} (h : Rep s idx) (node : GNode) (req : String) (ids : Option (List Val)) :
    Agree (linkReqs node req ids s) (Hiku.linkReqs idx node req ids, idx) := by
  unfold linkReqs Hiku.linkReqs
  cases node.name with
  | some n =>
    cases ids with
    | none => exact ⟨rfl, h⟩
    | some ids =>
      dsimp only
      obtain ⟨s1, e1, h1⟩ := getNode_of h n
      rw [bind_of e1]
      obtain ⟨h2, h3⟩ := readReqs_of (n := n) (req := req) ids h1
      cases hx : readReqs n req ids s1 with
      | mk x s2 =>
        rw [hx] at h2 h3
        dsimp only at h2
        cases x with
        | error e =>
          rw [bind_err hx]
          exact ⟨congrArg (fun x : Except Err (List Val) => x >>= fun vs => Except.ok (Val.list vs)) h2, h3⟩
        | ok vs =>
          rw [bind_of hx]
          exact ⟨congrArg (fun x : Except Err (List Val) => x >>= fun vs => Except.ok (Val.list vs)) h2, h3⟩
  | none =>
    dsimp only
    obtain ⟨a, s1, e1, h1, ha⟩ := getRoot_of h
    have hr := readKey_of h1 ha req
    rw [bind_of e1, hr]
    refine ⟨?_, h1⟩
    cases dget idx (rootName, rootIdent, req) <;> rfl

theorem step_of {s : NIndex} {idx : Index} (h : Rep s idx) (op : Op) : Agree (nstep H op s) (fstep H op idx) := by
  cases op with
  | fields node qfs ids result =>
    obtain ⟨h1, h2⟩ := storeFields_of (H := H) h node qfs ids result
    unfold nstep fstep
    dsimp only at h1 h2 ⊢
    rw [← h1]
    cases hx : storeFields H node qfs ids result s with
    | mk x s' =>
      rw [hx] at h2
      cases x with
      | error e => rw [bind_err hx]; exact ⟨rfl, h2⟩
      | ok v => rw [bind_of hx]; exact ⟨rfl, h2⟩
  | links node gl ql ids result =>
    obtain ⟨h1, h2⟩ := storeLinks_of (H := H) h node gl ql ids result
    unfold nstep fstep
    dsimp only at h1 h2 ⊢
    rw [← h1]
    cases hx : storeLinks H node gl ql ids result s with
    | mk x s' =>
      rw [hx] at h2
      cases x with
      | error e => rw [bind_err hx]; exact ⟨rfl, h2⟩
      | ok v => rw [bind_of hx]; exact ⟨rfl, h2⟩
  | reqs node req ids =>
    obtain ⟨h1, h2⟩ := linkReqs_of h node req ids
    unfold nstep fstep
    dsimp only at h1 h2 ⊢
    rw [← h1]
    cases hx : linkReqs node req ids s with
    | mk x s' =>
      rw [hx] at h2
      cases x with
      | error e => rw [bind_err hx]; exact ⟨rfl, h2⟩
      | ok v => rw [bind_of hx]; exact ⟨rfl, h2⟩

theorem rep_empty : Rep {} [] :=
  ⟨⟨fun _ _ _ e => (by cases e), fun _ _ _ _ _ e => (by cases e), fun _ e => (by cases e)⟩, rfl, fun _ _ _ => rfl⟩

theorem run_of (ops : List Op) : ∀ {s : NIndex} {idx : Index}, Rep s idx →
    (nrun H ops s).1 = (frun H ops idx).1 ∧ Rep (nrun H ops s).2 (frun H ops idx).2 := by
  induction ops with
  | nil => exact fun h => ⟨rfl, h⟩
  | cons op r ih =>
    intro s idx h
    obtain ⟨h1, h2⟩ := step_of (H := H) h op
    obtain ⟨h3, h4⟩ := ih h2
    exact ⟨by rw [nrun, frun, h1, h3], h4⟩

theorem look_some {s : NIndex} {n : String} {i : Val} {k : String} {v : Val} (e : look s n i k = some v) :
    ∃ a, s.addr n i = some a ∧ ((s.dicts[a]?).bind fun d => dget d k) = some v := by
  unfold look at e
  cases ha : s.addr n i with
  | none => rw [ha] at e; cases e
  | some a =>
    rw [ha, Option.bind_some] at e
    exact ⟨a, rfl, e⟩

/-- a proxy over the finished index -/
theorem proxyCell_of {s : NIndex} {idx : Index} (h : Rep s idx) (n : String) (i : Val) (q : QNode) (key : String) :
    proxyCell H n i q key (finish s) = (Hiku.proxyCell H idx n i q key, finish s) := by
  unfold proxyCell Hiku.proxyCell
  cases dget q.resultMap key with
  | none => rfl
  | some f =>
    dsimp only
    have hs := h.same n i (f.indexKey H)
    by_cases hd : dhas s.nodes n = true
    · have e1 : getNode n (finish s) = (.ok (), finish s) := by
        unfold getNode
        rw [if_pos (show dhas (finish s).nodes n = true from hd)]
      rw [bind_of e1]
      cases ha : s.addr n i with
      | none =>
        have e2 : getObj n i (finish s) = (.error .keyError, finish s) := by
          unfold getObj
          rw [show (finish s).addr n i = none from ha]
          rfl
        rw [e2]
        have : dget idx (n, i, f.indexKey H) = none := by
          rw [← hs]
          unfold look
          rw [ha]
          rfl
        rw [this]
      | some a =>
        have e2 : getObj n i (finish s) = (.ok a, finish s) := by
          unfold getObj
          rw [show (finish s).addr n i = some a from ha]
        rw [e2]
        dsimp only
        have hr := readKey_of h ha (f.indexKey H)
        have hr' : readKey a (f.indexKey H) (finish s) = (match dget idx (n, i, f.indexKey H) with
            | some v => .ok v | none => .error .keyError, finish s) := by
          unfold readKey at hr ⊢
          show (match ((s.dicts[a]?).bind fun d => dget d (f.indexKey H) : Option Val) with
            | some v => ((.ok v, finish s) : Except Err Val × NIndex) | none => (.error .keyError, finish s)) = _
          cases hb : ((s.dicts[a]?).bind fun d => dget d (f.indexKey H) : Option Val) with
          | none => rw [hb] at hr; rw [← (Prod.mk.inj hr).1]
          | some v => rw [hb] at hr; rw [← (Prod.mk.inj hr).1]
        rw [hr']
        cases dget idx (n, i, f.indexKey H) <;> rfl
    · have e1 : getNode n (finish s) = (.error .keyError, finish s) := by
        unfold getNode
        rw [if_neg (show ¬ dhas (finish s).nodes n = true from hd), if_pos (show (finish s).finished = true from rfl)]
      rw [bind_err e1]
      have : dget idx (n, i, f.indexKey H) = none := by
        rw [← hs]
        cases hl : look s n i (f.indexKey H) with
        | none => rfl
        | some v =>
          obtain ⟨a, ha, _⟩ := look_some hl
          unfold NIndex.addr at ha
          obtain ⟨d, hd', _⟩ := Option.bind_eq_some_iff.1 ha
          exact absurd (dhas_iff.2 ⟨d, hd'⟩) hd
      rw [this]

/-- **C72**: whatever is stored and read, in any order and with any failures, the nested index of default dicts with its cached
root gives what the flat index gives, also for every proxy at the end. -/
theorem c72_outcomes (ops : List Op) : (nrun H ops {}).1 = (frun H ops []).1 := (run_of ops rep_empty).1

/-- C72: every read through a proxy gives the same, in any order and repeatedly: reading changes nothing. -/
theorem c72_proxy (ops : List Op) (n : String) (i : Val) (q : QNode) (key : String) :
    proxyCell H n i q key (finish (nrun H ops {}).2) =
      (Hiku.proxyCell H (frun H ops []).2 n i q key, finish (nrun H ops {}).2) :=
  proxyCell_of (run_of ops rep_empty).2 n i q key

/-- C72: no two objects share a dict: what is stored for one object is not seen in another one. -/
theorem c72_separate (ops : List Op) {n n' : String} {i i' : Val} {a : Nat}
    (h1 : (nrun H ops {}).2.addr n i = some a) (h2 : (nrun H ops {}).2.addr n' i' = some a) : n = n' ∧ i = i' :=
  (run_of (H := H) ops rep_empty).2.inv.inj _ _ _ _ _ h1 h2

/-! ### example: a failing read makes an empty object, which nobody sees -/

def exOps : List Op :=
  [.reqs exHighTrack "x" (some [.int 7]), .fields exHighTrack [.field "label" none none] (some [.int 1, .int 2])
    (.list [.list [.str "a"], .list [.str "b"]]), .reqs exHighTrack "label" (some [.int 2, .int 1])]

example : (nrun exEnv.H exOps {}).1 = [.error .keyError, .ok none, .ok (some (.list [.str "b", .str "a"]))] := by
  rw [c72_outcomes]
  decide +kernel

example : ((nrun exEnv.H exOps {}).2.addr "Track" (.int 7)).isSome := by decide +kernel

example : (proxyCell exEnv.H "Track" (.int 7) (.mk [.field "label" none none] false) "label" (finish (nrun exEnv.H exOps {}).2)).1 =
    .error .assertionError := by
  rw [c72_proxy]
  rfl

example : (proxyCell exEnv.H "Track" (.int 2) (.mk [.field "label" none none] false) "label" (finish (nrun exEnv.H exOps {}).2)).1 =
    .ok (.field "label" none none, .str "b") := by
  rw [c72_proxy]
  rfl

end Hiku.NIdx
