import Verif.Spec.Types
import Verif.Proofs.Basic
import Verif.Proofs.Dict
import Verif.Props.Edn

/-! # C66: the notation of types makes the types which are written -/

namespace Hiku.Types
open Hiku

/-- the value of the notation -/
def TExpr.val (e : TExpr) : PyT :=
  match e with
  | .name s => .str s
  | e => ofTy e.ty

theorem maybeRef_ofTy (t : Ty) : maybeRef (ofTy t) = ofTy t := by cases t <;> simp [ofTy, maybeRef]

theorem maybeRef_val (e : TExpr) : maybeRef e.val = ofTy e.ty := by
  cases e <;> first | exact maybeRef_ofTy _ | (simp [TExpr.val, TExpr.ty, maybeRef, ofTy])

/-- a dict with strings for keys -/
def lift (d : List (String × PyT)) : List (PyT × PyT) := d.map fun kv => (.str kv.1, kv.2)

theorem dsetEq_lift (d : List (String × PyT)) (k : String) (v : PyT) :
    recordFields.dsetEq (lift d) (.str k) v = lift (dset d k v) := by
  induction d with
  | nil => rfl
  | cons kv r ih =>
    obtain ⟨k', v'⟩ := kv
    simp only [lift, List.map_cons, recordFields.dsetEq, pyEq, dset, decide_eq_true_eq] at ih ⊢
    by_cases h : k' = k
    · simp [h]
    · simp [h, ih]

theorem literal_lift (l : List (String × PyT)) : literal (lift l) = lift (dmk l) := by
  have : ∀ (l d : List (String × PyT)), (lift l).foldl (fun d kv => recordFields.dsetEq d kv.1 kv.2) (lift d) = lift (dupdate d l) := by
    intro l
    induction l with
    | nil => intro d; rfl
    | cons kv r ih =>
      intro d
      have e : lift (kv :: r) = (.str kv.1, kv.2) :: lift r := rfl
      rw [e, List.foldl_cons, dsetEq_lift, ih]
      rfl
  exact this l []

theorem recordFields_lift (l : List (String × PyT)) : ∀ d : List (String × PyT),
    recordFields (lift d) ((lift l).map fun kv => .tup [kv.1, kv.2]) =
      .ok (lift (dupdate d (l.map fun kv => (kv.1, maybeRef kv.2)))) := by
  induction l with
  | nil => intro d; rfl
  | cons kv r ih =>
    intro d
    have e : lift (kv :: r) = (.str kv.1, kv.2) :: lift r := rfl
    rw [e, List.map_cons, recordFields]
    simp only [unpack2, iter, ok_bind', PyT.hashable, if_true]
    rw [dsetEq_lift, ih]
    rfl

theorem dset_mapv {α β : Type} (f : α → β) (d : List (String × α)) (k : String) (v : α) :
    dset (d.map fun kv => (kv.1, f kv.2)) k (f v) = (dset d k v).map fun kv => (kv.1, f kv.2) := by
  induction d with
  | nil => rfl
  | cons kv r ih =>
    simp only [List.map_cons, dset]
    split
    · rfl
    · simp [ih]

theorem dmk_mapv {α β : Type} (f : α → β) (l : List (String × α)) :
    dmk (l.map fun kv => (kv.1, f kv.2)) = (dmk l).map fun kv => (kv.1, f kv.2) := by
  have : ∀ (l d : List (String × α)), dupdate (d.map fun kv => (kv.1, f kv.2)) (l.map fun kv => (kv.1, f kv.2)) =
      (dupdate d l).map fun kv => (kv.1, f kv.2) := by
    intro l
    induction l with
    | nil => intro d; rfl
    | cons kv r ih =>
      intro d
      have := ih (dset d kv.1 kv.2)
      rw [← dset_mapv] at this
      exact this
  exact this l []

theorem ofFields_eq (fs : List (String × Ty)) : ofFields fs = lift (fs.map fun kv => (kv.1, ofTy kv.2)) := by
  induction fs with
  | nil => rfl
  | cons kv r ih => obtain ⟨k, t⟩ := kv; simp only [ofFields, ih]; rfl

theorem tyFields_eq (fs : List (String × TExpr)) : tyFields fs = fs.map fun kv => (kv.1, kv.2.ty) := by
  induction fs with
  | nil => rfl
  | cons kv r ih => obtain ⟨k, t⟩ := kv; simp only [tyFields, ih]; rfl

theorem tyArgs_eq (l : List TExpr) : tyArgs l = l.map TExpr.ty := by
  induction l with
  | nil => rfl
  | cons e r ih => simp only [tyArgs, ih]; rfl

theorem ofTys_eq (l : List Ty) : ofTys l = l.map ofTy := by
  induction l with
  | nil => rfl
  | cons e r ih => simp only [ofTys, ih]; rfl

theorem fields_eq (fs : List (String × TExpr)) :
    lift (dmk (fs.map fun kv => (kv.1, ofTy kv.2.ty))) = ofFields (dmk (tyFields fs)) := by
  rw [ofFields_eq, tyFields_eq, ← dmk_mapv, List.map_map]; rfl

mutual
theorem eval_val : (e : TExpr) → e.eval = some (.ok e.val)
  | .any | .boolean | .string | .integer | .float => rfl
  | .name _ | .typeref _ => rfl
  | .optional e => by
    simp only [TExpr.eval, eval_val e, Out.bind, getitem, base, clsInit, maybeRef_val]; rfl
  | .sequence e => by
    simp only [TExpr.eval, eval_val e, Out.bind, getitem, base, clsInit, maybeRef_val]; rfl
  | .mapping k v => by
    simp only [TExpr.eval, eval_val k, eval_val v, Out.bind, getitem, base, clsInit, unpack2, iter, ok_bind', maybeRef_val]; rfl
  | .record fs => by
    have e : fs.map (fun kv => (kv.1, maybeRef kv.2.val)) = fs.map (fun kv => (kv.1, ofTy kv.2.ty)) := by
      simp only [maybeRef_val]
    simp only [TExpr.eval, evalFields_val fs, Out.bind, getitem, base, clsInit, literal_lift]
    have h := recordFields_lift (dmk (fs.map fun kv => (kv.1, kv.2.val))) []
    have e2 : dupdate [] ((dmk (fs.map fun kv => (kv.1, kv.2.val))).map fun kv => (kv.1, maybeRef kv.2)) =
        dmk (fs.map fun kv => (kv.1, ofTy kv.2.ty)) := by
      rw [← dmk_mapv, List.map_map]
      change dmk (dmk (fs.map fun kv => (kv.1, maybeRef kv.2.val))) = _
      rw [e, dmk_nodup (nodup_dmk _)]
    rw [e2] at h
    have h' : recordFields [] ((lift (dmk (fs.map fun kv => (kv.1, kv.2.val)))).map fun kv => .tup [kv.1, kv.2]) =
      .ok (lift (dmk (fs.map fun kv => (kv.1, ofTy kv.2.ty)))) := h
    rw [h', fields_eq]
    rfl
  | .pairs fs => by
    have e : fs.map (fun kv => (kv.1, maybeRef kv.2.val)) = fs.map (fun kv => (kv.1, ofTy kv.2.ty)) := by
      simp only [maybeRef_val]
    simp only [TExpr.eval, evalFields_val fs, Out.bind, getitem, base, clsInit, iter]
    have h := recordFields_lift (fs.map fun kv => (kv.1, kv.2.val)) []
    rw [List.map_map] at h
    have h' : recordFields [] ((lift (fs.map fun kv => (kv.1, kv.2.val))).map fun kv => .tup [kv.1, kv.2]) =
      .ok (lift (dmk (fs.map fun kv => (kv.1, maybeRef kv.2.val)))) := h
    rw [h', e, fields_eq]
    rfl
  | .callable args => by
    simp only [TExpr.eval, evalArgs_val args, Out.bind, getitem, base, clsInit, toTup, iter, List.map_map]
    have : args.map (maybeRef ∘ TExpr.val) = ofTys (tyArgs args) := by
      rw [ofTys_eq, tyArgs_eq, List.map_map]
      exact List.map_congr_left fun e _ => maybeRef_val e
    rw [this]; rfl
theorem evalFields_val : (fs : List (String × TExpr)) → evalFields fs = some (.ok (lift (fs.map fun kv => (kv.1, kv.2.val))))
  | [] => rfl
  | (k, e) :: r => by
    simp only [evalFields, eval_val e, evalFields_val r, Out.bind]; rfl
theorem evalArgs_val : (l : List TExpr) → evalArgs l = some (.ok (l.map TExpr.val))
  | [] => rfl
  | e :: r => by
    simp only [evalArgs, eval_val e, evalArgs_val r, Out.bind]; rfl
end

/-- **C66.**  The notation makes the class of the type which is written, with references for names. -/
theorem c66_written (e : TExpr) (h : e.isName = false) : e.eval = some (.ok (ofTy e.ty)) := by
  rw [eval_val]
  cases e <;> first | rfl | cases h

mutual
theorem pyEq_ofTy : (a b : Ty) → (pyEq (ofTy a) (ofTy b) = true ↔ a = b)
  | .any, b => by cases b <;> simp [ofTy, pyEq, pyAttrs]
  | .boolean, b => by cases b <;> simp [ofTy, pyEq, pyAttrs]
  | .string, b => by cases b <;> simp [ofTy, pyEq, pyAttrs]
  | .integer, b => by cases b <;> simp [ofTy, pyEq, pyAttrs]
  | .float, b => by cases b <;> simp [ofTy, pyEq, pyAttrs]
  | .optional a, b => by
    cases b with
    | optional b => simp [ofTy, pyEq, pyAttrs, dget, pyEq_ofTy a b]
    | _ => simp [ofTy, pyEq]
  | .sequence a, b => by
    cases b with
    | sequence b => simp [ofTy, pyEq, pyAttrs, dget, pyEq_ofTy a b]
    | _ => simp [ofTy, pyEq]
  | .record a, b => by
    cases b with
    | record b => simp [ofTy, pyEq, pyAttrs, dget, pyItems_ofFields a b]
    | _ => simp [ofTy, pyEq]
  | .callable a, b => by
    cases b with
    | callable b => simp [ofTy, pyEq, pyAttrs, dget, pyEqs_ofTys a b]
    | _ => simp [ofTy, pyEq]
  | .ref a, b => by
    cases b with
    | ref b => simp [ofTy, pyEq, pyAttrs, dget]
    | _ => simp [ofTy, pyEq]
  | .mapping a a', b => by
    cases b with
    | mapping b b' => simp [ofTy, pyEq, pyAttrs, dget, pyEq_ofTy a b, pyEq_ofTy a' b']
    | _ => simp [ofTy, pyEq]
theorem pyItems_ofFields : (a b : List (String × Ty)) → (pyItems (ofFields a) (ofFields b) = true ↔ a = b)
  | [], [] => by simp [ofFields, pyItems]
  | [], (_, _) :: _ => by simp [ofFields, pyItems]
  | (_, _) :: _, [] => by simp [ofFields, pyItems]
  | (k, a) :: r, (k', b) :: s => by
    simp [ofFields, pyItems, pyEq, pyEq_ofTy a b, pyItems_ofFields r s]
theorem pyEqs_ofTys : (a b : List Ty) → (pyEqs (ofTys a) (ofTys b) = true ↔ a = b)
  | [], [] => by simp [ofTys, pyEqs]
  | [], _ :: _ => by simp [ofTys, pyEqs]
  | _ :: _, [] => by simp [ofTys, pyEqs]
  | a :: r, b :: s => by
    simp [ofTys, pyEqs, pyEq_ofTy a b, pyEqs_ofTys r s]
end

/-- **C66.**  `==` of types is structural: two types are equal exactly when they are built in the same way from the same names,
the fields of records in the same order. -/
theorem c66_equal (a b : Ty) : pyEq (ofTy a) (ofTy b) = true ↔ a = b := pyEq_ofTy a b

/-- **C66.**  Two notations make equal types exactly when they mean the same type. -/
theorem c66_same {e e' : TExpr} {a b : PyT} (h : e.isName = false) (h' : e'.isName = false) (ha : e.eval = some (.ok a))
    (hb : e'.eval = some (.ok b)) : pyEq a b = true ↔ e.ty = e'.ty := by
  rw [c66_written e h] at ha
  rw [c66_written e' h'] at hb
  cases ha
  cases hb
  exact c66_equal _ _

/-- **C66.**  A type with parameters takes no more parameters: `t[...][...]` raises TypeError whatever they are. -/
theorem c66_final {t p t' : PyT} (h : getitem t p = some (.ok t')) (p' : PyT) : getitem t' p' = some (.error .typeError) := by
  unfold getitem at h
  split at h
  · rename_i m attrs
    split at h
    · cases h
    · split at h
      · cases h
        rename_i new hi
        have hm : m.typing = true := by cases m <;> first | rfl | (simp [clsInit] at hi)
        simp [getitem, hm, isFinal]
      · cases h
      · cases h
  · cases h

/-- **C66.**  A type with parameters is not equal to the type without. -/
theorem c66_bare {m : Meta} {p t : PyT} (h : getitem (base m) p = some (.ok t)) : pyEq t (base m) = false ∧ pyEq (base m) t = false := by
  simp only [getitem, base] at h
  split at h
  · cases h
  · split at h
    · cases h
      simp [base, pyEq]
    · cases h
    · cases h

/-- **C66.**  The parameters which are taken.  Optional, Sequence and TypeRef take any object. -/
theorem c66_single {m : Meta} (hm : m = .optional ∨ m = .sequence ∨ m = .typeref) (p : PyT) :
    ∃ t, getitem (base m) p = some (.ok t) := by
  rcases hm with rfl | rfl | rfl <;> exact ⟨_, rfl⟩

/-- the objects with the given items: tuples, lists, the characters of a string, the keys of a dict -/
inductive Holds : PyT → List PyT → Prop where
  | tup {xs} : Holds (.tup xs) xs
  | list {xs} : Holds (.list xs) xs
  | str {s : String} : Holds (.str s) (s.toList.map fun c => .str (String.singleton c))
  | dict {kvs} : Holds (.dict kvs) (kvs.map (·.1))
  | odict {kvs} : Holds (.odict kvs) (kvs.map (·.1))

theorem holds_iff {p : PyT} {xs : List PyT} : Holds p xs ↔ iter p = .items xs := by
  constructor
  · intro h; cases h <;> rfl
  · intro h
    cases p with
    | cls m attrs =>
      simp only [iter] at h
      split at h
      · cases h
      · split at h <;> cases h
    | true => cases h
    | other => cases h
    | str s => cases h; exact .str
    | tup xs => cases h; exact .tup
    | list xs => cases h; exact .list
    | dict kvs => cases h; exact .dict
    | odict kvs => cases h; exact .odict

/-- Mapping takes an object with two items (also a string of two characters) -/
theorem c66_mapping {p t : PyT} : getitem (base .mapping) p = some (.ok t) ↔ ∃ k v, Holds p [k, v] ∧
    t = .cls .mapping [("__key_type__", maybeRef k), ("__value_type__", maybeRef v), ("__final__", .true)] := by
  simp only [getitem, base, isFinal, clsInit, unpack2, holds_iff]
  cases hi : iter p with
  | items xs =>
    rcases xs with _ | ⟨a, _ | ⟨b, _ | ⟨c, r⟩⟩⟩
    · simp
    · simp
    · simp [eq_comm]
    · simp
  | raises e => simp
  | endless f => simp

/-- Callable takes an object with any number of items -/
theorem c66_callable {p t : PyT} : getitem (base .callable) p = some (.ok t) ↔ ∃ xs, Holds p xs ∧
    t = .cls .callable [("__arg_types__", .list (xs.map maybeRef)), ("__final__", .true)] := by
  simp only [getitem, base, isFinal, clsInit, holds_iff]
  cases hi : iter p with
  | items xs => simp [eq_comm]
  | raises e => simp
  | endless f => simp

theorem clsInit_record (p : PyT) : ∃ r, clsInit .record p = some r := by
  unfold clsInit
  simp only
  split
  · exact ⟨_, rfl⟩
  · exact ⟨_, rfl⟩
  · split <;> exact ⟨_, rfl⟩

theorem recordFields_ok (l : List PyT) : ∀ d, (∃ r, recordFields d l = .ok r) ↔ ∀ x ∈ l, ∃ k v, Holds x [k, v] ∧ k.hashable = true := by
  induction l with
  | nil => intro d; simp [recordFields]
  | cons x l ih =>
    intro d
    simp only [recordFields, List.mem_cons, forall_eq_or_imp]
    have hx : (∃ k v, Holds x [k, v] ∧ k.hashable = true) ↔ ∃ kv, unpack2 x = .ok kv ∧ kv.1.hashable = true := by
      simp only [holds_iff, unpack2]
      cases hi : iter x with
      | items xs =>
        rcases xs with _ | ⟨a, _ | ⟨b, _ | ⟨c, r⟩⟩⟩ <;> simp
      | raises e => simp
      | endless f => simp
    rw [hx]
    cases hu : unpack2 x with
    | error e => simp
    | ok kv =>
      simp only [ok_bind']
      by_cases hh : kv.1.hashable = true
      · simp [hh, ih]
      · simp [hh]

/-- Record takes a dict, or an object whose items are pairs (objects with two items); the first of a pair can be a key of a
dict -/
theorem c66_record {p : PyT} : (∃ t, getitem (base .record) p = some (.ok t)) ↔
    (∃ kvs, (p = .dict kvs ∨ p = .odict kvs) ∧ ∀ kv ∈ kvs, kv.1.hashable = true) ∨
    ((∀ kvs, p ≠ .dict kvs ∧ p ≠ .odict kvs) ∧ ∃ xs, Holds p xs ∧ ∀ x ∈ xs, ∃ k v, Holds x [k, v] ∧ k.hashable = true) := by
  have hd : ∀ kvs : List (PyT × PyT), (∃ r, recordFields [] (kvs.map fun kv => .tup [kv.1, kv.2]) = .ok r) ↔
      ∀ kv ∈ kvs, kv.1.hashable = true := by
    intro kvs
    rw [recordFields_ok]
    simp only [List.mem_map, forall_exists_index, and_imp, forall_apply_eq_imp_iff₂, holds_iff, iter]
    exact ⟨fun h kv hkv => by obtain ⟨k, v, h1, h2⟩ := h kv hkv; cases h1; exact h2,
      fun h kv hkv => ⟨kv.1, kv.2, rfl, h kv hkv⟩⟩
  have step : ∀ {x : Except Err (List (PyT × PyT))}, clsInit .record p = some (do
      let d ← x
      .ok [("__field_types__", .odict d)]) → ((∃ t, getitem (base .record) p = some (.ok t)) ↔ ∃ r, x = .ok r) := by
    intro x h
    simp only [getitem, base, isFinal, h]
    cases x <;> simp
  have bad : ∀ {e : Err}, clsInit .record p = some (.error e) → ¬ ∃ t, getitem (base .record) p = some (.ok t) := by
    intro e h
    simp only [getitem, base, isFinal, h]
    simp
  cases p with
  | dict kvs => rw [step rfl, hd]; simp
  | odict kvs => rw [step rfl, hd]; simp
  | tup xs => rw [step rfl, recordFields_ok]; simp [holds_iff, iter]
  | list xs => rw [step rfl, recordFields_ok]; simp [holds_iff, iter]
  | str s => rw [step rfl, recordFields_ok]; simp [holds_iff, iter]
  | cls m attrs =>
    have h1 : ∀ xs, ¬ Holds (.cls m attrs) xs := by intro xs h; cases h
    have h2 : ∀ n, unpack2 (single m (.other n)) = .error .typeError := by
      intro n; cases m <;> rfl
    refine iff_of_false (bad (e := .typeError) ?_) ?_
    · have h2' := h2 0
      simp only [clsInit, iter]
      by_cases hf : isFinal attrs = true
      · simp [hf]
      · cases m <;> simp [hf, h2']
    · rintro (⟨kvs, h | h, -⟩ | ⟨-, xs, h, -⟩)
      · cases h
      · cases h
      · exact h1 xs h
  | true =>
    refine iff_of_false (bad (e := .typeError) rfl) ?_
    rintro (⟨kvs, h | h, -⟩ | ⟨-, xs, h, -⟩) <;> cases h
  | other n =>
    refine iff_of_false (bad (e := .typeError) rfl) ?_
    rintro (⟨kvs, h | h, -⟩ | ⟨-, xs, h, -⟩) <;> cases h

/-- **C66** (finding 49).  `Callable[Sequence]`, and the same with Optional and TypeRef, never ends: the class is iterated over
by `Sequence[0]`, `Sequence[1]`, ...  These are the only parameters for which it does not end. -/
theorem c66_endless (m : Meta) (p : PyT) : getitem (base m) p = none ↔
    m = .callable ∧ ∃ m' attrs, p = .cls m' attrs ∧ isFinal attrs = false ∧ (m' = .optional ∨ m' = .sequence ∨ m' = .typeref) := by
  have hit : (∃ f, iter p = .endless f) ↔ ∃ m' attrs, p = .cls m' attrs ∧ isFinal attrs = false ∧ (m' = .optional ∨ m' = .sequence ∨ m' = .typeref) := by
    constructor
    · rintro ⟨f, h⟩
      cases p with
      | cls m' attrs =>
        simp only [iter] at h
        split at h
        · cases h
        · rename_i hf
          refine ⟨m', attrs, rfl, by simpa using hf, ?_⟩
          split at h <;> first | (cases h; done) | simp
      | _ => cases h
    · rintro ⟨m', attrs, rfl, hf, rfl | rfl | rfl⟩ <;> exact ⟨_, by simp only [iter, hf]; rfl⟩
  cases m with
  | callable =>
    rw [← hit]
    simp only [getitem, base, isFinal, clsInit, true_and]
    cases hi : iter p <;> simp
  | record =>
    obtain ⟨r, hr⟩ := clsInit_record p
    simp only [getitem, base, isFinal, hr]
    cases r <;> simp
  | mapping =>
    simp only [getitem, base, isFinal, clsInit]
    cases unpack2 p <;> simp
  | _ => simp [getitem, base, isFinal, clsInit, Meta.typing]

/-! ### Equality of types with arbitrary parameters -/

/-- `==` of the two types which Optional, Sequence or TypeRef make of any two objects: the same class and equal parameters -/
theorem c66_single_equal {m m' : Meta} (hm : m = .optional ∨ m = .sequence) (hm' : m' = .optional ∨ m' = .sequence)
    {p p' t t' : PyT} (h : getitem (base m) p = some (.ok t)) (h' : getitem (base m') p' = some (.ok t')) :
    pyEq t t' = true ↔ m = m' ∧ pyEq (maybeRef p) (maybeRef p') = true := by
  rcases hm with rfl | rfl <;> rcases hm' with rfl | rfl <;> (
    simp [getitem, base, isFinal, clsInit] at h h'
    subst h; subst h'
    simp [pyEq, pyAttrs, dget])

/-- the same for Mapping: equal types of the keys and equal types of the values -/
theorem c66_mapping_equal {p p' t t' k v k' v' : PyT} (hp : Holds p [k, v]) (hp' : Holds p' [k', v'])
    (h : getitem (base .mapping) p = some (.ok t)) (h' : getitem (base .mapping) p' = some (.ok t')) :
    pyEq t t' = true ↔ pyEq (maybeRef k) (maybeRef k') = true ∧ pyEq (maybeRef v) (maybeRef v') = true := by
  have e : t = .cls .mapping [("__key_type__", maybeRef k), ("__value_type__", maybeRef v), ("__final__", .true)] := by
    have := c66_mapping.2 ⟨k, v, hp, rfl⟩
    rw [h] at this; simpa using this
  have e' : t' = .cls .mapping [("__key_type__", maybeRef k'), ("__value_type__", maybeRef v'), ("__final__", .true)] := by
    have := c66_mapping.2 ⟨k', v', hp', rfl⟩
    rw [h'] at this; simpa using this
  subst e; subst e'
  simp [pyEq, pyAttrs, dget, Bool.and_eq_true]

theorem pyEqs_iff : ∀ (xs ys : List PyT), pyEqs xs ys = true ↔ List.Forall₂ (fun a b => pyEq a b = true) xs ys
  | [], [] => by simp [pyEqs]
  | [], _ :: _ => by simp [pyEqs]
  | _ :: _, [] => by simp [pyEqs]
  | x :: xs, y :: ys => by simp [pyEqs, pyEqs_iff xs ys]

/-- the same for Callable: the same number of arguments, with equal types in the same order -/
theorem c66_callable_equal {p p' t t' : PyT} {xs ys : List PyT} (hp : Holds p xs) (hp' : Holds p' ys)
    (h : getitem (base .callable) p = some (.ok t)) (h' : getitem (base .callable) p' = some (.ok t')) :
    pyEq t t' = true ↔ List.Forall₂ (fun a b => pyEq (maybeRef a) (maybeRef b) = true) xs ys := by
  have e : t = .cls .callable [("__arg_types__", .list (xs.map maybeRef)), ("__final__", .true)] := by
    have := c66_callable.2 ⟨xs, hp, rfl⟩
    rw [h] at this; simpa using this
  have e' : t' = .cls .callable [("__arg_types__", .list (ys.map maybeRef)), ("__final__", .true)] := by
    have := c66_callable.2 ⟨ys, hp', rfl⟩
    rw [h'] at this; simpa using this
  subst e; subst e'
  simp only [pyEq, pyAttrs, dget]
  simp [pyEqs_iff, List.forall₂_map_left_iff, List.forall₂_map_right_iff, pyEq]

theorem pySub_iff : ∀ (a b : List (PyT × PyT)), pySub a b = true ↔ ∀ x ∈ a, ∃ y ∈ b, pyEq x.1 y.1 = true ∧ pyEq x.2 y.2 = true
  | [], b => by simp [pySub]
  | (k, v) :: r, b => by simp [pySub, pySub_iff r b]

/-- Parameters which are dicts are equal when they have as many entries and every entry of the first one has an equal entry,
key and value, in the second one; the order does not matter. -/
theorem c66_dicts (a b : List (PyT × PyT)) : pyEq (.dict a) (.dict b) = true ↔
    a.length = b.length ∧ ∀ x ∈ a, ∃ y ∈ b, pyEq x.1 y.1 = true ∧ pyEq x.2 y.2 = true := by
  simp [pyEq, pySub_iff]

/-! ### Examples -/

/-- `Record[{'a': Sequence['User'], 'b': Optional[Integer]}]` -/
def exType : TExpr := .record [("a", .sequence (.name "User")), ("b", .optional .integer)]

example : exType.eval = some (.ok (ofTy (.record [("a", .sequence (.ref "User")), ("b", .optional .integer)]))) :=
  c66_written exType rfl

/-- the order of the fields matters -/
example : pyEq (ofTy (.record [("a", .any), ("b", .any)])) (ofTy (.record [("b", .any), ("a", .any)])) = false := by
  cases h : pyEq (ofTy (.record [("a", .any), ("b", .any)])) (ofTy (.record [("b", .any), ("a", .any)])) with
  | false => rfl
  | true => have := (c66_equal _ _).1 h; simp at this

theorem holds_ab : Holds (.str "ab") [.str "a", .str "b"] := by
  have h := Holds.str (s := "ab")
  have e : ("ab".toList.map fun c => PyT.str (String.singleton c)) = [.str "a", .str "b"] := by
    have : "ab".toList = ['a', 'b'] := by decide
    rw [this]; rfl
  rwa [e] at h

/-- a string of two characters is two names: `Mapping['ab']` is `Mapping['a', 'b']` -/
theorem c66_two_chars : getitem (base .mapping) (.str "ab") = some (.ok (ofTy (.mapping (.ref "a") (.ref "b")))) :=
  c66_mapping.2 ⟨_, _, holds_ab, rfl⟩

/-- `Callable['ab']` is `Callable['a', 'b']` -/
theorem c66_chars : getitem (base .callable) (.str "ab") = some (.ok (ofTy (.callable [.ref "a", .ref "b"]))) :=
  c66_callable.2 ⟨_, holds_ab, rfl⟩

/-- `Callable[Integer]` raises TypeError, a single argument has to be written as `Callable[Integer,]` -/
theorem c66_one_argument : getitem (base .callable) (base .integer) = some (.error .typeError) ∧
    getitem (base .callable) (.tup [base .integer]) = some (.ok (ofTy (.callable [.integer]))) := ⟨rfl, rfl⟩

example : getitem (base .callable) (base .sequence) = none :=
  (c66_endless _ _).2 ⟨rfl, _, _, rfl, rfl, .inr (.inl rfl)⟩

/-- `Optional['User'] == Optional[TypeRef['User']]` -/
example : ∃ t t', getitem (base .optional) (.str "User") = some (.ok t) ∧
    getitem (base .optional) (maybeRef (.str "User")) = some (.ok t') ∧ pyEq t t' = true :=
  ⟨_, _, rfl, rfl, by decide +kernel⟩

end Hiku.Types
