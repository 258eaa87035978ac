import Verif.Spec.ExprValid
import Verif.Props.ExprReqs2
import Verif.Proofs.SubExprReqs

/-! Proofs for C56 -/

namespace Hiku.Expr

variable {strict : Bool} {types : List (String × Ty)}

theorem RecordIn.unique {t : Ty} {fs gs : List (String × Ty)} (h : RecordIn types t fs) (h' : RecordIn types t gs) : fs = gs := by
  induction h with
  | record => cases h'; rfl
  | optional _ _ _ ih => cases h' with | optional _ _ h' => exact ih h'
  | sequence _ _ _ ih => cases h' with | sequence _ _ h' => exact ih h'
  | named _ _ _ h1 _ ih =>
    cases h' with
    | named _ _ _ h2 h' => rw [h1] at h2; cases h2; exact ih h'

theorem RecordIn.resolves {t t' : Ty} (h : Resolves types t t') (fs) : RecordIn types t fs ↔ RecordIn types t' fs := by
  cases h with
  | named n _ hn =>
    refine ⟨fun h => ?_, fun h => .named _ _ _ hn h⟩
    cases h with
    | named _ _ _ h1 h2 => rw [hn] at h1; cases h1; exact h2
  | itself => exact Iff.rfl

theorem recordIn_optional {t : Ty} {fs} : RecordIn types (.optional t) fs ↔ RecordIn types t fs :=
  ⟨fun h => by cases h; assumption, fun h => .optional _ _ h⟩

theorem recordIn_sequence {t : Ty} {fs} : RecordIn types (.sequence t) fs ↔ RecordIn types t fs :=
  ⟨fun h => by cases h; assumption, fun h => .sequence _ _ h⟩

theorem fitsAll_iff {fs : List (String × Ty)} : ∀ {items : List QItem},
    FitsAll strict types fs items ↔ ∀ i ∈ items, FitsItem strict types fs i
  | [] => by simp [FitsAll]
  | i :: r => by simp only [FitsAll, List.forall_mem_cons, fitsAll_iff]

theorem fits_iff {fs : List (String × Ty)} {q : QNode} : Fits strict types fs q ↔ ∀ i ∈ q.fields, FitsItem strict types fs i := by
  cases q with
  | mk items b => simp only [Fits, fitsAll_iff, QNode.fields]

theorem fits_single {fs : List (String × Ty)} {i : QItem} {b : Bool} (h : FitsItem strict types fs i) : Fits strict types fs (.mk [i] b) :=
  fits_iff.2 (by simpa [QNode.fields] using h)

theorem fits_empty {fs : List (String × Ty)} {b : Bool} : Fits strict types fs (.mk [] b) := trivial

/-! ### Arguments of functions -/

theorem Spelled.resolves {b b' : Ty} (h : Spelled b = true) (hr : Resolves types b b') : b' = b := by
  cases hr with
  | named => simp [Spelled] at h
  | itself => rfl

theorem spelledAll_iff : ∀ {fs : List (String × Ty)}, SpelledAll fs = true ↔ ∀ kv ∈ fs, Spelled kv.2 = true
  | [] => by simp [SpelledAll]
  | (k, t) :: r => by simp only [SpelledAll, Bool.and_eq_true, List.forall_mem_cons, spelledAll_iff]

theorem fieldsToQuery_mem : ∀ {fs : List (String × Ty)} {i : QItem}, i ∈ fieldsToQuery fs →
    ∃ kv ∈ fs, (∃ q, typeToQuery kv.2 = some q ∧ i = .link kv.1 q none none) ∨ (typeToQuery kv.2 = none ∧ i = .field kv.1 none none)
  | [], i, h => by simp [fieldsToQuery] at h
  | (k, t) :: r, i, h => by
    simp only [fieldsToQuery, List.mem_cons] at h
    rcases h with rfl | h
    · refine ⟨(k, t), by simp, ?_⟩
      cases ht : typeToQuery t with
      | none => exact .inr ⟨rfl, rfl⟩
      | some q => exact .inl ⟨q, rfl, rfl⟩
    · obtain ⟨kv, hm, h⟩ := fieldsToQuery_mem h
      exact ⟨kv, List.mem_cons_of_mem _ hm, h⟩

theorem not_recordIn_base {c : Ty} (hc : c ∈ [Ty.boolean, .string, .integer, .float]) (fs) : ¬ RecordIn types c fs := by
  intro h
  cases h <;> simp at hc

/-- what a function needs from an argument can be read from values of the actual type -/
theorem sub_fits {a b : Ty} (h : Sub types a b) : (strict = true → Spelled b = true) →
    (∀ q, typeToQuery b = some q → ∃ fs, RecordIn types a fs ∧ Fits strict types fs q) ∧
    (strict = true → typeToQuery b = none → ∀ fs, ¬ RecordIn types a fs) := by
  induction h with
  | any a _ b _ h =>
    intro hb
    refine ⟨fun q hq => ?_, fun hs => ?_⟩
    · cases h <;> simp [typeToQuery] at hq
    · have hb := hb hs; rw [← Spelled.resolves hb h] at hb; simp [Spelled] at hb
  | base a b c hc ha hb' =>
    intro hb
    refine ⟨fun q hq => ?_, fun _ _ fs hf => not_recordIn_base hc fs ((RecordIn.resolves ha fs).1 hf)⟩
    cases hb' with
    | named => simp [typeToQuery] at hq
    | itself =>
      simp only [List.mem_cons, List.not_mem_nil, or_false] at hc
      rcases hc with rfl | rfl | rfl | rfl <;> simp [typeToQuery] at hq
  | optional a a' b b' ha hb' _ ih =>
    intro hb
    cases hb' with
    | named => exact ⟨fun q hq => by simp [typeToQuery] at hq, fun hs => by simp [Spelled] at hb; simp [hb] at hs⟩
    | itself =>
      simp only [typeToQuery]
      obtain ⟨h1, h2⟩ := ih (by simpa [Spelled] using hb)
      refine ⟨fun q hq => ?_, fun hs hq fs hf => h2 hs hq fs (recordIn_optional.1 ((RecordIn.resolves ha fs).1 hf))⟩
      obtain ⟨fs, h3, h4⟩ := h1 q hq
      exact ⟨fs, (RecordIn.resolves ha fs).2 (.optional _ _ h3), h4⟩
  | present a b b' hb' _ _ ih =>
    intro hb
    cases hb' with
    | named => exact ⟨fun q hq => by simp [typeToQuery] at hq, fun hs => by simp [Spelled] at hb; simp [hb] at hs⟩
    | itself =>
      simp only [typeToQuery]
      exact ih (by simpa [Spelled] using hb)
  | sequence a a' b b' ha hb' _ ih =>
    intro hb
    cases hb' with
    | named => exact ⟨fun q hq => by simp [typeToQuery] at hq, fun hs => by simp [Spelled] at hb; simp [hb] at hs⟩
    | itself =>
      simp only [typeToQuery]
      obtain ⟨h1, h2⟩ := ih (by simpa [Spelled] using hb)
      refine ⟨fun q hq => ?_, fun hs hq fs hf => h2 hs hq fs (recordIn_sequence.1 ((RecordIn.resolves ha fs).1 hf))⟩
      obtain ⟨fs, h3, h4⟩ := h1 q hq
      exact ⟨fs, (RecordIn.resolves ha fs).2 (.sequence _ _ h3), h4⟩
  | mapping a ka va b kb vb ha hb' _ _ _ _ =>
    intro hb
    refine ⟨fun q hq => ?_, fun _ _ fs hf => ?_⟩
    · cases hb' <;> simp [typeToQuery] at hq
    · have := (RecordIn.resolves ha fs).1 hf
      cases this
  | record a b fs gs f ha hb' hf _ ih =>
    intro hb
    cases hb' with
    | named => exact ⟨fun q hq => by simp [typeToQuery] at hq, fun hs => by simp [Spelled] at hb; simp [hb] at hs⟩
    | itself =>
      refine ⟨fun q hq => ⟨fs, (RecordIn.resolves ha fs).2 (.record _), ?_⟩, fun _ hq => by simp [typeToQuery] at hq⟩
      simp only [typeToQuery, Option.some.injEq] at hq
      subst hq
      rw [fits_iff]
      intro i hi
      obtain ⟨kv, hm, h⟩ := fieldsToQuery_mem hi
      have hsp : strict = true → Spelled kv.2 = true := fun hs => spelledAll_iff.1 (by simpa [Spelled] using hb hs) kv hm
      obtain ⟨h1, h2⟩ := ih kv hm hsp
      rcases h with ⟨q, hq, rfl⟩ | ⟨hq, rfl⟩
      · obtain ⟨gs', h3, h4⟩ := h1 q hq
        exact ⟨_, gs', hf kv hm, h3, h4⟩
      · exact ⟨_, hf kv hm, fun hs => h2 hs hq⟩
  | function a b xs ys _ hb' =>
    intro hb
    refine ⟨fun q hq => ?_, fun hs => ?_⟩
    · cases hb' <;> simp [typeToQuery] at hq
    · have hb := hb hs; rw [← Spelled.resolves hb hb'] at hb; simp [Spelled] at hb

theorem argTy_spelled : ∀ {t : Ty} {q : QNode}, ArgTy t = true → typeToQuery t = some q → Spelled t = true
  | .record fs, q, h, _ => by simpa [ArgTy, Spelled] using h
  | .optional t, q, h, hq => by
    simp only [ArgTy] at h
    simp only [typeToQuery] at hq
    simpa [Spelled] using argTy_spelled h hq
  | .sequence t, q, h, hq => by
    simp only [ArgTy] at h
    simp only [typeToQuery] at hq
    simpa [Spelled] using argTy_spelled h hq
  | .any, _, _, hq | .boolean, _, _, hq | .string, _, _, hq | .integer, _, _, hq | .float, _, _, hq
  | .mapping .., _, _, hq | .callable _, _, _, hq | .ref _, _, _, hq => by simp [typeToQuery] at hq

/-! ### References -/

/-- references which the checker makes -/
def RefOk (types vars : List (String × Ty)) : Ref → Prop
  | .root x t => dget vars x = some t
  | .named b n t => RefOk types vars b ∧ ∃ fs, Resolves types b.to (.record fs) ∧ dget fs n = some t
  | .ref b t => RefOk types vars b ∧ (Resolves types b.to (.sequence t) ∨ Resolves types b.to (.optional t))

/-- what is requested from the reference is there -/
def AddOk (strict : Bool) (types : List (String × Ty)) (t : Ty) (add : Option QNode) : Prop :=
  ∀ a, add = some a → ∃ fs, RecordIn types t fs ∧ Fits strict types fs a

theorem refType_in {r : Ref} {ty : Ty} (h : refType types r = .ok ty) (fs) : RecordIn types r.to fs ↔ RecordIn types ty fs := by
  unfold refType at h
  obtain ⟨t, h1, h⟩ := bind_ok_iff.1 h
  rw [resolves_iff] at h1
  rw [RecordIn.resolves h1 fs]
  split at h
  · rw [resolves_iff] at h
    rw [recordIn_optional, RecordIn.resolves h fs]
  · cases h; rfl

/-- a type which is not a name -/
theorem refType_noRef (hA : NoAlias types) {r : Ref} {ty : Ty} (h : refType types r = .ok ty) (n : String) : ty ≠ .ref n := by
  have key : ∀ {t t'}, Resolves types t t' → t' ≠ .ref n := by
    intro t t' h
    cases h with
    | named m _ hm => exact hA _ _ hm n
    | itself _ h => exact h n
  unfold refType at h
  obtain ⟨t, h1, h⟩ := bind_ok_iff.1 h
  rw [resolves_iff] at h1
  split at h
  · rw [resolves_iff] at h; exact key h
  · cases h; exact key h1

theorem not_recordIn_plain {t : Ty} (h : isContainer t = false) (hr : ∀ n, t ≠ .ref n) (fs) : ¬ RecordIn types t fs := by
  intro hf
  cases hf with
  | named n => exact hr n rfl
  | _ => simp [isContainer] at h

/-- the requirement of a field or link: one item, which fits -/
theorem reqStep_fits (hA : NoAlias types) {n : String} {t ty : Ty} {add res : Option QNode} {top : List (String × Ty)}
    (hty : ∀ fs, RecordIn types t fs ↔ RecordIn types ty fs) (hnr : ∀ n, ty ≠ .ref n) (htop : dget top n = some t)
    (ha : AddOk strict types t add) (h : reqStep types (some n) ty add = .ok res) :
    ∃ i b, res = some (.mk [i] b) ∧ i.name = n ∧ FitsItem strict types top i := by
  have link : ∀ fs, RecordIn types ty fs → FitsItem strict types top (.link n (add.getD (.mk [] false)) none none) := by
    intro fs hfs
    refine ⟨t, fs, htop, (hty fs).2 hfs, ?_⟩
    cases add with
    | none => exact fits_empty
    | some a =>
      obtain ⟨gs, h1, h2⟩ := ha a rfl
      rw [RecordIn.unique ((hty fs).2 hfs) h1]
      exact h2
  unfold reqStep at h
  split at h
  · cases h
    exact ⟨_, _, rfl, rfl, link _ (.record _)⟩
  · rename_i it
    obtain ⟨it', h1, h⟩ := bind_ok_iff.1 h
    rw [resolves_iff] at h1
    split at h
    · cases h
      exact ⟨_, _, rfl, rfl, link _ (.sequence _ _ ((RecordIn.resolves h1 _).2 (.record _)))⟩
    · rename_i hnrec
      split at h
      · cases h
      · rename_i hc
        cases add with
        | none =>
          cases h
          refine ⟨_, _, rfl, rfl, t, htop, fun _ gs hgs => ?_⟩
          have := (RecordIn.resolves h1 gs).1 (recordIn_sequence.1 ((hty gs).1 hgs))
          refine not_recordIn_plain (by simpa using hc) (fun m => ?_) gs this
          cases h1 with
          | named k _ hk => exact hA _ _ hk m
          | itself _ h => exact h m
        | some => cases h
  · split at h
    · cases h
    · rename_i hc
      cases add with
      | none =>
        cases h
        refine ⟨_, _, rfl, rfl, t, htop, fun _ gs hgs => ?_⟩
        exact not_recordIn_plain (by simpa using hc) hnr gs ((hty gs).1 hgs)
      | some => cases h

def Ref.rootName : Ref → String
  | .root x _ => x
  | .named b _ _ => b.rootName
  | .ref b _ => b.rootName

/-- the requirement of a reference: it begins with the variable and fits -/
theorem refToReq_fits (hA : NoAlias types) {vars : List (String × Ty)} : ∀ (r : Ref) (add : Option QNode) (q : QNode),
    RefOk types vars r → AddOk strict types r.to add → refToReq types r add = .ok q →
    Fits strict types vars q ∧ ∃ i ∈ q.fields, ∀ j ∈ q.fields, j = i ∧ i.name = r.rootName
  | .root x t, add, q, hr, ha, h => by
    simp only [refToReq] at h
    obtain ⟨ty, h1, h⟩ := bind_ok_iff.1 h
    obtain ⟨res, h2, h⟩ := bind_ok_iff.1 h
    obtain ⟨i, b, rfl, h3, h4⟩ := reqStep_fits (top := vars) hA (refType_in h1) (refType_noRef hA h1) hr ha h2
    cases h
    exact ⟨fits_single h4, i, by simp [QNode.fields], fun j hj => by simpa [QNode.fields, Ref.rootName, h3] using hj⟩
  | .named c n t, add, q, hr, ha, h => by
    simp only [refToReq] at h
    obtain ⟨ty, h1, h⟩ := bind_ok_iff.1 h
    obtain ⟨res, h2, h⟩ := bind_ok_iff.1 h
    obtain ⟨hc, fs, h5, h6⟩ := hr
    obtain ⟨i, b, rfl, h3, h4⟩ := reqStep_fits (top := fs) hA (refType_in h1) (refType_noRef hA h1) h6 ha h2
    refine refToReq_fits hA c _ q hc ?_ h
    rintro _ ⟨⟩
    exact ⟨fs, (RecordIn.resolves h5 fs).2 (.record _), fits_single h4⟩
  | .ref c t, add, q, hr, ha, h => by
    simp only [refToReq] at h
    obtain ⟨ty, h1, h⟩ := bind_ok_iff.1 h
    obtain ⟨res, h2, h⟩ := bind_ok_iff.1 h
    cases reqStep_none h2
    refine refToReq_fits hA c _ q hr.1 (fun a e => ?_) h
    obtain ⟨fs, h3, h4⟩ := ha a e
    refine ⟨fs, ?_, h4⟩
    rcases hr.2 with h5 | h5
    · exact (RecordIn.resolves h5 fs).2 (.sequence _ _ h3)
    · exact (RecordIn.resolves h5 fs).2 (.optional _ _ h3)

end Hiku.Expr

namespace Hiku.Expr

variable {strict : Bool} {types : List (String × Ty)}

/-! ### Expressions -/

/-- there are no functions in the values, and arguments of functions are as they should be -/
def GoodFn (strict : Bool) (t : Ty) : Prop := NoFn t = true ∨ ∃ ats, t = .callable ats ∧ (strict = true → ∀ a ∈ ats, ArgTy a = true)

theorem GoodFn.resolve (hT : NoFnTypes types) {t t' : Ty} (h : GoodFn strict t) (hr : Resolves types t t') : GoodFn strict t' := by
  cases hr with
  | named n _ hn => exact .inl (hT _ _ hn)
  | itself => exact h

theorem GoodFn.noFn {t : Ty} (h : GoodFn strict t) (hc : ∀ ats, t ≠ .callable ats) : NoFn t = true := by
  rcases h with h | ⟨ats, h, _⟩
  · exact h
  · exact absurd h (hc ats)

theorem noFnAll_get : ∀ {fs : List (String × Ty)} {n : String} {t : Ty}, NoFnAll fs = true → dget fs n = some t → NoFn t = true
  | [], n, t, _, h => by cases h
  | (k, u) :: r, n, t, hf, h => by
    simp only [NoFnAll, Bool.and_eq_true] at hf
    simp only [dget] at h
    by_cases hk : k = n
    · rw [if_pos hk] at h; cases h; exact hf.1
    · rw [if_neg hk] at h; exact noFnAll_get hf.2 h

/-- the variables -/
def EnvOk (strict : Bool) (types vars : List (String × Ty)) (env : List (String × Ref)) : Prop :=
  ∀ x r, dget env x = some r → RefOk types vars r ∧ GoodFn strict r.to

theorem EnvOk.bind {vars : List (String × Ty)} {env : List (String × Ref)} (h : EnvOk strict types vars env) {x : String} {r : Ref}
    (hr : RefOk types vars r) (hg : GoodFn strict r.to) : EnvOk strict types vars ((x, r) :: env) := by
  intro y r' hy
  simp only [dget] at hy
  by_cases e : x = y
  · rw [if_pos e] at hy; cases hy; exact ⟨hr, hg⟩
  · rw [if_neg e] at hy; exact h y r' hy

/-- the first names of the requirements -/
def Names (reqs : List QNode) (y : String) : Prop := ∃ q ∈ reqs, ∃ i ∈ q.fields, i.name = y

/-- the global variables behind the variables -/
def Roots (env : List (String × Ref)) (xs : List String) (y : String) : Prop :=
  ∃ x ∈ xs, ∃ r, dget env x = some r ∧ r.rootName = y

theorem names_nil {y : String} : ¬ Names [] y := by rintro ⟨_, h, _⟩; cases h

theorem names_append {a b : List QNode} {y : String} : Names (a ++ b) y ↔ Names a y ∨ Names b y := by
  simp only [Names, List.mem_append]
  constructor
  · rintro ⟨q, h | h, h'⟩
    · exact .inl ⟨q, h, h'⟩
    · exact .inr ⟨q, h, h'⟩
  · rintro (⟨q, h, h'⟩ | ⟨q, h, h'⟩)
    · exact ⟨q, .inl h, h'⟩
    · exact ⟨q, .inr h, h'⟩

theorem roots_append {env : List (String × Ref)} {a b : List String} {y : String} :
    Roots env (a ++ b) y ↔ Roots env a y ∨ Roots env b y := by
  simp only [Roots, List.mem_append]
  constructor
  · rintro ⟨q, h | h, h'⟩
    · exact .inl ⟨q, h, h'⟩
    · exact .inr ⟨q, h, h'⟩
  · rintro (⟨q, h, h'⟩ | ⟨q, h, h'⟩)
    · exact ⟨q, .inl h, h'⟩
    · exact ⟨q, .inr h, h'⟩

theorem roots_nil {env : List (String × Ref)} {y : String} : ¬ Roots env [] y := by rintro ⟨_, h, _⟩; cases h

/-- variables bound inside stand for something which is read outside -/
theorem roots_bind {env : List (String × Ref)} {x : String} {r : Ref} {xs : List String} {y : String} {cs : List String}
    (hc : Roots env cs r.rootName) :
    (Roots ((x, r) :: env) xs y ∨ Roots env cs y) ↔ (Roots env (xs.filter (· ≠ x)) y ∨ Roots env cs y) := by
  constructor
  · rintro (⟨z, hz, r', h1, h2⟩ | h)
    · simp only [dget] at h1
      by_cases e : x = z
      · rw [if_pos e] at h1; cases h1; exact .inr (h2 ▸ hc)
      · rw [if_neg e] at h1
        exact .inl ⟨z, List.mem_filter.2 ⟨hz, by simpa using fun h => e h.symm⟩, r', h1, h2⟩
    · exact .inr h
  · rintro (⟨z, hz, r', h1, h2⟩ | h)
    · obtain ⟨h3, h4⟩ := List.mem_filter.1 hz
      refine .inl ⟨z, h3, r', ?_, h2⟩
      simp only [dget]
      rw [if_neg (fun e => by simp [e] at h4)]
      exact h1
    · exact .inr h

/-- the requirements of the list -/
def Valid (strict : Bool) (types vars : List (String × Ty)) (env : List (String × Ref)) (reqs : List QNode) (xs : List String) : Prop :=
  (∀ q ∈ reqs, Fits strict types vars q) ∧ ∀ y, Names reqs y ↔ Roots env xs y

theorem Valid.append {vars : List (String × Ty)} {env : List (String × Ref)} {a b : List QNode} {xs ys : List String}
    (h : Valid strict types vars env a xs) (h' : Valid strict types vars env b ys) : Valid strict types vars env (a ++ b) (xs ++ ys) := by
  refine ⟨fun q hq => ?_, fun y => ?_⟩
  · rcases List.mem_append.1 hq with hq | hq
    · exact h.1 q hq
    · exact h'.1 q hq
  · rw [names_append, roots_append, h.2, h'.2]

theorem Valid.nil {vars : List (String × Ty)} {env : List (String × Ref)} : Valid strict types vars env [] [] :=
  ⟨fun _ h => (by cases h), fun _ => ⟨fun h => (names_nil h).elim, fun h => (roots_nil h).elim⟩⟩

/-- the requirement of one reference -/
theorem valid_ref (hA : NoAlias types) {vars : List (String × Ty)} {env : List (String × Ref)} {r : Ref} {add : Option QNode}
    {q : QNode} {xs : List String} (hr : RefOk types vars r) (ha : AddOk strict types r.to add) (h : refToReq types r add = .ok q)
    (hx : ∀ y, Roots env xs y ↔ y = r.rootName) : Valid strict types vars env [q] xs := by
  obtain ⟨h1, i, h2, h3⟩ := refToReq_fits hA r add q hr ha h
  refine ⟨by simpa using h1, fun y => ?_⟩
  rw [hx]
  constructor
  · rintro ⟨q', hq', j, hj, rfl⟩
    simp only [List.mem_singleton] at hq'
    subst hq'
    obtain ⟨rfl, h4⟩ := h3 j hj
    exact h4
  · rintro rfl
    exact ⟨q, by simp, i, h2, (h3 i h2).2⟩

theorem valid_own (hA : NoAlias types) {vars : List (String × Ty)} {env : List (String × Ref)} {r : Ref}
    {l : List QNode} {xs : List String} (hr : RefOk types vars r) (h : ownReqs types (some r) = .ok l)
    (hx : ∀ y, Roots env xs y ↔ y = r.rootName) : Valid strict types vars env l xs := by
  simp only [ownReqs] at h
  obtain ⟨q, h1, h⟩ := bind_ok_iff.1 h
  cases h
  exact valid_ref hA hr (fun _ e => by cases e) h1 hx

/-- a checked expression -/
structure Requires (strict : Bool) (types vars : List (String × Ty)) (env : List (String × Ref)) (e' : Ex) (t : Term) : Prop where
  reqs : ∀ l, reqsOf types e' = .ok l → Valid strict types vars env l (reads t)
  ref : ∀ r, e'.ref = some r → RefOk types vars r ∧ GoodFn strict r.to ∧ ∀ y, Roots env (reads t) y ↔ y = r.rootName

theorem roots_one {env : List (String × Ref)} {x : String} {r : Ref} (h : dget env x = some r) (y : String) :
    Roots env [x] y ↔ y = r.rootName := by
  constructor
  · rintro ⟨z, hz, r', h1, rfl⟩
    simp only [List.mem_singleton] at hz
    subst hz
    rw [h] at h1; cases h1; rfl
  · rintro rfl
    exact ⟨x, by simp, r, h, rfl⟩

theorem valid_all {vars : List (String × Ty)} {env : List (String × Ref)} : ∀ {es : List Ex} {ts : List Term},
    List.Forall₂ (Requires strict types vars env) es ts → ∀ l, reqsAll types es = .ok l → Valid strict types vars env l (readsAll ts)
  | [], _, h, l, hl => by
    cases h
    simp only [reqsAll] at hl
    cases hl
    exact Valid.nil
  | x :: r, _, h, l, hl => by
    cases h with
    | cons h1 h2 =>
      simp only [reqsAll] at hl
      obtain ⟨a, ha, hl⟩ := bind_ok_iff.1 hl
      obtain ⟨b, hb, hl⟩ := bind_ok_iff.1 hl
      cases hl
      exact (h1.reqs a ha).append (valid_all h2 b hb)

theorem valid_args (hA : NoAlias types) {vars : List (String × Ty)} {env : List (String × Ref)} :
    ∀ {ats : List Ty} {es : List Ex} {ts : List Term}, List.Forall₂ (Requires strict types vars env) es ts →
      List.Forall₂ (fun a t => Sub types ((a.ref.map Ref.to).getD .any) t) es ats → (strict = true → ∀ a ∈ ats, ArgTy a = true) →
      ∀ l, reqsArgs types ats es = .ok l → Valid strict types vars env l (readsAll ts)
  | [], es, ts, h, hs, _, l, hl => by
    cases hs
    cases h
    simp only [reqsArgs] at hl
    cases hl
    exact Valid.nil
  | t :: ats, es, ts, h, hs, hat, l, hl => by
    cases hs with
    | cons hs1 hs2 =>
      cases h with
      | cons h1 h2 =>
        rename_i x xs t' ts'
        have rest := fun b hb => valid_args hA h2 hs2 (fun hs a ha => hat hs a (List.mem_cons_of_mem _ ha)) b hb
        simp only [reqsArgs] at hl
        cases ht : typeToQuery t with
        | none =>
          rw [ht] at hl
          dsimp only at hl
          obtain ⟨a, h3, hl⟩ := bind_ok_iff.1 hl
          obtain ⟨b, h4, hl⟩ := bind_ok_iff.1 hl
          cases hl
          exact (h1.reqs a h3).append (rest b h4)
        | some qt =>
          rw [ht] at hl
          dsimp only at hl
          cases hr : x.ref with
          | none => rw [hr] at hl; cases hl
          | some ref =>
            rw [hr] at hl
            obtain ⟨q0, h3, hl⟩ := bind_ok_iff.1 hl
            rw [ok_bind'] at hl
            obtain ⟨b, h4, hl⟩ := bind_ok_iff.1 hl
            cases hl
            obtain ⟨h5, _, h6⟩ := h1.ref ref hr
            refine (valid_ref hA h5 ?_ h3 h6).append (rest b h4)
            rintro _ ⟨⟩
            rw [hr] at hs1
            exact (sub_fits hs1 (fun hs => argTy_spelled (hat hs t (by simp)) ht)).1 qt ht

theorem parseAll_forall2 : ∀ {es : List Ex} {ts : List Term}, parseAll es = some ts → List.Forall₂ (fun e t => parse e = some t) es ts
  | [], ts, h => by simp only [parseAll] at h; cases h; exact .nil
  | x :: r, ts, h => by
    simp only [parseAll, Option.bind_eq_bind, Option.bind_eq_some_iff, Option.some.injEq] at h
    obtain ⟨a, h1, b, h2, rfl⟩ := h
    exact .cons h1 (parseAll_forall2 h2)

/-- a call, or `(if test a b)` -/
theorem parse_call {f : String} {r : Ref} {args : List Ex} {o : Option Ref} {t : Term} (hf : special f = false)
    (h : parse (.tup (.sym f (some r) :: args) o) = some t) :
    ∃ ts, List.Forall₂ (fun e t => parse e = some t) args ts ∧ reads t = readsAll ts := by
  simp only [special, Bool.or_eq_false_iff, decide_eq_false_iff_not] at hf
  obtain ⟨⟨h1, h2⟩, h3⟩ := hf
  unfold parse at h
  rw [if_neg h1, if_neg h2, if_neg h3] at h
  by_cases hif : f = "if"
  · rw [if_pos hif] at h
    split at h
    · rename_i a b c
      simp only [Option.bind_eq_bind, Option.bind_eq_some_iff, Option.some.injEq] at h
      obtain ⟨x, hx, y, hy, z, hz, rfl⟩ := h
      exact ⟨[x, y, z], .cons hx (.cons hy (.cons hz .nil)), by simp [reads, readsAll]⟩
    · cases h
  · rw [if_neg hif] at h
    simp only [Option.map_eq_some_iff] at h
    obtain ⟨ts, h4, rfl⟩ := h
    exact ⟨ts, parseAll_forall2 h4, rfl⟩

theorem requires_forall2 {vars : List (String × Ty)} {env : List (String × Ref)} : ∀ {es : List Ex} {ts : List Term},
    (∀ e ∈ es, ∀ t, parse e = some t → Requires strict types vars env e t) → List.Forall₂ (fun e t => parse e = some t) es ts →
    List.Forall₂ (Requires strict types vars env) es ts
  | [], _, _, h => by cases h; exact .nil
  | _ :: _, _, hs, h => by
    cases h with
    | cons h1 h2 => exact .cons (hs _ (by simp) _ h1) (requires_forall2 (fun e he => hs e (by simp [he])) h2)

/-- dicts: keys are keywords -/
theorem valid_kvs {vars : List (String × Ty)} {env : List (String × Ref)} : ∀ {es : List Ex} {kvs : List (String × Term)},
    (∀ e ∈ es, ∀ t, parse e = some t → Requires strict types vars env e t) → parseKvs es = some kvs →
    ∀ l, reqsAll types es = .ok l → Valid strict types vars env l (readsKvs kvs)
  | [], kvs, _, h, l, hl => by
    simp only [parseKvs] at h
    cases h
    simp only [reqsAll] at hl
    cases hl
    exact Valid.nil
  | .kw k :: x :: r, kvs, hs, h, l, hl => by
    simp only [parseKvs, Option.bind_eq_bind, Option.bind_eq_some_iff, Option.some.injEq] at h
    obtain ⟨a, h1, b, h2, rfl⟩ := h
    simp only [reqsAll, reqsOf] at hl
    rw [ok_bind'] at hl
    obtain ⟨c, hc, hl⟩ := bind_ok_iff.1 hl
    obtain ⟨d, hd, hc⟩ := bind_ok_iff.1 hc
    obtain ⟨e, he, hc⟩ := bind_ok_iff.1 hc
    cases hc
    cases hl
    exact ((hs x (by simp) a h1).reqs d hd).append (valid_kvs (fun e he => hs e (by simp [he])) h2 e he)
  | [.kw _], _, _, h, _, _ => by simp [parseKvs] at h
  | .sym .. :: _, _, _, h, _, _ | .tup .. :: _, _, _, h, _, _ | .list _ :: _, _, _, h, _, _ | .dict _ :: _, _, _, h, _, _
  | .const _ :: _, _, _, h, _, _ => by simp [parseKvs] at h

mutual
theorem Chk.requires (hA : NoAlias types) (hT : NoFnTypes types) {vars : List (String × Ty)} {env : List (String × Ref)}
    {e e' : Ex} (henv : EnvOk strict types vars env) (hraw : Raw e = true) :
    Chk types env e e' → ∀ t, parse e' = some t → Requires strict types vars env e' t
  | .sym _ n r0 r h, t, ht => by
    simp only [parse, Option.some.injEq] at ht
    subst ht
    obtain ⟨h1, h2⟩ := henv n r h
    refine ⟨fun l hl => ?_, fun r' hr' => ?_⟩
    · simp only [reqsOf] at hl
      exact valid_own hA h1 hl (roots_one h)
    · cases hr'
      exact ⟨h1, h2, roots_one h⟩
  | .kw _ _, t, ht => by simp [parse] at ht
  | .const _ v, t, ht => by
    simp only [parse] at ht
    split at ht
    · cases ht
      refine ⟨fun l hl => ?_, fun r' hr' => by cases hr'⟩
      simp only [reqsOf] at hl
      cases hl
      exact Valid.nil
    · cases ht
  | .list _ xs ys h, t, ht => by
    simp only [parse, Option.map_eq_some_iff] at ht
    obtain ⟨ts, h1, rfl⟩ := ht
    simp only [Raw] at hraw
    refine ⟨fun l hl => ?_, fun r' hr' => by cases hr'⟩
    simp only [reqsOf] at hl
    exact valid_all (requires_forall2 (ChkAll.requires hA hT henv hraw h) (parseAll_forall2 h1)) l hl
  | .dict _ xs ys h, t, ht => by
    simp only [parse, Option.map_eq_some_iff] at ht
    obtain ⟨ts, h1, rfl⟩ := ht
    simp only [Raw] at hraw
    refine ⟨fun l hl => ?_, fun r' hr' => by cases hr'⟩
    simp only [reqsOf] at hl
    exact valid_kvs (ChkAll.requires hA hT henv hraw h) h1 l hl
  | .get _ h obj obj' f fr r0 r fs res h1 h2 h3 h4 h5, t, ht => by
    simp only [Raw, RawAll, Bool.and_eq_true, Bool.and_true, Option.isNone_iff_eq_none] at hraw
    obtain ⟨_, hh, hraw, rfl⟩ := hraw
    cases h with
    | sym n hr0 =>
      simp only [Ex.name, Option.some.injEq] at h1
      subst h1
      simp only [Raw, Option.isNone_iff_eq_none] at hh
      subst hh
      simp only [parse, if_true, Option.map_eq_some_iff] at ht
      obtain ⟨tobj, hto, rfl⟩ := ht
      have ih := Chk.requires hA hT henv hraw h2 tobj hto
      obtain ⟨k1, k2, k3⟩ := ih.ref r h3
      have hrok : RefOk types vars (.named r f res) := ⟨k1, fs, h4, h5⟩
      refine ⟨fun l hl => ?_, fun r' hr' => ?_⟩
      · obtain ⟨own, rest, h6, h7, rfl⟩ := reqsOf_tup rfl hl
        simp only [reqsAll] at h7
        obtain ⟨a, ha, h7⟩ := bind_ok_iff.1 h7
        obtain ⟨b, hb, h7⟩ := bind_ok_iff.1 h7
        cases h7
        simp only [reqsOf, ownReqs, ok_bind'] at hb
        cases hb
        have v1 : Valid strict types vars env own (reads tobj) := valid_own hA hrok h6 k3
        have := v1.append (ih.reqs a ha)
        simp only [List.append_nil]
        refine ⟨this.1, fun y => ?_⟩
        rw [this.2, roots_append]
        simp [reads]
      · cases hr'
        refine ⟨hrok, .inl ?_, k3⟩
        have := (k2.resolve hT h4).noFn (fun _ e => by cases e)
        exact noFnAll_get (by simpa [NoFn] using this) h5
    | kw => simp [parse] at ht
    | _ => cases h1
  | .each _ h x xr col col' body body' r0 r it h1 h2 h3 h4 h5, t, ht => by
    simp only [Raw, RawAll, Bool.and_eq_true] at hraw
    obtain ⟨_, _, _, hraw1, hraw2, _⟩ := hraw
    have he : parse (.tup [.sym "each" none, .sym x (some (.ref r it)), col', body'] none) =
        (do let c ← parse col'; let b ← parse body'; some (.each x c b)) := by simp [parse]
    rw [he] at ht
    simp only [Option.bind_eq_bind, Option.bind_eq_some_iff, Option.some.injEq] at ht
    obtain ⟨tc, htc, tb, htb, rfl⟩ := ht
    have ih1 := Chk.requires hA hT henv hraw1 h2 tc htc
    obtain ⟨k1, k2, k3⟩ := ih1.ref r h3
    have hrok : RefOk types vars (.ref r it) := ⟨k1, .inl h4⟩
    have hfn : GoodFn strict (Ref.to (.ref r it)) := by
      have := (k2.resolve hT h4).noFn (fun _ e => by cases e)
      exact .inl (by show NoFn it = true; simpa [NoFn] using this)
    have ih2 := Chk.requires hA hT (henv.bind (x := x) hrok hfn) hraw2 h5 tb htb
    refine ⟨fun l hl => ?_, fun r' hr' => by cases hr'⟩
    obtain ⟨own, rest, h6, h7, rfl⟩ := reqsOf_tup rfl hl
    simp only [ownReqs] at h6
    cases h6
    simp only [reqsAll] at h7
    obtain ⟨a, ha, h7⟩ := bind_ok_iff.1 h7
    obtain ⟨b, hb, h7⟩ := bind_ok_iff.1 h7
    cases h7
    obtain ⟨c, hc1, hb⟩ := bind_ok_iff.1 hb
    obtain ⟨d, hd, hb⟩ := bind_ok_iff.1 hb
    cases hb
    obtain ⟨d1, hd1, hd⟩ := bind_ok_iff.1 hd
    obtain ⟨d2, hd2, hd⟩ := bind_ok_iff.1 hd
    cases hd2
    cases hd
    simp only [reqsOf] at ha
    have v1 : Valid strict types vars env a (reads tc) := valid_own hA hrok ha k3
    have v2 := ih1.reqs c hc1
    have v3 := ih2.reqs d1 hd1
    simp only [List.nil_append, List.append_nil]
    refine ⟨fun q hq => ?_, fun y => ?_⟩
    · simp only [List.mem_append] at hq
      rcases hq with hq | hq | hq
      · exact v1.1 q hq
      · exact v2.1 q hq
      · exact v3.1 q hq
    · have hb := roots_bind (xs := reads tb) (y := y) (x := x) (r := .ref r it) (env := env) (cs := reads tc) ((k3 _).2 rfl)
      rw [names_append, names_append, v1.2, v2.2, v3.2, reads, roots_append]
      constructor
      · rintro (h | h | h)
        · exact .inl h
        · exact .inl h
        · exact (hb.1 (.inl h)).symm
      · rintro (h | h)
        · exact .inl h
        · rcases hb.2 (.inl h) with h | h
          · exact .inr (.inr h)
          · exact .inl h
  | .ifSome _ h x xr e e' a a' b b' r0 r r' h1 h2 h3 h4 h5 h6, t, ht => by
    simp only [Raw, RawAll, Bool.and_eq_true] at hraw
    obtain ⟨_, _, ⟨_, hraw1, _⟩, hraw2, hraw3, _⟩ := hraw
    have he : parse (.tup [.sym "if_some" none, .list [.sym x (some r'), e'], a', b'] none) =
        (do let c ← parse e'; let a ← parse a'; let b ← parse b'; some (.ifSome x c a b)) := by simp [parse]
    rw [he] at ht
    simp only [Option.bind_eq_bind, Option.bind_eq_some_iff, Option.some.injEq] at ht
    obtain ⟨te, hte, ta, hta, tb, htb, rfl⟩ := ht
    have ih1 := Chk.requires hA hT henv hraw1 h2 te hte
    obtain ⟨k1, k2, k3⟩ := ih1.ref r h3
    have hr' : RefOk types vars r' ∧ GoodFn strict r'.to ∧ r'.rootName = r.rootName := by
      rcases h4 with ⟨u, hu, rfl⟩ | ⟨rfl, _⟩
      · refine ⟨⟨k1, .inr hu⟩, .inl ?_, rfl⟩
        have := (k2.resolve hT hu).noFn (fun _ e => by cases e)
        show NoFn u = true
        simpa [NoFn] using this
      · exact ⟨k1, k2, rfl⟩
    have ih2 := Chk.requires hA hT (henv.bind (x := x) hr'.1 hr'.2.1) hraw2 h5 ta hta
    have ih3 := Chk.requires hA hT henv hraw3 h6 tb htb
    refine ⟨fun l hl => ?_, fun r' hr' => by cases hr'⟩
    obtain ⟨own, rest, h7, h8, rfl⟩ := reqsOf_tup rfl hl
    simp only [ownReqs] at h7
    cases h7
    simp only [reqsAll] at h8
    obtain ⟨l0, hl0, h8⟩ := bind_ok_iff.1 h8
    obtain ⟨m, hm, h8⟩ := bind_ok_iff.1 h8
    cases h8
    obtain ⟨c, hc1, hm⟩ := bind_ok_iff.1 hm
    obtain ⟨d, hd, hm⟩ := bind_ok_iff.1 hm
    cases hm
    obtain ⟨d1, hd1, hd⟩ := bind_ok_iff.1 hd
    obtain ⟨d2, hd2, hd⟩ := bind_ok_iff.1 hd
    cases hd2
    cases hd
    simp only [reqsOf, reqsAll] at hl0
    obtain ⟨l1, hl1, hl0⟩ := bind_ok_iff.1 hl0
    obtain ⟨l2, hl2, hl0⟩ := bind_ok_iff.1 hl0
    cases hl0
    obtain ⟨l3, hl3, hl2⟩ := bind_ok_iff.1 hl2
    obtain ⟨l4, hl4, hl2⟩ := bind_ok_iff.1 hl2
    cases hl4
    cases hl2
    have v1 : Valid strict types vars env l1 (reads te) := valid_own hA hr'.1 hl1 (by rw [hr'.2.2]; exact k3)
    have v2 := ih1.reqs l3 hl3
    have v3 := ih2.reqs c hc1
    have v4 := ih3.reqs d1 hd1
    simp only [List.nil_append, List.append_nil]
    refine ⟨fun q hq => ?_, fun y => ?_⟩
    · simp only [List.mem_append] at hq
      rcases hq with (hq | hq) | hq | hq
      · exact v1.1 q hq
      · exact v2.1 q hq
      · exact v3.1 q hq
      · exact v4.1 q hq
    · have hb := roots_bind (xs := reads ta) (y := y) (x := x) (r := r') (env := env) (cs := reads te)
        ((k3 _).2 hr'.2.2)
      rw [names_append, names_append, names_append, v1.2, v2.2, v3.2, v4.2, reads, roots_append, roots_append]
      constructor
      · rintro ((h | h) | h | h)
        · exact .inl (.inl h)
        · exact .inl (.inl h)
        · exact .inl (hb.1 (.inl h)).symm
        · exact .inr h
      · rintro ((h | h) | h)
        · exact .inl (.inl h)
        · rcases hb.2 (.inl h) with h | h
          · exact .inr (.inl h)
          · exact .inl (.inl h)
        · exact .inr (.inr h)
  | .call _ f fr args args' r0 r ats h1 h2 h3 h4 h5, t, ht => by
    simp only [Raw, RawAll, Bool.and_eq_true] at hraw
    obtain ⟨_, _, hraw⟩ := hraw
    obtain ⟨ts, h6, h7⟩ := parse_call h1 ht
    refine ⟨fun l hl => ?_, fun r' hr' => by cases hr'⟩
    rw [h7]
    have ih := requires_forall2 (ChkAll.requires hA hT henv hraw h4) h6
    unfold reqsOf at hl
    obtain ⟨own, h8, hl⟩ := bind_ok_iff.1 hl
    simp only [ownReqs] at h8
    cases h8
    simp only [Ex.ref] at hl
    obtain ⟨_, hgood⟩ := henv f r h2
    cases hto : r.to with
    | callable ats' =>
      rw [hto] at hl h3 hgood
      cases h3
      obtain ⟨rest, h9, hl⟩ := bind_ok_iff.1 hl
      cases hl
      refine valid_args hA ih h5 ?_ rest h9
      rcases hgood with h | ⟨ats'', h, h'⟩
      · simp [NoFn] at h
      · cases h; exact h'
    | _ => (rw [hto] at hl; cases hl)
theorem ChkAll.requires (hA : NoAlias types) (hT : NoFnTypes types) {vars : List (String × Ty)} {env : List (String × Ref)}
    {es es' : List Ex} (henv : EnvOk strict types vars env) (hraw : RawAll es = true) :
    ChkAll types env es es' → ∀ e' ∈ es', ∀ t, parse e' = some t → Requires strict types vars env e' t
  | .nil _, e', he, _, _ => by cases he
  | .cons _ _ _ _ _ h h', e', he, t, ht => by
    simp only [RawAll, Bool.and_eq_true] at hraw
    rcases List.mem_cons.1 he with rfl | he
    · exact Chk.requires hA hT henv hraw.1 h t ht
    · exact ChkAll.requires hA hT henv hraw.2 h' e' he t ht
end

/-! Variables of a checked expression are bound -/

theorem readsAll_mem : ∀ {es : List Ex} {ts : List Term} {x : String}, List.Forall₂ (fun e t => parse e = some t) es ts →
    x ∈ readsAll ts → ∃ e ∈ es, ∃ t, parse e = some t ∧ x ∈ reads t
  | [], _, _, h, hx => by cases h; simp [readsAll] at hx
  | _ :: _, _, _, h, hx => by
    cases h with
    | cons h1 h2 =>
      simp only [readsAll, List.mem_append] at hx
      rcases hx with hx | hx
      · exact ⟨_, by simp, _, h1, hx⟩
      · obtain ⟨e, he, t, ht⟩ := readsAll_mem h2 hx
        exact ⟨e, by simp [he], t, ht⟩

theorem readsKvs_mem : ∀ {es : List Ex} {kvs : List (String × Term)} {x : String}, parseKvs es = some kvs →
    x ∈ readsKvs kvs → ∃ e ∈ es, ∃ t, parse e = some t ∧ x ∈ reads t
  | [], _, _, h, hx => by simp only [parseKvs] at h; cases h; simp [readsKvs] at hx
  | .kw k :: y :: r, _, _, h, hx => by
    simp only [parseKvs, Option.bind_eq_bind, Option.bind_eq_some_iff, Option.some.injEq] at h
    obtain ⟨a, h1, b, h2, rfl⟩ := h
    simp only [readsKvs, List.mem_append] at hx
    rcases hx with hx | hx
    · exact ⟨_, by simp, _, h1, hx⟩
    · obtain ⟨e, he, t, ht⟩ := readsKvs_mem h2 hx
      exact ⟨e, by simp [he], t, ht⟩
  | [.kw _], _, _, h, _ => by simp [parseKvs] at h
  | .sym .. :: _, _, _, h, _ | .tup .. :: _, _, _, h, _ | .list _ :: _, _, _, h, _ | .dict _ :: _, _, _, h, _
  | .const _ :: _, _, _, h, _ => by simp [parseKvs] at h

theorem bound_filter {env : List (String × Ref)} {x y : String} {r : Ref} {xs : List String} (h : y ∈ xs.filter (· ≠ x))
    (hb : y ∈ xs → ∃ r', dget ((x, r) :: env) y = some r') : ∃ r', dget env y = some r' := by
  obtain ⟨h1, h2⟩ := List.mem_filter.1 h
  obtain ⟨r', h3⟩ := hb h1
  rw [dget_cons, if_neg (fun e => by simp [e] at h2)] at h3
  exact ⟨r', h3⟩

mutual
theorem Chk.bound {env : List (String × Ref)} {e e' : Ex} (hraw : Raw e = true) :
    Chk types env e e' → ∀ t, parse e' = some t → ∀ y ∈ reads t, ∃ r, dget env y = some r
  | .sym _ n r0 r h, t, ht, y, hy => by
    simp only [parse, Option.some.injEq] at ht
    subst ht
    simp only [reads, List.mem_singleton] at hy
    subst hy
    exact ⟨r, h⟩
  | .kw _ _, t, ht, _, _ => by simp [parse] at ht
  | .const _ v, t, ht, y, hy => by
    simp only [parse] at ht
    split at ht
    · cases ht; simp [reads] at hy
    · cases ht
  | .list _ xs ys h, t, ht, y, hy => by
    simp only [parse, Option.map_eq_some_iff] at ht
    obtain ⟨ts, h1, rfl⟩ := ht
    simp only [Raw] at hraw
    simp only [reads] at hy
    obtain ⟨e, he, t, ht, hy⟩ := readsAll_mem (parseAll_forall2 h1) hy
    exact ChkAll.bound hraw h e he t ht y hy
  | .dict _ xs ys h, t, ht, y, hy => by
    simp only [parse, Option.map_eq_some_iff] at ht
    obtain ⟨ts, h1, rfl⟩ := ht
    simp only [Raw] at hraw
    simp only [reads] at hy
    obtain ⟨e, he, t, ht, hy⟩ := readsKvs_mem h1 hy
    exact ChkAll.bound hraw h e he t ht y hy
  | .get _ h obj obj' f fr r0 r fs res h1 h2 h3 h4 h5, t, ht, y, hy => by
    simp only [Raw, RawAll, Bool.and_eq_true, Bool.and_true, Option.isNone_iff_eq_none] at hraw
    obtain ⟨_, hh, hraw, rfl⟩ := hraw
    cases h with
    | sym n hr0 =>
      simp only [Ex.name, Option.some.injEq] at h1
      subst h1
      simp only [Raw, Option.isNone_iff_eq_none] at hh
      subst hh
      simp only [parse, if_true, Option.map_eq_some_iff] at ht
      obtain ⟨tobj, hto, rfl⟩ := ht
      simp only [reads] at hy
      exact Chk.bound hraw h2 tobj hto y hy
    | kw => simp [parse] at ht
    | _ => cases h1
  | .each _ h x xr col col' body body' r0 r it h1 h2 h3 h4 h5, t, ht, y, hy => by
    simp only [Raw, RawAll, Bool.and_eq_true] at hraw
    obtain ⟨_, _, _, hraw1, hraw2, _⟩ := hraw
    have he : parse (.tup [.sym "each" none, .sym x (some (.ref r it)), col', body'] none) =
        (do let c ← parse col'; let b ← parse body'; some (.each x c b)) := by simp [parse]
    rw [he] at ht
    simp only [Option.bind_eq_bind, Option.bind_eq_some_iff, Option.some.injEq] at ht
    obtain ⟨tc, htc, tb, htb, rfl⟩ := ht
    simp only [reads, List.mem_append] at hy
    rcases hy with hy | hy
    · exact Chk.bound hraw1 h2 tc htc y hy
    · exact bound_filter hy (Chk.bound hraw2 h5 tb htb y)
  | .ifSome _ h x xr e e' a a' b b' r0 r r' h1 h2 h3 h4 h5 h6, t, ht, y, hy => by
    simp only [Raw, RawAll, Bool.and_eq_true] at hraw
    obtain ⟨_, _, ⟨_, hraw1, _⟩, hraw2, hraw3, _⟩ := hraw
    have he : parse (.tup [.sym "if_some" none, .list [.sym x (some r'), e'], a', b'] none) =
        (do let c ← parse e'; let a ← parse a'; let b ← parse b'; some (.ifSome x c a b)) := by simp [parse]
    rw [he] at ht
    simp only [Option.bind_eq_bind, Option.bind_eq_some_iff, Option.some.injEq] at ht
    obtain ⟨te, hte, ta, hta, tb, htb, rfl⟩ := ht
    simp only [reads, List.mem_append] at hy
    rcases hy with (hy | hy) | hy
    · exact Chk.bound hraw1 h2 te hte y hy
    · exact bound_filter hy (Chk.bound hraw2 h5 ta hta y)
    · exact Chk.bound hraw3 h6 tb htb y hy
  | .call _ f fr args args' r0 r ats h1 h2 h3 h4 h5, t, ht, y, hy => by
    simp only [Raw, RawAll, Bool.and_eq_true] at hraw
    obtain ⟨_, _, hraw⟩ := hraw
    obtain ⟨ts, h6, h7⟩ := parse_call h1 ht
    rw [h7] at hy
    obtain ⟨e, he, t, ht, hy⟩ := readsAll_mem h6 hy
    exact ChkAll.bound hraw h4 e he t ht y hy
theorem ChkAll.bound {env : List (String × Ref)} {es es' : List Ex} (hraw : RawAll es = true) :
    ChkAll types env es es' → ∀ e' ∈ es', ∀ t, parse e' = some t → ∀ y ∈ reads t, ∃ r, dget env y = some r
  | .nil _, e', he, _, _, _, _ => by cases he
  | .cons _ _ _ _ _ h h', e', he, t, ht, y, hy => by
    simp only [RawAll, Bool.and_eq_true] at hraw
    rcases List.mem_cons.1 he with rfl | he
    · exact Chk.bound hraw.1 h t ht y hy
    · exact ChkAll.bound hraw.2 h' e' he t ht y hy
end

end Hiku.Expr
