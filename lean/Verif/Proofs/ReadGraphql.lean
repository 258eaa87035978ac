import Verif.Spec.ReadGraphql
import Verif.Proofs.Basic
import Verif.Proofs.Dict

/-! Lemmas about the GraphQL reader -/

namespace Hiku

variable {vars : List (String × Val)} {frags : List (String × List Sel)}

/-! ### Values -/

mutual
theorem readVal_ok : (a : AVal) → ∀ v, readVal vars a = .ok v ↔ Evals vars a v
  | .null, v | .int _, v | .float _, v | .str _, v | .bool _, v | .enum _, v => by
    simp only [readVal, Except.ok.injEq]
    exact ⟨fun h => h ▸ (by constructor), fun h => by cases h; rfl⟩
  | .list xs, v => by
    rw [readVal, bind_ok_iff]
    constructor
    · rintro ⟨vs, h, h'⟩; cases h'; exact .list ((readVals_ok xs vs).1 h)
    · intro h; cases h with | @list _ vs h => exact ⟨vs, (readVals_ok xs vs).2 h, rfl⟩
  | .obj kvs, v => by
    rw [readVal, bind_ok_iff]
    constructor
    · rintro ⟨vs, h, h'⟩; cases h'; exact .obj ((readArgs_ok kvs vs).1 h)
    · intro h; cases h with | @obj _ vs h => exact ⟨vs, (readArgs_ok kvs vs).2 h, rfl⟩
  | .var n, v => by
    rw [readVal]
    constructor
    · intro h
      cases hn : dget vars n with
      | none => rw [hn] at h; cases h
      | some w => rw [hn] at h; cases h; exact .var hn
    · intro h; cases h with | var h => rw [h]
theorem readVals_ok : (l : List AVal) → ∀ vs, readVals vars l = .ok vs ↔ EvalsList vars l vs
  | [], vs => by
    simp only [readVals, Except.ok.injEq]
    exact ⟨fun h => h ▸ .nil, fun h => by cases h; rfl⟩
  | a :: r, vs => by
    simp only [readVals, bind_ok_iff]
    constructor
    · rintro ⟨v, h1, vs', h2, h⟩
      cases h
      exact .cons ((readVal_ok a v).1 h1) ((readVals_ok r vs').1 h2)
    · intro h
      cases h with | cons h1 h2 => exact ⟨_, (readVal_ok a _).2 h1, _, (readVals_ok r _).2 h2, rfl⟩
theorem readArgs_ok : (l : List (String × AVal)) → ∀ vs, readArgs vars l = .ok vs ↔ EvalsArgs vars l vs
  | [], vs => by
    simp only [readArgs, Except.ok.injEq]
    exact ⟨fun h => h ▸ .nil, fun h => by cases h; rfl⟩
  | (k, a) :: r, vs => by
    simp only [readArgs, bind_ok_iff]
    constructor
    · rintro ⟨v, h1, vs', h2, h⟩
      cases h
      exact .cons ((readVal_ok a v).1 h1) ((readArgs_ok r vs').1 h2)
    · intro h
      cases h with | cons h1 h2 => exact ⟨_, (readVal_ok a _).2 h1, _, (readArgs_ok r _).2 h2, rfl⟩
end

mutual
theorem readVal_error : (a : AVal) → ∀ e, readVal vars a = .error e → e = .typeError
  | .null, e, h | .int _, e, h | .float _, e, h | .str _, e, h | .bool _, e, h | .enum _, e, h => by
    simp [readVal] at h
  | .list xs, e, h => by
    rw [readVal, bind_error_iff] at h
    rcases h with h | ⟨_, _, h⟩
    · exact readVals_error xs e h
    · cases h
  | .obj kvs, e, h => by
    rw [readVal, bind_error_iff] at h
    rcases h with h | ⟨_, _, h⟩
    · exact readArgs_error kvs e h
    · cases h
  | .var n, e, h => by
    rw [readVal] at h
    split at h <;> cases h
    rfl
theorem readVals_error : (l : List AVal) → ∀ e, readVals vars l = .error e → e = .typeError
  | [], e, h => by simp [readVals] at h
  | a :: r, e, h => by
    simp only [readVals, bind_error_iff] at h
    rcases h with h | ⟨_, _, h | ⟨_, _, h⟩⟩
    · exact readVal_error a e h
    · exact readVals_error r e h
    · cases h
theorem readArgs_error : (l : List (String × AVal)) → ∀ e, readArgs vars l = .error e → e = .typeError
  | [], e, h => by simp [readArgs] at h
  | (_, a) :: r, e, h => by
    simp only [readArgs, bind_error_iff] at h
    rcases h with h | ⟨_, _, h | ⟨_, _, h⟩⟩
    · exact readVal_error a e h
    · exact readArgs_error r e h
    · cases h
end

/-- a value is read iff its variables are defined -/
theorem Evals.det {a : AVal} {v v' : Val} (h : Evals vars a v) (h' : Evals vars a v') : v = v' := by
  have h := (readVal_ok a v).2 h
  rw [(readVal_ok a v').2 h'] at h
  cases h; rfl

mutual
theorem evals_vars {a : AVal} {v : Val} : Evals vars a v → ∀ x ∈ a.vars, (dget vars x).isSome
  | .null, x, hx | .int _, x, hx | .float _, x, hx | .str _, x, hx | .bool _, x, hx | .enum _, x, hx => by
    simp [AVal.vars] at hx
  | .list h, x, hx => evalsList_vars h x (by simpa [AVal.vars] using hx)
  | .obj h, x, hx => evalsArgs_vars h x (by simpa [AVal.vars] using hx)
  | .var h, x, hx => by simp [AVal.vars] at hx; subst hx; simp [h]
theorem evalsList_vars {l : List AVal} {vs : List Val} : EvalsList vars l vs → ∀ x ∈ varsList l, (dget vars x).isSome
  | .nil, x, hx => by simp [varsList] at hx
  | .cons h1 h2, x, hx => by
    rw [varsList, List.mem_append] at hx
    exact hx.elim (evals_vars h1 x) (evalsList_vars h2 x)
theorem evalsArgs_vars {l : List (String × AVal)} {vs : List (String × Val)} :
    EvalsArgs vars l vs → ∀ x ∈ varsArgs l, (dget vars x).isSome
  | .nil, x, hx => by simp [varsArgs] at hx
  | .cons h1 h2, x, hx => by
    rw [varsArgs, List.mem_append] at hx
    exact hx.elim (evals_vars h1 x) (evalsArgs_vars h2 x)
end

mutual
theorem evals_total : (a : AVal) → (∀ x ∈ a.vars, (dget vars x).isSome) → ∃ v, Evals vars a v
  | .null, _ => ⟨_, .null⟩
  | .int i, _ => ⟨_, .int i⟩
  | .float i, _ => ⟨_, .float i⟩
  | .str i, _ => ⟨_, .str i⟩
  | .bool i, _ => ⟨_, .bool i⟩
  | .enum i, _ => ⟨_, .enum i⟩
  | .list xs, h => by
    obtain ⟨vs, hv⟩ := evalsList_total xs (by simpa [AVal.vars] using h)
    exact ⟨_, .list hv⟩
  | .obj xs, h => by
    obtain ⟨vs, hv⟩ := evalsArgs_total xs (by simpa [AVal.vars] using h)
    exact ⟨_, .obj hv⟩
  | .var n, h => by
    obtain ⟨v, hv⟩ := Option.isSome_iff_exists.1 (h n (by simp [AVal.vars]))
    exact ⟨v, .var hv⟩
theorem evalsList_total : (l : List AVal) → (∀ x ∈ varsList l, (dget vars x).isSome) → ∃ vs, EvalsList vars l vs
  | [], _ => ⟨_, .nil⟩
  | a :: r, h => by
    obtain ⟨v, hv⟩ := evals_total a fun x hx => h x (by rw [varsList]; simp [hx])
    obtain ⟨vs, hvs⟩ := evalsList_total r fun x hx => h x (by rw [varsList]; simp [hx])
    exact ⟨_, .cons hv hvs⟩
theorem evalsArgs_total : (l : List (String × AVal)) → (∀ x ∈ varsArgs l, (dget vars x).isSome) → ∃ vs, EvalsArgs vars l vs
  | [], _ => ⟨_, .nil⟩
  | (k, a) :: r, h => by
    obtain ⟨v, hv⟩ := evals_total a fun x hx => h x (by rw [varsArgs]; simp [hx])
    obtain ⟨vs, hvs⟩ := evalsArgs_total r fun x hx => h x (by rw [varsArgs]; simp [hx])
    exact ⟨_, .cons hv hvs⟩
end

/-! ### Directives -/

omit vars in
theorem falsy_iff {v : Val} : v.truthy = false ↔ Falsy v := by
  constructor
  · intro h
    unfold Val.truthy at h
    split at h <;> (try simp at h)
    · exact .none
    · subst h; exact .false
    · subst h; exact .zero
    · rename_i s
      by_cases e : s = "0.0"
      · subst e; exact .float0
      · rw [h e]; exact .floatNeg0
    · subst h; exact .str
    · subst h; exact .kw
    · subst h; exact .sym
    · subst h; exact .seq _
    · subst h; exact .map _
  · rintro ⟨⟩ <;> simp [Val.truthy]

omit vars in
theorem truthy_iff {v : Val} : v.truthy = true ↔ ¬ Falsy v := by
  rw [← falsy_iff]; simp

theorem readCond_ok {d : Directive} {b : Bool} : readCond vars d = .ok b ↔
    ∃ a v, d.args = [("if", a)] ∧ Evals vars a v ∧ v.truthy = b := by
  rw [readCond]
  split
  · rename_i n a he
    rw [he]
    by_cases hn : n = "if"
    · subst hn
      rw [if_pos rfl, bind_ok_iff]
      constructor
      · rintro ⟨v, h, h'⟩; cases h'; exact ⟨a, v, rfl, (readVal_ok a v).1 h, rfl⟩
      · rintro ⟨a', v, h, hv, ht⟩
        cases h
        exact ⟨v, (readVal_ok a v).2 hv, by rw [ht]⟩
    · rw [if_neg hn]
      simp [hn]
  · rename_i hne
    constructor
    · intro h; cases h
    · rintro ⟨a, v, h, _⟩; exact absurd h (hne _ _)

theorem readCond_error {d : Directive} {e : Err} (h : readCond vars d = .error e) : e = .typeError := by
  rw [readCond] at h
  split at h
  · split at h
    · rw [bind_error_iff] at h
      rcases h with h | ⟨_, _, h⟩
      · exact readVal_error _ _ h
      · cases h
    · cases h; rfl
  · cases h; rfl

theorem shouldSkip_error {dirs : List Directive} {e : Err} (h : shouldSkip vars dirs = .error e) : e = .typeError := by
  rw [shouldSkip] at h
  split at h
  · exact readCond_error h
  · split at h
    · rw [bind_error_iff] at h
      rcases h with h | ⟨_, _, h⟩
      · exact readCond_error h
      · cases h
    · cases h

/-- what the code skips is excluded (the converse needs `DirsOk`) -/
theorem shouldSkip_excluded {dirs : List Directive} (h : shouldSkip vars dirs = .ok true) : Excluded vars dirs := by
  rw [shouldSkip] at h
  split at h
  · rename_i d hd
    obtain ⟨a, v, h1, h2, h3⟩ := readCond_ok.1 h
    exact ⟨d, List.mem_of_find?_eq_some hd, a, v, h1, h2, .inl ⟨by simpa using List.find?_some hd, truthy_iff.1 h3⟩⟩
  · split at h
    · rename_i d hd
      rw [bind_ok_iff] at h
      obtain ⟨b, hb, h⟩ := h
      obtain ⟨a, v, h1, h2, h3⟩ := readCond_ok.1 hb
      refine ⟨d, List.mem_of_find?_eq_some hd, a, v, h1, h2, .inr ⟨by simpa using List.find?_some hd, ?_⟩⟩
      rw [← falsy_iff, h3]
      simpa using h
    · cases h

theorem filter_one {α : Type} {p : α → Bool} {l : List α} (h : (l.filter p).length ≤ 1) {a b : α} (ha : a ∈ l) (hb : b ∈ l)
    (pa : p a = true) (pb : p b = true) : a = b := by
  have ha : a ∈ l.filter p := List.mem_filter.2 ⟨ha, pa⟩
  have hb : b ∈ l.filter p := List.mem_filter.2 ⟨hb, pb⟩
  match hf : l.filter p, h, ha, hb with
  | [x], _, ha, hb => simp [hf] at ha hb; rw [ha, hb]
  | [], _, ha, _ => simp [hf] at ha

theorem shouldSkip_exact {dirs : List Directive} (h : DirsOk vars dirs) :
    ∃ b, shouldSkip vars dirs = .ok b ∧ (b = true ↔ Excluded vars dirs) := by
  obtain ⟨hs1, hi1, h2, hboth⟩ := h
  rw [shouldSkip]
  cases hs : dirs.find? (fun d => d.name = "skip") with
  | some d =>
    have hd := List.mem_of_find?_eq_some hs
    have hn : d.name = "skip" := by simpa using List.find?_some hs
    obtain ⟨a, v, ha, hv⟩ := h2 d hd (by simp [Directive.isCond, hn])
    refine ⟨v.truthy, readCond_ok.2 ⟨a, v, ha, hv, rfl⟩, ?_⟩
    constructor
    · intro ht; exact ⟨d, hd, a, v, ha, hv, .inl ⟨hn, truthy_iff.1 ht⟩⟩
    · rintro ⟨d', hd', a', v', ha', hv', ⟨hc, ht⟩ | ⟨hc, hf⟩⟩
      · have : d = d' := filter_one hs1 hd hd' (by simp [hn]) (by simp [hc])
        subst this
        rw [ha] at ha'; cases ha'
        cases hv.det hv'
        exact truthy_iff.2 ht
      · cases ht : v.truthy with
        | true => rfl
        | false => exact absurd ⟨d, hd, d', hd', hn, hc, ⟨a, v, ha, hv, falsy_iff.1 ht⟩, ⟨a', v', ha', hv', hf⟩⟩ hboth
  | none =>
    have hno : ∀ d ∈ dirs, d.name ≠ "skip" := by simpa using hs
    cases hi : dirs.find? (fun d => d.name = "include") with
    | some d =>
      have hd := List.mem_of_find?_eq_some hi
      have hn : d.name = "include" := by simpa using List.find?_some hi
      obtain ⟨a, v, ha, hv⟩ := h2 d hd (by simp [Directive.isCond, hn])
      refine ⟨!v.truthy, ?_, ?_⟩
      · simp only
        rw [readCond_ok.2 ⟨a, v, ha, hv, rfl⟩]; rfl
      · constructor
        · intro ht; exact ⟨d, hd, a, v, ha, hv, .inr ⟨hn, falsy_iff.1 (by simpa using ht)⟩⟩
        · rintro ⟨d', hd', a', v', ha', hv', ⟨hc, _⟩ | ⟨hc, hf⟩⟩
          · exact absurd hc (hno d' hd')
          · have : d = d' := filter_one hi1 hd hd' (by simp [hn]) (by simp [hc])
            subst this
            rw [ha] at ha'; cases ha'
            cases hv.det hv'
            simp [falsy_iff.2 hf]
    | none =>
      have hno' : ∀ d ∈ dirs, d.name ≠ "include" := by simpa using hi
      refine ⟨false, rfl, ?_⟩
      simp
      rintro ⟨d, hd, a, v, _, _, ⟨hc, _⟩ | ⟨hc, _⟩⟩
      · exact hno d hd hc
      · exact hno' d hd hc

/-- a single condition is evaluated -/
theorem shouldSkip_single {dirs : List Directive} (h : (dirs.filter Directive.isCond).length ≤ 1) {b : Bool}
    (hb : shouldSkip vars dirs = .ok b) : DirsOk vars dirs := by
  have key : ∀ d ∈ dirs, d.isCond = true → ∀ b, readCond vars d = .ok b → CondsOk vars dirs := by
    intro d hd hc b hb d' hd' hc'
    cases filter_one h hd hd' hc hc'
    obtain ⟨a, v, h1, h2, _⟩ := readCond_ok.1 hb
    exact ⟨a, v, h1, h2⟩
  have hle : ∀ p : Directive → Bool, (∀ d, p d = true → d.isCond = true) → (dirs.filter p).length ≤ 1 := by
    intro p hp
    refine Nat.le_trans ?_ h
    clear h hb key
    induction dirs with
    | nil => simp
    | cons d r ih =>
      have := hp d
      cases h1 : p d <;> cases h2 : d.isCond <;> simp_all <;> omega
  refine ⟨hle _ (by simp [Directive.isCond]; tauto), hle _ (by simp [Directive.isCond]; tauto), ?_, ?_⟩
  · rw [shouldSkip] at hb
    split at hb
    · rename_i d hd
      exact key d (List.mem_of_find?_eq_some hd) (by have := List.find?_some hd; simp [Directive.isCond] at this ⊢; tauto) _ hb
    · split at hb
      · rename_i d hd
        rw [bind_ok_iff] at hb
        obtain ⟨b', hb', _⟩ := hb
        exact key d (List.mem_of_find?_eq_some hd) (by have := List.find?_some hd; simp [Directive.isCond] at this ⊢; tauto) _ hb'
      · rename_i _ h1 _ h2
        intro d hd hc
        simp at h1 h2
        have := h1 d hd
        have := h2 d hd
        simp [Directive.isCond] at hc
        tauto
  · rintro ⟨d, hd, d', hd', hn, hn', _, _⟩
    cases filter_one h hd hd' (by simp [Directive.isCond, hn]) (by simp [Directive.isCond, hn'])
    rw [hn] at hn'
    simp at hn'

theorem single_ok {dirs : List Directive} (h : (dirs.filter Directive.isCond).length ≤ 1) (hc : CondsOk vars dirs) :
    ∃ b, shouldSkip vars dirs = .ok b := by
  rw [shouldSkip]
  split
  · rename_i d hd
    obtain ⟨a, v, h1, h2⟩ := hc d (List.mem_of_find?_eq_some hd) (by have := List.find?_some hd; simp [Directive.isCond] at this ⊢; tauto)
    exact ⟨_, readCond_ok.2 ⟨a, v, h1, h2, rfl⟩⟩
  · split
    · rename_i d hd
      obtain ⟨a, v, h1, h2⟩ := hc d (List.mem_of_find?_eq_some hd) (by have := List.find?_some hd; simp [Directive.isCond] at this ⊢; tauto)
      rw [readCond_ok.2 ⟨a, v, h1, h2, rfl⟩]
      exact ⟨_, rfl⟩
    · exact ⟨_, rfl⟩

theorem shouldSkip_fit {dirs : List Directive} (h : DirsFit vars dirs) :
    (shouldSkip vars dirs = .ok true ↔ CondsOk vars dirs ∧ Excluded vars dirs) ∧
    (shouldSkip vars dirs = .ok false ↔ CondsOk vars dirs ∧ ¬ Excluded vars dirs) := by
  have ok : DirsOk vars dirs → (shouldSkip vars dirs = .ok true ↔ CondsOk vars dirs ∧ Excluded vars dirs) ∧
      (shouldSkip vars dirs = .ok false ↔ CondsOk vars dirs ∧ ¬ Excluded vars dirs) := by
    intro h
    obtain ⟨b, hb, he⟩ := shouldSkip_exact h
    have hc := h.2.2.1
    rw [hb]
    cases b <;> simp_all
  rcases h with h | h
  · by_cases hs : ∃ b, shouldSkip vars dirs = .ok b
    · obtain ⟨b, hb⟩ := hs
      exact ok (shouldSkip_single h hb)
    · have hno : ¬ CondsOk vars dirs := fun hc => hs (single_ok h hc)
      exact ⟨⟨fun hb => absurd ⟨_, hb⟩ hs, fun hc => absurd hc.1 hno⟩, ⟨fun hb => absurd ⟨_, hb⟩ hs, fun hc => absurd hc.1 hno⟩⟩
  · exact ok h

theorem readOptions_ok {args : List (String × AVal)} {o : Opts} : readOptions vars args = .ok o ↔ MeansArgs vars args o := by
  cases args with
  | nil =>
    simp only [readOptions, List.isEmpty_nil, if_true, Except.ok.injEq]
    exact ⟨fun h => h ▸ .none, fun h => by cases h; rfl⟩
  | cons a r =>
    rw [readOptions]
    simp only [List.isEmpty_cons, Bool.false_eq_true, if_false, bind_ok_iff]
    constructor
    · rintro ⟨kvs, h, h'⟩
      cases h'
      exact .some ((readArgs_ok _ _).1 h)
    · intro h
      cases h with
      | some h => exact ⟨_, (readArgs_ok _ _).2 h, rfl⟩

theorem readOptions_error {args : List (String × AVal)} {e : Err} (h : readOptions vars args = .error e) : e = .typeError := by
  rw [readOptions] at h
  split at h
  · cases h
  · rw [bind_error_iff] at h
    rcases h with h | ⟨_, _, h⟩
    · exact readArgs_error _ _ h
    · cases h

/-! ### Reading without pending set and cache -/

mutual
/-- the selection means the items -/
inductive ReadsSel (vars : List (String × Val)) (frags : List (String × List Sel)) : Sel → List QItem → Prop
  | skip {s} : shouldSkip vars s.dirs = .ok true → ReadsSel vars frags s []
  | leaf {n a args dirs o} : shouldSkip vars dirs = .ok false → readOptions vars args = .ok o →
      ReadsSel vars frags (.leaf n a args dirs) [.field n o a]
  | obj {n a args dirs o ss items} : shouldSkip vars dirs = .ok false → readOptions vars args = .ok o →
      Reads vars frags ss items → ReadsSel vars frags (.obj n a args dirs ss) [.link n (.mk items false) o a]
  | spread {n dirs body items} : shouldSkip vars dirs = .ok false → dget frags n = some body →
      Reads vars frags body items → ReadsSel vars frags (.spread n dirs) items
  | inline {dirs ss items} : shouldSkip vars dirs = .ok false → Reads vars frags ss items →
      ReadsSel vars frags (.inline dirs ss) items
inductive Reads (vars : List (String × Val)) (frags : List (String × List Sel)) : List Sel → List QItem → Prop
  | nil : Reads vars frags [] []
  | cons {s r a b} : ReadsSel vars frags s a → Reads vars frags r b → Reads vars frags (s :: r) (a ++ b)
end

/-- the cache is right -/
def CacheOk (vars : List (String × Val)) (frags : List (String × List Sel)) (c : FragCache) : Prop :=
  ∀ f items, dget c f = some items → ∃ body, dget frags f = some body ∧ Reads vars frags body items

section
variable {frag : String → FragCache → Except Err (List QItem × FragCache)}

mutual
theorem readSel_reads (hfrag : ∀ n c r, CacheOk vars frags c → frag n c = .ok r →
      CacheOk vars frags r.2 ∧ ∃ body, dget frags n = some body ∧ Reads vars frags body r.1) :
    (s : Sel) → ∀ c r, CacheOk vars frags c → readSel vars frag c s = .ok r →
      CacheOk vars frags r.2 ∧ ReadsSel vars frags s r.1
  | .leaf n a args dirs, c, r, hc, h => by
    rw [readSel, bind_ok_iff] at h
    obtain ⟨b, hb, h⟩ := h
    cases b with
    | true => cases h; exact ⟨hc, .skip hb⟩
    | false =>
      simp only [Bool.false_eq_true, if_false, bind_ok_iff] at h
      obtain ⟨o, ho, h⟩ := h
      cases h
      exact ⟨hc, .leaf hb ho⟩
  | .obj n a args dirs ss, c, r, hc, h => by
    rw [readSel, bind_ok_iff] at h
    obtain ⟨b, hb, h⟩ := h
    cases b with
    | true => cases h; exact ⟨hc, .skip hb⟩
    | false =>
      simp only [Bool.false_eq_true, if_false, bind_ok_iff] at h
      obtain ⟨o, ho, x, hx, h⟩ := h
      cases h
      obtain ⟨h1, h2⟩ := readSels_reads hfrag ss c x hc hx
      exact ⟨h1, .obj hb ho h2⟩
  | .spread n dirs, c, r, hc, h => by
    rw [readSel, bind_ok_iff] at h
    obtain ⟨b, hb, h⟩ := h
    cases b with
    | true => cases h; exact ⟨hc, .skip hb⟩
    | false =>
      simp only [Bool.false_eq_true, if_false] at h
      obtain ⟨h1, body, h2, h3⟩ := hfrag n c r hc h
      exact ⟨h1, .spread hb h2 h3⟩
  | .inline dirs ss, c, r, hc, h => by
    rw [readSel, bind_ok_iff] at h
    obtain ⟨b, hb, h⟩ := h
    cases b with
    | true => cases h; exact ⟨hc, .skip hb⟩
    | false =>
      simp only [Bool.false_eq_true, if_false] at h
      obtain ⟨h1, h2⟩ := readSels_reads hfrag ss c r hc h
      exact ⟨h1, .inline hb h2⟩
theorem readSels_reads (hfrag : ∀ n c r, CacheOk vars frags c → frag n c = .ok r →
      CacheOk vars frags r.2 ∧ ∃ body, dget frags n = some body ∧ Reads vars frags body r.1) :
    (ss : List Sel) → ∀ c r, CacheOk vars frags c → readSels vars frag c ss = .ok r →
      CacheOk vars frags r.2 ∧ Reads vars frags ss r.1
  | [], c, r, hc, h => by
    rw [readSels] at h
    cases h
    exact ⟨hc, .nil⟩
  | s :: ss, c, r, hc, h => by
    simp only [readSels, bind_ok_iff] at h
    obtain ⟨x, hx, y, hy, h⟩ := h
    cases h
    obtain ⟨h1, h2⟩ := readSel_reads hfrag s c x hc hx
    obtain ⟨h3, h4⟩ := readSels_reads hfrag ss x.2 y h1 hy
    exact ⟨h3, .cons h2 h4⟩
end
end

theorem readFrag_reads (fuel : Nat) : ∀ pending n c r, CacheOk vars frags c →
    readFrag vars frags fuel pending n c = .ok r →
      CacheOk vars frags r.2 ∧ ∃ body, dget frags n = some body ∧ Reads vars frags body r.1 := by
  induction fuel with
  | zero =>
    intro pending n c r hc h
    rw [readFrag] at h
    cases hb : dget frags n with
    | none => rw [hb] at h; cases h
    | some body =>
      rw [hb] at h
      simp only at h
      cases hn : dget c n with
      | none =>
        rw [hn] at h
        simp only at h
        split at h <;> cases h
      | some items =>
        rw [hn] at h
        cases h
        obtain ⟨body', h1, h2⟩ := hc n items hn
        exact ⟨hc, body', by rw [← hb, h1], h2⟩
  | succ fuel ih =>
    intro pending n c r hc h
    rw [readFrag] at h
    cases hb : dget frags n with
    | none => rw [hb] at h; cases h
    | some body =>
      rw [hb] at h
      simp only at h
      cases hn : dget c n with
      | none =>
        rw [hn] at h
        simp only at h
        split at h
        · cases h
        · rw [bind_ok_iff] at h
          obtain ⟨x, hx, h⟩ := h
          cases h
          obtain ⟨h1, h2⟩ := readSels_reads (ih (n :: pending)) body c x hc hx
          refine ⟨?_, body, rfl, h2⟩
          intro f items hf
          simp only at hf
          rw [dget_dset] at hf
          split at hf
          · rename_i he
            subst he
            cases hf
            exact ⟨body, hb, h2⟩
          · exact h1 f items hf
      | some items =>
        rw [hn] at h
        cases h
        obtain ⟨body', h1, h2⟩ := hc n items hn
        exact ⟨hc, body', by rw [← hb, h1], h2⟩

/-! ### Errors -/

section
variable {frag : String → FragCache → Except Err (List QItem × FragCache)} {P : Err → Prop}

mutual
theorem readSel_error (hP : P .typeError) : (s : Sel) → (∀ n ∈ s.spreads, ∀ c e, frag n c = .error e → P e) →
    ∀ c e, readSel vars frag c s = .error e → P e
  | .leaf n a args dirs, hf, c, e, h => by
    rw [readSel, bind_error_iff] at h
    rcases h with h | ⟨b, _, h⟩
    · cases shouldSkip_error h; exact hP
    · cases b with
      | true => cases h
      | false =>
        simp only [Bool.false_eq_true, if_false, bind_error_iff] at h
        rcases h with h | ⟨_, _, h⟩
        · cases readOptions_error h; exact hP
        · cases h
  | .obj n a args dirs ss, hf, c, e, h => by
    rw [readSel, bind_error_iff] at h
    rcases h with h | ⟨b, _, h⟩
    · cases shouldSkip_error h; exact hP
    · cases b with
      | true => cases h
      | false =>
        simp only [Bool.false_eq_true, if_false, bind_error_iff] at h
        rcases h with h | ⟨_, _, h | ⟨_, _, h⟩⟩
        · cases readOptions_error h; exact hP
        · exact readSels_error hP ss (by simpa [Sel.spreads] using hf) c e h
        · cases h
  | .spread n dirs, hf, c, e, h => by
    rw [readSel, bind_error_iff] at h
    rcases h with h | ⟨b, _, h⟩
    · cases shouldSkip_error h; exact hP
    · cases b with
      | true => cases h
      | false =>
        simp only [Bool.false_eq_true, if_false] at h
        exact hf n (by simp [Sel.spreads]) c e h
  | .inline dirs ss, hf, c, e, h => by
    rw [readSel, bind_error_iff] at h
    rcases h with h | ⟨b, _, h⟩
    · cases shouldSkip_error h; exact hP
    · cases b with
      | true => cases h
      | false =>
        simp only [Bool.false_eq_true, if_false] at h
        exact readSels_error hP ss (by simpa [Sel.spreads] using hf) c e h
theorem readSels_error (hP : P .typeError) : (ss : List Sel) → (∀ n ∈ spreadsIn ss, ∀ c e, frag n c = .error e → P e) →
    ∀ c e, readSels vars frag c ss = .error e → P e
  | [], hf, c, e, h => by simp [readSels] at h
  | s :: ss, hf, c, e, h => by
    simp only [readSels, bind_error_iff] at h
    rcases h with h | ⟨x, _, h | ⟨_, _, h⟩⟩
    · exact readSel_error hP s (fun n hn => hf n (by rw [spreadsIn]; simp [hn])) c e h
    · exact readSels_error hP ss (fun n hn => hf n (by rw [spreadsIn]; simp [hn])) _ e h
    · cases h
end
end

/-- number of the fragments which are not pending -/
def notPending (frags : List (String × List Sel)) (pending : List String) : Nat :=
  (frags.filter fun f => !decide (f.1 ∈ pending)).length

theorem filter_length_lt {α : Type} {p q : α → Bool} {l : List α} (h : ∀ x ∈ l, q x = true → p x = true) {a : α} (ha : a ∈ l)
    (pa : p a = true) (qa : q a = false) : (l.filter q).length < (l.filter p).length := by
  induction l with
  | nil => cases ha
  | cons x r ih =>
    have hr : ∀ y ∈ r, q y = true → p y = true := fun y hy => h y (List.mem_cons_of_mem _ hy)
    have hle : (r.filter q).length ≤ (r.filter p).length := by
      clear ih ha h
      induction r with
      | nil => simp
      | cons y r ih =>
        have := ih fun z hz => hr z (List.mem_cons_of_mem _ hz)
        have hy := hr y List.mem_cons_self
        cases hq : q y <;> cases hp : p y <;> simp_all <;> omega
    rcases List.mem_cons.1 ha with rfl | ha
    · simp [pa, qa]; omega
    · have := ih hr ha
      have hx := h x List.mem_cons_self
      cases hq : q x <;> cases hp : p x <;> simp_all <;> omega

theorem notPending_lt {n : String} {body : List Sel} (h : dget frags n = some body) {pending : List String} (hn : n ∉ pending) :
    notPending frags (n :: pending) < notPending frags pending := by
  refine filter_length_lt (a := (n, body)) ?_ (dget_mem h) (by simpa using hn) (by simp)
  intro x _ hx
  simp at hx ⊢
  exact hx.2

/-- the errors of reading a fragment; the fuel is never used up -/
theorem readFrag_error (fuel : Nat) : ∀ pending, notPending frags pending ≤ fuel → ∀ n c e,
    readFrag vars frags fuel pending n c = .error e → e = .typeError ∨ e = .keyError := by
  induction fuel with
  | zero =>
    intro pending hf n c e h
    rw [readFrag] at h
    cases hb : dget frags n with
    | none => rw [hb] at h; cases h; simp
    | some body =>
      rw [hb] at h
      simp only at h
      cases hn : dget c n with
      | some items => rw [hn] at h; cases h
      | none =>
        rw [hn] at h
        simp only at h
        split at h
        · cases h; simp
        · rename_i hp
          have := notPending_lt hb hp
          omega
  | succ fuel ih =>
    intro pending hf n c e h
    rw [readFrag] at h
    cases hb : dget frags n with
    | none => rw [hb] at h; cases h; simp
    | some body =>
      rw [hb] at h
      simp only at h
      cases hn : dget c n with
      | some items => rw [hn] at h; cases h
      | none =>
        rw [hn] at h
        simp only at h
        split at h
        · cases h; simp
        · rename_i hp
          have hlt := notPending_lt hb hp
          rw [bind_error_iff] at h
          rcases h with h | ⟨_, _, h⟩
          · exact readSels_error (P := fun e => e = .typeError ∨ e = .keyError) (.inl rfl) body
              (fun m _ c e h => ih (n :: pending) (by omega) m c e h) c e h
          · cases h

/-- the same if all fragments are defined -/
theorem readFrag_error_defined (hd : ∀ f body, dget frags f = some body → ∀ f' ∈ spreadsIn body, (dget frags f').isSome)
    (fuel : Nat) : ∀ pending, notPending frags pending ≤ fuel → ∀ n, (dget frags n).isSome → ∀ c e,
    readFrag vars frags fuel pending n c = .error e → e = .typeError := by
  induction fuel with
  | zero =>
    intro pending hf n hsome c e h
    rw [readFrag] at h
    cases hb : dget frags n with
    | none => rw [hb] at hsome; cases hsome
    | some body =>
      rw [hb] at h
      simp only at h
      cases hn : dget c n with
      | some items => rw [hn] at h; cases h
      | none =>
        rw [hn] at h
        simp only at h
        split at h
        · cases h; rfl
        · rename_i hp
          have := notPending_lt hb hp
          omega
  | succ fuel ih =>
    intro pending hf n hsome c e h
    rw [readFrag] at h
    cases hb : dget frags n with
    | none => rw [hb] at hsome; cases hsome
    | some body =>
      rw [hb] at h
      simp only at h
      cases hn : dget c n with
      | some items => rw [hn] at h; cases h
      | none =>
        rw [hn] at h
        simp only at h
        split at h
        · cases h; rfl
        · rename_i hp
          have hlt := notPending_lt hb hp
          rw [bind_error_iff] at h
          rcases h with h | ⟨_, _, h⟩
          · exact readSels_error (P := fun e => e = .typeError) rfl body
              (fun m hm c e h => ih (n :: pending) (by omega) m (hd n body hb m hm) c e h) c e h
          · cases h

/-- more fuel changes nothing -/
theorem readFrag_fuel_zero {pending : List String} (h0 : notPending frags pending = 0) (fuel fuel' : Nat) (n : String) (c : FragCache) :
    readFrag vars frags fuel pending n c = readFrag vars frags fuel' pending n c := by
  cases hb : dget frags n with
  | none => cases fuel <;> cases fuel' <;> simp only [readFrag, hb]
  | some body =>
    by_cases hp : n ∈ pending
    · cases fuel <;> cases fuel' <;> simp only [readFrag, hb, if_pos hp]
    · have := notPending_lt hb hp
      omega

theorem readFrag_fuel (fuel : Nat) : ∀ pending, notPending frags pending ≤ fuel → ∀ fuel', notPending frags pending ≤ fuel' →
    readFrag vars frags fuel pending = readFrag vars frags fuel' pending := by
  induction fuel with
  | zero =>
    intro pending hf fuel' hf'
    funext n c
    exact readFrag_fuel_zero (by omega) _ _ _ _
  | succ fuel ih =>
    intro pending hf fuel' hf'
    funext n c
    cases fuel' with
    | zero => exact readFrag_fuel_zero (by omega) _ _ _ _
    | succ fuel' =>
      rw [readFrag, readFrag]
      cases hb : dget frags n with
      | none => rfl
      | some body =>
        simp only
        by_cases hp : n ∈ pending
        · simp only [if_pos hp]
        · have := notPending_lt hb hp
          rw [ih (n :: pending) (by omega) fuel' (by omega)]

end Hiku
