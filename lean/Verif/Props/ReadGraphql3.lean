import Verif.Props.ReadGraphql2
import Verif.Props.Merge

/-! # C34-C36: directives, variables, operations -/

namespace Hiku

variable {vars : List (String × Val)} {frags : List (String × List Sel)}

/-! ### The meaning of a document -/

/-- the conditions of all selections which are visited fit -/
def ConditionsFit (vars : List (String × Val)) (frags : List (String × List Sel)) (ss : List Sel) : Prop :=
  ∀ s, Visited vars frags ss s → DirsFit vars s.dirs

theorem ConditionsFit.obj {n a args dirs ss} (h : ConditionsFit vars frags [.obj n a args dirs ss]) (he : ¬ Excluded vars dirs) :
    ConditionsFit vars frags ss := by
  intro s hs
  refine h s ?_
  cases hs with
  | here h => exact .here (.obj List.mem_cons_self he h)
  | spread h h3 h4 h5 => exact .spread (.obj List.mem_cons_self he h) h3 h4 h5

theorem ConditionsFit.inline {dirs ss} (h : ConditionsFit vars frags [.inline dirs ss]) (he : ¬ Excluded vars dirs) :
    ConditionsFit vars frags ss := by
  intro s hs
  refine h s ?_
  cases hs with
  | here h => exact .here (.inline List.mem_cons_self he h)
  | spread h h3 h4 h5 => exact .spread (.inline List.mem_cons_self he h) h3 h4 h5

theorem ConditionsFit.spread {n dirs body} (h : ConditionsFit vars frags [.spread n dirs]) (he : ¬ Excluded vars dirs)
    (hb : dget frags n = some body) : ConditionsFit vars frags body :=
  fun s hs => h s (.spread (.here List.mem_cons_self) he hb hs)

theorem ConditionsFit.head {s ss} (h : ConditionsFit vars frags (s :: ss)) : ConditionsFit vars frags [s] :=
  fun t ht => h t (ht.mono (by simp))

theorem ConditionsFit.tail {s ss} (h : ConditionsFit vars frags (s :: ss)) : ConditionsFit vars frags ss :=
  fun t ht => h t (ht.mono (by simp; tauto))

theorem ConditionsFit.one {s} (h : ConditionsFit vars frags [s]) : DirsFit vars s.dirs := h s (.here (.here List.mem_cons_self))

mutual
theorem readsSel_means {s : Sel} {items : List QItem} : ReadsSel vars frags s items → ConditionsFit vars frags [s] →
    MeansSel vars frags s items
  | .skip h, hc => by
    obtain ⟨h1, h2⟩ := (shouldSkip_fit hc.one).1.1 h
    exact .excluded h1 h2
  | .leaf h ho, hc => by
    obtain ⟨h1, h2⟩ := (shouldSkip_fit hc.one).2.1 h
    exact .leaf h1 h2 (readOptions_ok.1 ho)
  | .obj h ho hr, hc => by
    obtain ⟨h1, h2⟩ := (shouldSkip_fit hc.one).2.1 h
    exact .obj h1 h2 (readOptions_ok.1 ho) (reads_means hr (hc.obj h2))
  | .inline h hr, hc => by
    obtain ⟨h1, h2⟩ := (shouldSkip_fit hc.one).2.1 h
    exact .inline h1 h2 (reads_means hr (hc.inline h2))
  | .spread h hb hr, hc => by
    obtain ⟨h1, h2⟩ := (shouldSkip_fit hc.one).2.1 h
    exact .spread h1 h2 hb (reads_means hr (hc.spread h2 hb))
theorem reads_means {ss : List Sel} {items : List QItem} : Reads vars frags ss items → ConditionsFit vars frags ss →
    Means vars frags ss items
  | .nil, _ => .nil
  | .cons h1 h2, hc => .cons (readsSel_means h1 hc.head) (reads_means h2 hc.tail)
end

mutual
theorem meansSel_reads {s : Sel} {items : List QItem} : MeansSel vars frags s items → ConditionsFit vars frags [s] →
    ReadsSel vars frags s items
  | .excluded h1 h2, hc => .skip ((shouldSkip_fit hc.one).1.2 ⟨h1, h2⟩)
  | .leaf h1 h2 ho, hc => .leaf ((shouldSkip_fit hc.one).2.2 ⟨h1, h2⟩) (readOptions_ok.2 ho)
  | .obj h1 h2 ho hr, hc => .obj ((shouldSkip_fit hc.one).2.2 ⟨h1, h2⟩) (readOptions_ok.2 ho) (means_reads hr (hc.obj h2))
  | .inline h1 h2 hr, hc => .inline ((shouldSkip_fit hc.one).2.2 ⟨h1, h2⟩) (means_reads hr (hc.inline h2))
  | .spread h1 h2 hb hr, hc => .spread ((shouldSkip_fit hc.one).2.2 ⟨h1, h2⟩) hb (means_reads hr (hc.spread h2 hb))
theorem means_reads {ss : List Sel} {items : List QItem} : Means vars frags ss items → ConditionsFit vars frags ss →
    Reads vars frags ss items
  | .nil, _ => .nil
  | .cons h1 h2, hc => .cons (meansSel_reads h1 hc.head) (means_reads h2 hc.tail)
end

/-- C34, C35: the reader returns exactly the meaning of the operation: selections contribute iff they are not
excluded, arguments have their values under the variables, fragments are replaced; otherwise it raises. -/
theorem c34_c35_meaning_partial {H : PyHash} {doc : List Defn} {op : OpDef} {given vars : List (String × Val)}
    (hx : Executable doc) (hf : ((docFrags doc).map (·.1)).Nodup)
    (hn : (op.vars.map (·.name)).Nodup) (hv : OpVars given op.vars vars)
    (hc : ConditionsFit vars (docFrags doc) op.sels) (q : QNode) :
    readOp H doc op given = .ok q ↔
      ∃ items, Means vars (docFrags doc) op.sels items ∧ q = merge H [.mk items (op.kind = .mutation)] := by
  rw [readOp, readOpF_ok (Nat.le_refl _), (readVars_ok hn).2 hv]
  constructor
  · rintro ⟨_, _, vars', items, h1, h2, h3⟩
    cases h1
    exact ⟨items, reads_means h2 hc, h3⟩
  · rintro ⟨items, h2, h3⟩
    exact ⟨hx, hf, vars, items, rfl, means_reads h2 hc, h3⟩

/-! ### C34 -/

theorem readSels_append {frag : String → FragCache → Except Err (List QItem × FragCache)} {a b : List Sel} : ∀ {c},
    readSels vars frag c (a ++ b) = (do
      let x ← readSels vars frag c a
      let y ← readSels vars frag x.2 b
      .ok (x.1 ++ y.1, y.2)) := by
  induction a with
  | nil =>
    intro c
    simp only [List.nil_append, readSels, ok_bind']
    cases readSels vars frag c b <;> rfl
  | cons s a ih =>
    intro c
    simp only [List.cons_append, readSels, ih]
    cases readSel vars frag c s with
    | error e => rfl
    | ok x =>
      simp only [ok_bind']
      cases readSels vars frag x.2 a with
      | error e => rfl
      | ok y =>
        simp only [ok_bind']
        cases readSels vars frag y.2 b with
        | error e => rfl
        | ok z => simp

theorem readSels_one {frag : String → FragCache → Except Err (List QItem × FragCache)} {s : Sel} {c : FragCache} :
    readSels vars frag c [s] = readSel vars frag c s := by
  simp only [readSels]
  cases readSel vars frag c s with
  | error e => rfl
  | ok x => simp

theorem readSel_excluded {frag : String → FragCache → Except Err (List QItem × FragCache)} {s : Sel} {c : FragCache}
    (h : shouldSkip vars s.dirs = .ok true) : readSel vars frag c s = .ok ([], c) := by
  cases s <;> simp only [Sel.dirs] at h <;> simp [readSel, h]

theorem live_false {dirs : List Directive} (h : DirsOk vars dirs) (he : ¬ Excluded vars dirs) : shouldSkip vars dirs = .ok false := by
  obtain ⟨b, hb, hbe⟩ := shouldSkip_exact h
  cases b with
  | false => exact hb
  | true => exact absurd (hbe.1 rfl) he

theorem live_true {dirs : List Directive} (h : DirsOk vars dirs) (he : Excluded vars dirs) : shouldSkip vars dirs = .ok true := by
  obtain ⟨b, hb, hbe⟩ := shouldSkip_exact h
  rw [hb, hbe.2 he]

section
variable {frag : String → FragCache → Except Err (List QItem × FragCache)}

mutual
theorem prunesSel_read {s : Sel} {ss' : List Sel} : PrunesSel vars s ss' → ∀ c,
    readSels vars frag c ss' = readSel vars frag c s
  | .excluded h he, c => by
    rw [readSel_excluded (live_true h he)]; rfl
  | .leaf h he, c => by
    rw [readSels_one, readSel, readSel, live_false h he]; rfl
  | .obj h he hs, c => by
    rw [readSels_one, readSel, readSel, live_false h he, prunes_read hs]; rfl
  | .spread h he, c => by
    rw [readSels_one, readSel, readSel, live_false h he]; rfl
  | .inline h he hs, c => by
    rw [readSels_one, readSel, readSel, live_false h he, prunes_read hs]; rfl
theorem prunes_read {ss ss' : List Sel} : Prunes vars ss ss' → ∀ c, readSels vars frag c ss' = readSels vars frag c ss
  | .nil, c => rfl
  | .cons (r := r) (r' := r') h1 h2, c => by
    rw [readSels_append, readSels, prunesSel_read h1]
    simp only [prunes_read h2]
end
end

theorem prunesFrags_dget {fr fr' : List (String × List Sel)} (h : PrunesFrags vars fr fr') (n : String) :
    (dget fr n = none ∧ dget fr' n = none) ∨ ∃ b b', dget fr n = some b ∧ dget fr' n = some b' ∧ Prunes vars b b' := by
  induction h with
  | nil => exact .inl ⟨rfl, rfl⟩
  | @cons x y l l' hxy _ ih =>
    obtain ⟨k, b⟩ := x
    obtain ⟨k', b'⟩ := y
    obtain ⟨rfl, hp⟩ := hxy
    simp only [dget_cons]
    split
    · exact .inr ⟨b, b', rfl, rfl, hp⟩
    · exact ih

theorem prunesFrags_names {fr fr' : List (String × List Sel)} (h : PrunesFrags vars fr fr') : fr'.map (·.1) = fr.map (·.1) := by
  induction h with
  | nil => rfl
  | cons h _ ih => simp only [List.map_cons, ih, h.1]

theorem prunes_frag {fr fr' : List (String × List Sel)} (h : PrunesFrags vars fr fr') (fuel : Nat) : ∀ pending,
    readFrag vars fr' fuel pending = readFrag vars fr fuel pending := by
  induction fuel with
  | zero =>
    intro pending
    funext n c
    rw [readFrag, readFrag]
    rcases prunesFrags_dget h n with ⟨h1, h2⟩ | ⟨b, b', h1, h2, _⟩ <;> rw [h1, h2]
  | succ fuel ih =>
    intro pending
    funext n c
    rw [readFrag, readFrag]
    rcases prunesFrags_dget h n with ⟨h1, h2⟩ | ⟨b, b', h1, h2, hp⟩ <;> rw [h1, h2]
    simp only [ih, prunes_read hp]

/-- C34: reading a document is reading the document from which the excluded selections and all directives were
removed, everywhere.  (Directives must be proper; a `@skip` and an `@include`, both with a false condition, on one
selection are not covered, see `c34_both`.) -/
theorem c34_prune_partial {H : PyHash} {doc : List Defn} {op : OpDef} {given vars : List (String × Val)}
    (hx : Executable doc) (hf : ((docFrags doc).map (·.1)).Nodup)
    (hn : (op.vars.map (·.name)).Nodup) (hv : OpVars given op.vars vars)
    {sels' : List Sel} {frags' : List (String × List Sel)}
    (hs : Prunes vars op.sels sels') (hfr : PrunesFrags vars (docFrags doc) frags') :
    readOp H doc op given =
      readOp H (.op { op with sels := sels' } :: frags'.map fun f => .frag f.1 f.2) { op with sels := sels' } given := by
  have hnames : frags'.map (·.1) = (docFrags doc).map (·.1) := prunesFrags_names hfr
  have hdf : docFrags (.op { op with sels := sels' } :: frags'.map fun f => Defn.frag f.1 f.2) = frags' := by
    clear hfr hnames hs
    simp [docFrags, List.filterMap_map, Function.comp_def]
  have hx' : Executable (.op { op with sels := sels' } :: frags'.map fun f => Defn.frag f.1 f.2) := by
    intro d hd
    simp only [List.mem_cons, List.mem_map] at hd
    rcases hd with rfl | ⟨f, _, rfl⟩ <;> simp
  have h1 : collectFrags [] doc = .ok (docFrags doc) := frags_eq.2 ⟨hx, hf, rfl⟩
  have h2 := frags_eq.2 ⟨hx', by rw [hdf, hnames]; exact hf, rfl⟩
  rw [hdf] at h2
  have hlen : frags'.length = (docFrags doc).length := by simpa using congrArg List.length hnames
  have hle := docFrags_length doc
  rw [readOp, readOp, readOpF, readOpF]
  rw [(readVars_ok hn).2 hv, h1, h2]
  simp only [ok_bind', prunes_read hs, prunes_frag hfr]
  rw [readFrag_fuel doc.length [] (Nat.le_trans (notPending_le _ _) hle)]
  refine Nat.le_trans (notPending_le _ _) ?_
  simp [hlen]

theorem CondsOk.of_nil : CondsOk vars [] := by intro d hd; cases hd

/-- the condition which decides is not proper: the first `@skip`, or the first `@include` if there is no `@skip` -/
def BadCondition (vars : List (String × Val)) (dirs : List Directive) : Prop :=
  (∃ d, dirs.find? (fun d => d.name = "skip") = some d ∧ ¬ d.Ok vars) ∨
  ((∀ d ∈ dirs, d.name ≠ "skip") ∧ ∃ d, dirs.find? (fun d => d.name = "include") = some d ∧ ¬ d.Ok vars)

theorem bad_condition {dirs : List Directive} (h : BadCondition vars dirs) (b : Bool) : shouldSkip vars dirs ≠ .ok b := by
  have key : ∀ d b, ¬ Directive.Ok vars d → readCond vars d ≠ .ok b := by
    intro d b hd hb
    obtain ⟨a, v, h1, h2, _⟩ := readCond_ok.1 hb
    exact hd ⟨a, v, h1, h2⟩
  rw [shouldSkip]
  rcases h with ⟨d, hd, hno⟩ | ⟨hs, d, hd, hno⟩
  · rw [hd]
    exact key d b hno
  · have : dirs.find? (fun d => d.name = "skip") = none := by simpa using hs
    rw [this, hd]
    simp only
    cases hc : readCond vars d with
    | error e => intro h; cases h
    | ok c => exact absurd hc (key d c hno)

/-- C34: malformed directives of visited selections raise; if all fragments are defined, TypeError -/
theorem c34_malformed {H : PyHash} {doc : List Defn} {op : OpDef} {given vars : List (String × Val)}
    (hn : (op.vars.map (·.name)).Nodup) (hv : OpVars given op.vars vars)
    {s : Sel} (hs : Visited vars (docFrags doc) op.sels s) (hb : BadCondition vars s.dirs) :
    (∀ q, readOp H doc op given ≠ .ok q) ∧
    (Executable doc → SpreadsDefined (docFrags doc) op.sels → readOp H doc op given = .error .typeError) := by
  have key : ∀ q, readOp H doc op given ≠ .ok q := by
    intro q h
    obtain ⟨_, _, vars', items, h1, h2, _⟩ := (readOpF_ok (Nat.le_refl _)).1 h
    rw [(readVars_ok hn).2 hv] at h1; cases h1
    obtain ⟨its, hr⟩ := hs.reads h2
    obtain ⟨b, h⟩ := hr.skips
    exact bad_condition hb b h
  refine ⟨key, fun hx hd => ?_⟩
  cases h : readOp H doc op given with
  | ok q => exact absurd h (key q)
  | error e =>
    rcases readOpF_error (Nat.le_refl _) h with rfl | ⟨_, h⟩ | ⟨_, h⟩
    · rfl
    · exact absurd hx h
    · exact absurd hd h

/-- C34 fails in general: `{ a @skip(if: false) @include(if: false) }` requests `a`, although it is excluded -/
theorem c34_both (H : PyHash) :
    let dirs : List Directive := [⟨"skip", [("if", .bool false)]⟩, ⟨"include", [("if", .bool false)]⟩]
    let op : OpDef := { kind := .query, name := none, vars := [], sels := [.leaf "a" none [] dirs] }
    Excluded [] dirs ∧ readOp H [.op op] op [] = .ok (merge H [.mk [.field "a" none none] false]) := by
  refine ⟨⟨⟨"include", [("if", .bool false)]⟩, by simp, .bool false, .bool false, rfl, .bool _, .inr ⟨rfl, .false⟩⟩, rfl⟩

/-! ### C35 -/

/-- C35: a required variable which is not given raises TypeError -/
theorem c35_missing {H : PyHash} {doc : List Defn} {op : OpDef} {given : List (String × Val)}
    {d : VarDef} (hd : d ∈ op.vars) (hm : VarMissing given d) : readOp H doc op given = .error .typeError := by
  rw [readOp, readOpF, readVars_missing hd hm]; rfl

/-- C35: an undeclared variable in the arguments of a field which is visited and not excluded, or in the condition
of any visited selection that decides, raises; if all fragments are defined, TypeError -/
theorem c35_undeclared {H : PyHash} {doc : List Defn} {op : OpDef} {given vars : List (String × Val)}
    (hn : (op.vars.map (·.name)).Nodup) (hv : OpVars given op.vars vars)
    {s : Sel} (hs : Visited vars (docFrags doc) op.sels s) (he : ¬ Excluded vars s.dirs)
    {x : String} (hx : x ∈ varsArgs s.args) (hu : ∀ d ∈ op.vars, d.name ≠ x) :
    (∀ q, readOp H doc op given ≠ .ok q) ∧
    (Executable doc → SpreadsDefined (docFrags doc) op.sels → readOp H doc op given = .error .typeError) := by
  have hnone : dget vars x = none := by
    rw [dget_eq_none_iff]
    intro hm
    obtain ⟨kv, hkv, rfl⟩ := List.mem_map.1 hm
    have : ∀ (l : List VarDef) vs, OpVars given l vs → ∀ kv ∈ vs, ∃ d ∈ l, d.name = kv.1 := by
      intro l vs h
      induction h with
      | nil => intro kv h; cases h
      | cons h _ ih =>
        intro kv hkv
        rcases List.mem_cons.1 hkv with rfl | hkv
        · exact ⟨_, List.mem_cons_self, h.1.symm⟩
        · obtain ⟨d, hd, e⟩ := ih kv hkv
          exact ⟨d, List.mem_cons_of_mem _ hd, e⟩
    obtain ⟨d, hd, e⟩ := this _ _ hv kv hkv
    exact hu d hd e
  have key : ∀ q, readOp H doc op given ≠ .ok q := by
    intro q h
    obtain ⟨_, _, vars', items, h1, h2, _⟩ := (readOpF_ok (Nat.le_refl _)).1 h
    rw [(readVars_ok hn).2 hv] at h1; cases h1
    obtain ⟨its, hr⟩ := hs.reads h2
    have ho : ∃ o, MeansArgs vars s.args o := by
      cases hr with
      | skip h => exact absurd (shouldSkip_excluded h) he
      | leaf _ ho => exact ⟨_, readOptions_ok.1 ho⟩
      | obj _ ho _ => exact ⟨_, readOptions_ok.1 ho⟩
      | spread _ _ _ => cases hx
      | inline _ _ => cases hx
    obtain ⟨o, ho⟩ := ho
    generalize hargs : s.args = args at ho hx
    cases ho with
    | none => cases hx
    | some ho =>
      have := evalsArgs_vars ho x hx
      rw [hnone] at this; cases this
  refine ⟨key, fun hx hd => ?_⟩
  cases h : readOp H doc op given with
  | ok q => exact absurd h (key q)
  | error e =>
    rcases readOpF_error (Nat.le_refl _) h with rfl | ⟨_, h⟩ | ⟨_, h⟩
    · rfl
    · exact absurd hx h
    · exact absurd hd h

/-- C35: a variable has exactly one value -/
theorem c35_value_unique {given : List (String × Val)} {d : VarDef} {v v' : Val} (h : VarValue given d v) (h' : VarValue given d v') :
    v = v' := by
  have h := readVar_ok.2 h
  rw [readVar_ok.2 h'] at h
  cases h; rfl

/-! ### C36 -/

theorem collectOps_ok {doc : List Defn} : ∀ (acc : List (Option String × OpDef)) ops, (acc.map (·.1)).Nodup →
    (collectOps acc doc = .ok ops ↔ Executable doc ∧ (acc.map (·.1) ++ (docOps doc).map (·.name)).Nodup ∧
      ops = acc ++ (docOps doc).map fun o => (o.name, o)) := by
  induction doc with
  | nil =>
    intro acc ops hn
    simp only [collectOps, Except.ok.injEq, docOps, List.filterMap_nil, List.map_nil, List.append_nil, Executable]
    exact ⟨fun h => ⟨by simp, hn, h.symm⟩, fun h => h.2.2.symm⟩
  | cons d r ih =>
    intro acc ops hn
    cases d with
    | frag n s =>
      rw [collectOps, ih acc ops hn]
      simp [Executable, docOps]
    | other => simp [collectOps, Executable]
    | op o =>
      rw [collectOps]
      have hd : docOps (.op o :: r) = o :: docOps r := rfl
      by_cases h : dhas acc o.name = true
      · rw [if_pos h]
        simp only [reduceCtorEq, false_iff]
        rintro ⟨_, h2, _⟩
        rw [hd, List.map_cons, List.nodup_append] at h2
        rw [dhas, dget_isSome_iff] at h
        exact h2.2.2 _ h _ (by simp) rfl
      · rw [if_neg h]
        have hfresh : o.name ∉ acc.map (·.1) := by
          intro hm
          rw [dhas, dget_isSome_iff] at h
          exact h hm
        rw [dset_fresh hfresh, ih _ ops (by
          rw [List.map_append, List.nodup_append]
          refine ⟨hn, by simp, ?_⟩
          intro x hx y hy
          simp at hy
          subst hy
          intro e
          subst e
          exact hfresh hx), hd]
        simp [Executable]

theorem collectOps_error {doc : List Defn} : ∀ acc e, collectOps acc doc = .error e →
    e = .typeError ∨ (e = .attributeError ∧ ¬ Executable doc) := by
  induction doc with
  | nil => intro acc e h; cases h
  | cons d r ih =>
    intro acc e h
    have key : ∀ acc, collectOps acc r = .error e → e = .typeError ∨ (e = .attributeError ∧ ¬ Executable (d :: r)) := by
      intro acc h
      rcases ih acc e h with h | ⟨h1, h2⟩
      · exact .inl h
      · exact .inr ⟨h1, fun hx => h2 fun d hd => hx d (List.mem_cons_of_mem _ hd)⟩
    cases d with
    | frag n s => exact key acc h
    | other => cases h; exact .inr ⟨rfl, fun hx => hx _ List.mem_cons_self rfl⟩
    | op o =>
      rw [collectOps] at h
      split at h
      · cases h; exact .inl rfl
      · exact key _ h

/-- the operation is the one with the name; without a name, the only one -/
def Chosen (doc : List Defn) (name : Option String) (o : OpDef) : Prop :=
  match name with
  | some n => o ∈ docOps doc ∧ o.name = some n
  | none => docOps doc = [o]

theorem dget_ops {l : List OpDef} (hn : (l.map (·.name)).Nodup) {n : Option String} {o : OpDef} :
    dget (l.map fun o => (o.name, o)) n = some o ↔ o ∈ l ∧ o.name = n := by
  induction l with
  | nil => simp [dget]
  | cons x r ih =>
    rw [List.map_cons, List.nodup_cons] at hn
    rw [List.map_cons, dget_cons, List.mem_cons]
    by_cases hx : x.name = n
    · rw [if_pos hx]
      constructor
      · intro h; cases h; exact ⟨.inl rfl, hx⟩
      · rintro ⟨rfl | h, he⟩
        · rfl
        · exact absurd (List.mem_map.2 ⟨o, h, by rw [he, hx]⟩) hn.1
    · rw [if_neg hx, ih hn.2]
      constructor
      · rintro ⟨h, he⟩; exact ⟨.inr h, he⟩
      · rintro ⟨rfl | h, he⟩
        · exact absurd he hx
        · exact ⟨h, he⟩

/-- C36: the operation is found iff the document has only executable definitions, its operations have distinct
names and it is the chosen one -/
theorem c36_chosen {doc : List Defn} {name : Option String} {o : OpDef} :
    getOp doc name = .ok o ↔ Executable doc ∧ ((docOps doc).map (·.name)).Nodup ∧ Chosen doc name o := by
  have hc := fun ops => collectOps_ok (doc := doc) [] ops (by simp)
  simp only [List.map_nil, List.nil_append] at hc
  rw [getOp]
  cases he : collectOps [] doc with
  | error e =>
    constructor
    · intro h; cases h
    · rintro ⟨h1, h2, _⟩
      rw [(hc _).2 ⟨h1, h2, rfl⟩] at he
      cases he
  | ok ops =>
    obtain ⟨h1, h2, h3⟩ := (hc ops).1 he
    rw [ok_bind']
    cases hops : docOps doc with
    | nil =>
      rw [hops] at h3
      subst h3
      simp only [List.map_nil]
      constructor
      · intro h; cases h
      · rintro ⟨_, _, h⟩
        cases name with
        | none => simp [Chosen, hops] at h
        | some n => simp [Chosen, hops] at h
    | cons o' r =>
      rw [hops] at h3 h2
      cases name with
      | none =>
        subst h3
        simp only [List.map_cons, List.isEmpty_map, Chosen, hops]
        cases r with
        | nil =>
          simp only [List.isEmpty_nil, if_true, Except.ok.injEq]
          constructor
          · rintro rfl; exact ⟨h1, by simp, by simp⟩
          · rintro ⟨_, _, h⟩; simpa using h
        | cons o'' r => simp
      | some n =>
        have hd := dget_ops h2 (n := some n) (o := o)
        simp only [Chosen, hops]
        rw [← h3] at hd
        subst h3
        simp only [List.map_cons]
        rw [show ((o'.name, o') :: r.map fun o => (o.name, o)) = (o' :: r).map fun o => (o.name, o) from rfl]
        constructor
        · intro h
          split at h
          · rename_i o1 hd1
            cases h
            exact ⟨h1, h2, hd.1 hd1⟩
          · cases h
        · rintro ⟨_, _, h⟩
          rw [hd.2 h]

/-- C36: the errors.  An unknown name raises ValueError, everything else TypeError (AttributeError for definitions
which are not executable). -/
theorem c36_errors {doc : List Defn} {name : Option String} {e : Err} (h : getOp doc name = .error e) :
    (e = .attributeError ∧ ¬ Executable doc) ∨
    (e = .valueError ∧ ∃ n, name = some n ∧ docOps doc ≠ [] ∧ ∀ o ∈ docOps doc, o.name ≠ some n) ∨
    e = .typeError := by
  have hc := fun ops => collectOps_ok (doc := doc) [] ops (by simp)
  simp only [List.map_nil, List.nil_append] at hc
  rw [getOp] at h
  cases he : collectOps [] doc with
  | error e' =>
    rw [he] at h
    cases h
    rcases collectOps_error _ _ he with h | h
    · exact .inr (.inr h)
    · exact .inl h
  | ok ops =>
    obtain ⟨h1, h2, h3⟩ := (hc ops).1 he
    rw [he, ok_bind'] at h
    split at h
    · cases h; exact .inr (.inr rfl)
    · split at h
      · split at h
        · cases h
        · cases h; exact .inr (.inr rfl)
      · rename_i n
        split at h
        · cases h
        · rename_i hd
          cases h
          refine .inr (.inl ⟨rfl, n, rfl, ?_, ?_⟩)
          · intro h0; rw [h0] at h3; simp at h3
          · intro o ho hn'
            rw [h3, (dget_ops h2).2 ⟨ho, hn'⟩] at hd
            cases hd

/-- all nodes are unordered -/
def AllUnordered (q : QNode) : Prop := ∀ q', Below q q' → q'.ordered = false

/-- the nodes nested in an item are unordered -/
def ItemUnordered (i : QItem) : Prop := ∀ n q o a, i = .link n q o a → AllUnordered q

theorem allUnordered_iff {q : QNode} : AllUnordered q ↔ q.ordered = false ∧ ∀ i ∈ q.fields, ItemUnordered i := by
  constructor
  · intro h
    refine ⟨h q (.refl q), ?_⟩
    rintro i hi n q' o a rfl q'' hb
    cases q with
    | mk fs ord => exact h q'' (.step hi hb)
  · rintro ⟨h1, h2⟩ q' hb
    cases hb with
    | refl => exact h1
    | step hm hb => exact h2 _ hm _ _ _ _ rfl _ hb

theorem merge_items_unordered (H : PyHash) (nodes : List QNode) :
    (∀ q ∈ nodes, ∀ i ∈ q.fields, ItemUnordered i) → ∀ i ∈ (merge H nodes).fields, ItemUnordered i := by
  induction nodes using merge_induction' H with
  | h nodes ih =>
    intro hu i hi
    rw [merge_closed] at hi
    simp only [QNode.fields, List.mem_append, List.mem_map] at hi
    rcases hi with hi | ⟨j, hj, rfl⟩
    · have := (mem_fieldItems.1 (mem_of_mem_dedupBy _ hi))
      intro n q o a e
      subst e
      simp [QItem.isLink] at this
    · have hj := mem_of_mem_dedupBy _ hj
      intro n q o a e
      cases e
      have hall : ∀ q ∈ nodesOf H (itemKey H j) (nodes.flatMap QNode.fields), AllUnordered q := by
        intro q hq
        obtain ⟨n, o, a, hm, _⟩ := mem_nodesOf.1 hq
        obtain ⟨q0, hq0, hm⟩ := List.mem_flatMap.1 hm
        exact hu q0 hq0 _ hm _ _ _ _ rfl
      rw [allUnordered_iff]
      refine ⟨?_, ih j hj fun q hq => (allUnordered_iff.1 (hall q hq)).2⟩
      rw [merge_closed]
      simp only [QNode.ordered]
      rw [List.any_eq_false]
      intro q hq
      simpa using (allUnordered_iff.1 (hall q hq)).1

mutual
theorem readsSel_unordered {s : Sel} {items : List QItem} : ReadsSel vars frags s items → ∀ i ∈ items, ItemUnordered i
  | .skip _, i, hi => by cases hi
  | .leaf _ _, i, hi => by
    simp at hi; subst hi; intro n q o a e; cases e
  | .obj _ _ hr, i, hi => by
    simp at hi; subst hi; intro n q o a e; cases e
    exact allUnordered_iff.2 ⟨rfl, reads_unordered hr⟩
  | .spread _ _ hr, i, hi => reads_unordered hr i hi
  | .inline _ hr, i, hi => reads_unordered hr i hi
theorem reads_unordered {ss : List Sel} {items : List QItem} : Reads vars frags ss items → ∀ i ∈ items, ItemUnordered i
  | .nil, i, hi => by cases hi
  | .cons h1 h2, i, hi => by
    rcases List.mem_append.1 hi with hi | hi
    · exact readsSel_unordered h1 i hi
    · exact reads_unordered h2 i hi
end

/-- C36: only mutations are ordered, and only at the top -/
theorem c36_ordered {H : PyHash} {doc : List Defn} {op : OpDef} {given : List (String × Val)} {q : QNode}
    (h : readOp H doc op given = .ok q) :
    (q.ordered = true ↔ op.kind = .mutation) ∧
    ∀ n q' o a q'', QItem.link n q' o a ∈ q.fields → Below q' q'' → q''.ordered = false := by
  obtain ⟨_, _, vars, items, _, h2, rfl⟩ := (readOpF_ok (Nat.le_refl _)).1 h
  constructor
  · rw [(c03_merge_order_partial H _).2.2.1]
    simp [QNode.ordered]
  · intro n q' o a q'' hm hb
    refine merge_items_unordered H [.mk items _] ?_ _ hm _ _ _ _ rfl _ hb
    intro q hq i hi
    simp only [List.mem_singleton] at hq
    subst hq
    exact reads_unordered h2 i hi

/-- C36: `read_operation` returns the query, the kind and the name of the chosen operation; `read` returns the query
of the chosen operation iff it is of kind query -/
theorem c36_read {H : PyHash} {doc : List Defn} {given : List (String × Val)} {name : Option String} :
    (∀ r, readOperation H doc given name = .ok r ↔ ∃ o, (Executable doc ∧ ((docOps doc).map (·.name)).Nodup ∧ Chosen doc name o) ∧
      r.kind = o.kind ∧ r.name = o.name ∧
      readOp H doc o given = .ok r.query) ∧
    (∀ q, readGraphql H doc given name = .ok q ↔ ∃ o, (Executable doc ∧ ((docOps doc).map (·.name)).Nodup ∧ Chosen doc name o) ∧
      o.kind = .query ∧ readOp H doc o given = .ok q) := by
  simp only [← c36_chosen]
  constructor
  · intro r
    simp only [readOperation, bind_ok_iff]
    constructor
    · rintro ⟨o, h1, q, h2, h3⟩
      cases h3
      exact ⟨o, h1, rfl, rfl, h2⟩
    · rintro ⟨o, h1, h2, h3, h4⟩
      refine ⟨o, h1, r.query, h4, ?_⟩
      rw [← h2, ← h3]
  · intro q
    simp only [readGraphql, bind_ok_iff]
    constructor
    · rintro ⟨o, h1, h2⟩
      split at h2
      · rename_i hk
        exact ⟨o, h1, hk, h2⟩
      · cases h2
    · rintro ⟨o, h1, hk, h2⟩
      exact ⟨o, h1, by rw [if_pos hk]; exact h2⟩


/-! ### An example

```
query Q($n: Int! = 3, $s: Boolean) { ...A  z @skip(if: $s) }
fragment A on X { x(n: $n) { ...B } w @include(if: false) }
fragment B on Y { y }
fragment C on Y { y ... on Y { ...C } }
mutation M { a b }
query Cyc { x { ...C } }
query Undef { x(n: $n) }
```
-/

def exGqlQ : OpDef where
  kind := .query
  name := some "Q"
  vars := [⟨"n", true, some (.int 3)⟩, ⟨"s", false, none⟩]
  sels := [.spread "A" [], .leaf "z" none [] [⟨"skip", [("if", .var "s")]⟩]]
def exGqlM : OpDef where
  kind := .mutation
  name := some "M"
  vars := []
  sels := [.leaf "a" none [] [], .leaf "b" none [] []]
def exGqlCyc : OpDef where
  kind := .query
  name := some "Cyc"
  vars := []
  sels := [.obj "x" none [] [] [.spread "C" []]]
def exGqlUndef : OpDef where
  kind := .query
  name := some "Undef"
  vars := []
  sels := [.leaf "x" none [("n", .var "n")] []]
def exGqlA : List Sel :=
  [.obj "x" none [("n", .var "n")] [] [.spread "B" []], .leaf "w" none [] [⟨"include", [("if", .bool false)]⟩]]
def exGqlB : List Sel := [.leaf "y" none [] []]
def exGqlC : List Sel := [.leaf "y" none [] [], .inline [] [.spread "C" []]]
def exGqlDoc : List Defn :=
  [.op exGqlQ, .frag "A" exGqlA, .frag "B" exGqlB, .frag "C" exGqlC, .op exGqlM, .op exGqlCyc, .op exGqlUndef]
def exGqlVars : List (String × Val) := [("n", .int 3), ("s", .bool true)]

example : Executable exGqlDoc := by
  intro d hd
  simp only [exGqlDoc, List.mem_cons, List.not_mem_nil, or_false] at hd
  rcases hd with rfl | rfl | rfl | rfl | rfl | rfl | rfl <;> simp
example : ((docFrags exGqlDoc).map (·.1)).Nodup := by decide
example : ((docOps exGqlDoc).map (·.name)).Nodup := by decide
example : (exGqlQ.vars.map (·.name)).Nodup := by decide
theorem exGql_vars : OpVars [("s", .bool true)] exGqlQ.vars exGqlVars :=
  .cons ⟨rfl, .inr (.inl ⟨rfl, _, rfl, .int 3⟩)⟩ (.cons ⟨rfl, .inl rfl⟩ .nil)

/-- C32: the inlined selections of the example -/
theorem exGql_inlines : Inlines (docFrags exGqlDoc) exGqlQ.sels
    [.inline [] [.obj "x" none [("n", .var "n")] [] [.inline [] exGqlB], .leaf "w" none [] [⟨"include", [("if", .bool false)]⟩]],
     .leaf "z" none [] [⟨"skip", [("if", .var "s")]⟩]] :=
  .cons (.spread rfl (.cons (.obj (.cons (.spread rfl (.cons .leaf .nil)) .nil)) (.cons .leaf .nil))) (.cons .leaf .nil)

/-- and what it reads -/
example (H : PyHash) : readOp H exGqlDoc exGqlQ [("s", .bool true)] =
    .ok (merge H [.mk [.link "x" (.mk [.field "y" none none] false) (some [("n", .int 3)]) none] false]) := rfl

/-- C34, C35: the example has this meaning -/
theorem exGql_means : Means exGqlVars (docFrags exGqlDoc) exGqlQ.sels
    [.link "x" (.mk [.field "y" none none] false) (some [("n", .int 3)]) none] := by
  refine .cons (a := [_]) (b := []) (.spread .of_nil (by rintro ⟨d, hd, _⟩; cases hd) rfl ?_) (.cons (a := []) (b := []) ?_ .nil)
  · refine .cons (a := [_]) (b := []) (.obj .of_nil (by rintro ⟨d, hd, _⟩; cases hd) (.some (.cons (.var rfl) .nil)) ?_)
      (.cons (a := []) (b := []) ?_ .nil)
    · exact .cons (a := [_]) (b := []) (.spread .of_nil (by rintro ⟨d, hd, _⟩; cases hd) rfl
        (.cons (a := [_]) (b := []) (.leaf .of_nil (by rintro ⟨d, hd, _⟩; cases hd) .none) .nil)) .nil
    · refine .excluded ?_ ⟨⟨"include", [("if", .bool false)]⟩, by simp [Sel.dirs], _, _, rfl, .bool _, .inr ⟨rfl, .false⟩⟩
      intro d hd _
      simp [Sel.dirs] at hd
      subst hd
      exact ⟨_, _, rfl, .bool _⟩
  · refine .excluded ?_ ⟨⟨"skip", [("if", .var "s")]⟩, by simp [Sel.dirs], _, _, rfl, .var rfl, .inl ⟨rfl, by rintro ⟨⟩⟩⟩
    intro d hd _
    simp [Sel.dirs] at hd
    subst hd
    exact ⟨_, _, rfl, .var rfl⟩

theorem single_fit {dirs : List Directive} (h : (dirs.filter Directive.isCond).length ≤ 1) : DirsFit vars dirs := .inl h

mutual
/-- every selection has at most one condition -/
def Sel.single : Sel → Bool
  | .leaf _ _ _ d => (d.filter Directive.isCond).length ≤ 1
  | .obj _ _ _ d ss => decide ((d.filter Directive.isCond).length ≤ 1) && singleIn ss
  | .spread _ d => (d.filter Directive.isCond).length ≤ 1
  | .inline d ss => decide ((d.filter Directive.isCond).length ≤ 1) && singleIn ss
def singleIn : List Sel → Bool
  | [] => true
  | s :: r => s.single && singleIn r
end

theorem singleIn_mem {ss : List Sel} (h : singleIn ss = true) : ∀ s ∈ ss, s.single = true := by
  induction ss with
  | nil => intro s hs; cases hs
  | cons t r ih =>
    simp only [singleIn, Bool.and_eq_true] at h
    intro s hs
    rcases List.mem_cons.1 hs with rfl | hs
    · exact h.1
    · exact ih h.2 s hs

theorem Sel.single_dirs {s : Sel} (h : s.single = true) : (s.dirs.filter Directive.isCond).length ≤ 1 := by
  cases s <;> simp [Sel.single] at h <;> simp [Sel.dirs] <;> tauto

theorem single_visitedIn {ss : List Sel} {s : Sel} (hv : VisitedIn vars ss s) : singleIn ss = true → s.single = true := by
  induction hv with
  | here h => intro hs; exact singleIn_mem hs _ h
  | obj hm _ _ ih => intro hs; have := singleIn_mem hs _ hm; simp [Sel.single] at this; exact ih this.2
  | inline hm _ _ ih => intro hs; have := singleIn_mem hs _ hm; simp [Sel.single] at this; exact ih this.2

/-- C34, C35: with at most one condition on each selection the meaning theorem applies -/
theorem c34_single {ss : List Sel} (h : singleIn ss = true) (hf : ∀ f body, dget frags f = some body → singleIn body = true) :
    ConditionsFit vars frags ss := by
  have : ∀ ss s, Visited vars frags ss s → singleIn ss = true → s.single = true := by
    intro ss s hv
    induction hv with
    | here h => exact single_visitedIn h
    | spread _ _ hb _ ih => intro _; exact ih (hf _ _ hb)
  intro s hv
  exact .inl (Sel.single_dirs (this ss s hv h))

example : ConditionsFit exGqlVars (docFrags exGqlDoc) exGqlQ.sels := by
  refine c34_single (by decide) ?_
  have hd : docFrags exGqlDoc = [("A", exGqlA), ("B", exGqlB), ("C", exGqlC)] := rfl
  intro f body hb
  have := dget_mem hb
  rw [hd] at this
  simp only [List.mem_cons, Prod.mk.injEq, List.not_mem_nil, or_false] at this
  rcases this with ⟨_, rfl⟩ | ⟨_, rfl⟩ | ⟨_, rfl⟩ <;> decide

/-- C33: `Cyc` has a cyclic fragment -/
example : CyclicFragment [] (docFrags exGqlDoc) exGqlCyc.sels := by
  have he : ¬ Excluded [] [] := by rintro ⟨d, hd, _⟩; cases hd
  refine ⟨"C", [], exGqlC, [], .here (.obj List.mem_cons_self he (.here List.mem_cons_self)), he, rfl, ?_, he⟩
  exact .here (.inline (List.mem_cons_of_mem _ List.mem_cons_self) he (.here List.mem_cons_self))
example (H : PyHash) : readOp H exGqlDoc exGqlCyc [] = .error .typeError := rfl

/-- C35: `Undef` uses an undeclared variable -/
example : Visited [] (docFrags exGqlDoc) exGqlUndef.sels (.leaf "x" none [("n", .var "n")] []) := .here (.here List.mem_cons_self)
example (H : PyHash) : readOp H exGqlDoc exGqlUndef [] = .error .typeError := rfl

/-- C35: a missing variable -/
example : VarMissing [] ⟨"n", true, none⟩ := ⟨rfl, rfl, rfl⟩

/-- C36 -/
example (H : PyHash) : readOperation H exGqlDoc [] (some "M") = .ok { kind := .mutation, name := some "M", query := merge H [.mk [.field "a" none none, .field "b" none none] true] } := rfl
example : getOp exGqlDoc none = .error .typeError := rfl
example : getOp exGqlDoc (some "N") = .error .valueError := rfl

/-- C34: pruning in the example -/
example : Prunes exGqlVars exGqlA [.obj "x" none [("n", .var "n")] [] [.spread "B" []]] := by
  have hnil : DirsOk exGqlVars [] := ⟨by simp, by simp, .of_nil, by simp⟩
  have he : ¬ Excluded exGqlVars [] := by rintro ⟨d, hd, _⟩; cases hd
  refine .cons (s' := [_]) (r' := []) (.obj hnil he (.cons (s' := [_]) (r' := []) (.spread hnil he) .nil))
    (.cons (s' := []) (r' := []) (.excluded ⟨by simp [Sel.dirs], by simp [Sel.dirs], ?_, by simp [Sel.dirs]⟩ ?_) .nil)
  · intro d hd _
    simp [Sel.dirs] at hd
    subst hd
    exact ⟨_, _, rfl, .bool _⟩
  · exact ⟨⟨"include", [("if", .bool false)]⟩, by simp [Sel.dirs], _, _, rfl, .bool _, .inr ⟨rfl, .false⟩⟩

end Hiku
