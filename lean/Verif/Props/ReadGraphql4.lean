import Verif.Props.ReadGraphql3

/-! # C34: the rule the code follows, for every document -/

namespace Hiku

variable {vars : List (String × Val)} {frags : List (String × List Sel)}

theorem find?_split {α : Type} {p : α → Bool} {l : List α} {d : α} (h : l.find? p = some d) :
    ∃ before after, l = before ++ d :: after ∧ p d = true ∧ ∀ x ∈ before, p x = false := by
  rw [List.find?_eq_some_iff_append] at h
  obtain ⟨h1, a, b, h2, h3⟩ := h
  exact ⟨a, b, h2, h1, fun x hx => by simpa using h3 x hx⟩

theorem decides_iff {dirs : List Directive} {d : Directive} : Decides dirs d ↔
    dirs.find? (fun d => d.name = "skip") = some d ∨
    (dirs.find? (fun d => d.name = "skip") = none ∧ dirs.find? (fun d => d.name = "include") = some d) := by
  constructor
  · intro h
    cases h with
    | skip h1 h2 =>
      refine .inl (List.find?_eq_some_iff_append.2 ⟨by simpa using h1, _, _, rfl, fun x hx => by simpa using h2 x hx⟩)
    | incl h1 h2 h3 =>
      refine .inr ⟨List.find?_eq_none.2 fun x hx => by simpa using h3 x hx,
        List.find?_eq_some_iff_append.2 ⟨by simpa using h1, _, _, rfl, fun x hx => by simpa using h2 x hx⟩⟩
  · rintro (h | ⟨h0, h⟩)
    · obtain ⟨a, b, rfl, h1, h2⟩ := find?_split h
      exact .skip (by simpa using h1) fun x hx => by simpa using h2 x hx
    · obtain ⟨a, b, rfl, h1, h2⟩ := find?_split h
      exact .incl (by simpa using h1) (fun x hx => by simpa using h2 x hx) fun x hx => by
        simpa using List.find?_eq_none.1 h0 x hx

theorem Decides.unique {dirs : List Directive} {d d' : Directive} (h : Decides dirs d) (h' : Decides dirs d') : d = d' := by
  rw [decides_iff] at h h'
  rcases h with h | ⟨h, h1⟩ <;> rcases h' with h' | ⟨h', h2⟩
  · rw [h] at h'; exact Option.some.inj h'
  · rw [h] at h'; cases h'
  · rw [h] at h'; cases h'
  · rw [h1] at h2; exact Option.some.inj h2

theorem Decides.name {dirs : List Directive} {d : Directive} (h : Decides dirs d) :
    (d.name = "skip" ∧ dirs.find? (fun d => d.name = "skip") = some d) ∨
    (d.name = "include" ∧ dirs.find? (fun d => d.name = "skip") = none ∧
      dirs.find? (fun d => d.name = "include") = some d) := by
  rcases decides_iff.1 h with h | ⟨h, h'⟩
  · exact .inl ⟨by simpa using List.find?_some h, h⟩
  · exact .inr ⟨by simpa using List.find?_some h', h, h'⟩

theorem shouldSkip_leftOut {dirs : List Directive} : shouldSkip vars dirs = .ok true ↔ LeftOut vars dirs := by
  constructor
  · intro h
    rw [shouldSkip] at h
    split at h
    · rename_i d hd
      obtain ⟨a, v, h1, h2, h3⟩ := readCond_ok.1 h
      exact ⟨d, a, v, decides_iff.2 (.inl hd), h1, h2, .inl ⟨by simpa using List.find?_some hd, truthy_iff.1 h3⟩⟩
    · rename_i hn
      split at h
      · rename_i d hd
        rw [bind_ok_iff] at h
        obtain ⟨b, hb, h⟩ := h
        obtain ⟨a, v, h1, h2, h3⟩ := readCond_ok.1 hb
        refine ⟨d, a, v, decides_iff.2 (.inr ⟨hn, hd⟩), h1, h2, .inr ⟨by simpa using List.find?_some hd, ?_⟩⟩
        rw [← falsy_iff, h3]
        simpa using h
      · cases h
  · rintro ⟨d, a, v, hd, h1, h2, h3⟩
    rcases hd.name with ⟨hn, hd⟩ | ⟨hn, hd, hd'⟩
    · rw [shouldSkip, hd]
      refine readCond_ok.2 ⟨a, v, h1, h2, ?_⟩
      rcases h3 with ⟨_, h3⟩ | ⟨h3, _⟩
      · exact truthy_iff.2 h3
      · rw [hn] at h3; exact absurd h3 (by decide)
    · rw [shouldSkip, hd, hd']
      have hc : readCond vars d = .ok false := by
        refine readCond_ok.2 ⟨a, v, h1, h2, ?_⟩
        rcases h3 with ⟨h3, _⟩ | ⟨_, h3⟩
        · rw [hn] at h3; exact absurd h3 (by decide)
        · exact falsy_iff.2 h3
      simp [hc]

theorem shouldSkip_takenIn {dirs : List Directive} : shouldSkip vars dirs = .ok false ↔ TakenIn vars dirs := by
  constructor
  · intro h
    rw [shouldSkip] at h
    split at h
    · rename_i d hd
      obtain ⟨a, v, h1, h2, h3⟩ := readCond_ok.1 h
      exact .inr ⟨d, a, v, decides_iff.2 (.inl hd), h1, h2, .inl ⟨by simpa using List.find?_some hd, falsy_iff.1 h3⟩⟩
    · rename_i hn
      split at h
      · rename_i d hd
        rw [bind_ok_iff] at h
        obtain ⟨b, hb, h⟩ := h
        obtain ⟨a, v, h1, h2, h3⟩ := readCond_ok.1 hb
        refine .inr ⟨d, a, v, decides_iff.2 (.inr ⟨hn, hd⟩), h1, h2, .inr ⟨by simpa using List.find?_some hd, ?_⟩⟩
        rw [← truthy_iff, h3]
        simpa using h
      · rename_i hi
        exact .inl fun d hd => ⟨by simpa using List.find?_eq_none.1 hn d hd, by simpa using List.find?_eq_none.1 hi d hd⟩
  · rintro (h | ⟨d, a, v, hd, h1, h2, h3⟩)
    · have e1 : dirs.find? (fun d => d.name = "skip") = none := List.find?_eq_none.2 fun d hd => by simpa using (h d hd).1
      have e2 : dirs.find? (fun d => d.name = "include") = none := List.find?_eq_none.2 fun d hd => by simpa using (h d hd).2
      rw [shouldSkip, e1, e2]
    · rcases hd.name with ⟨hn, hd⟩ | ⟨hn, hd, hd'⟩
      · rw [shouldSkip, hd]
        refine readCond_ok.2 ⟨a, v, h1, h2, ?_⟩
        rcases h3 with ⟨_, h3⟩ | ⟨h3, _⟩
        · exact falsy_iff.2 h3
        · rw [hn] at h3; exact absurd h3 (by decide)
      · rw [shouldSkip, hd, hd']
        have hc : readCond vars d = .ok true := by
          refine readCond_ok.2 ⟨a, v, h1, h2, ?_⟩
          rcases h3 with ⟨h3, _⟩ | ⟨_, h3⟩
          · rw [hn] at h3; exact absurd h3 (by decide)
          · exact truthy_iff.2 h3
        simp [hc]

mutual
theorem readsSel_yields {s : Sel} {items : List QItem} : ReadsSel vars frags s items → YieldsSel vars frags s items
  | .skip h => .out (shouldSkip_leftOut.1 h)
  | .leaf h ho => .leaf (shouldSkip_takenIn.1 h) (readOptions_ok.1 ho)
  | .obj h ho hr => .obj (shouldSkip_takenIn.1 h) (readOptions_ok.1 ho) (reads_yields hr)
  | .inline h hr => .inline (shouldSkip_takenIn.1 h) (reads_yields hr)
  | .spread h hb hr => .spread (shouldSkip_takenIn.1 h) hb (reads_yields hr)
theorem reads_yields {ss : List Sel} {items : List QItem} : Reads vars frags ss items → Yields vars frags ss items
  | .nil => .nil
  | .cons h1 h2 => .cons (readsSel_yields h1) (reads_yields h2)
end

mutual
theorem yieldsSel_reads {s : Sel} {items : List QItem} : YieldsSel vars frags s items → ReadsSel vars frags s items
  | .out h => .skip (shouldSkip_leftOut.2 h)
  | .leaf h ho => .leaf (shouldSkip_takenIn.2 h) (readOptions_ok.2 ho)
  | .obj h ho hr => .obj (shouldSkip_takenIn.2 h) (readOptions_ok.2 ho) (yields_reads hr)
  | .inline h hr => .inline (shouldSkip_takenIn.2 h) (yields_reads hr)
  | .spread h hb hr => .spread (shouldSkip_takenIn.2 h) hb (yields_reads hr)
theorem yields_reads {ss : List Sel} {items : List QItem} : Yields vars frags ss items → Reads vars frags ss items
  | .nil => .nil
  | .cons h1 h2 => .cons (yieldsSel_reads h1) (yields_reads h2)
end

theorem readVars_any {given : List (String × Val)} {l : List VarDef} : ∀ (acc : List (String × Val)) vars,
    readVars given acc l = .ok vars ↔ ∃ r, OpVars given l r ∧ vars = dupdate acc r := by
  induction l with
  | nil =>
    intro acc vars
    simp only [readVars, Except.ok.injEq]
    constructor
    · rintro rfl; exact ⟨[], .nil, rfl⟩
    · rintro ⟨r, h, rfl⟩; cases h; rfl
  | cons d l ih =>
    intro acc vars
    rw [readVars, bind_ok_iff]
    constructor
    · rintro ⟨v, hv, h⟩
      obtain ⟨r, hr, rfl⟩ := (ih _ _).1 h
      exact ⟨(d.name, v) :: r, .cons ⟨rfl, readVar_ok.1 hv⟩ hr, rfl⟩
    · rintro ⟨r, hr, rfl⟩
      cases hr with
      | @cons _ kv _ r hv hr =>
        obtain ⟨k, v⟩ := kv
        obtain ⟨rfl, hv⟩ := hv
        exact ⟨v, readVar_ok.2 hv, (ih _ _).2 ⟨r, hr, rfl⟩⟩

/-- C34, C35: what is read from every operation of every document, without any condition on the directives: a
selection is left out or taken as the first `@skip` says, or else the first `@include`; it is an error exactly when
the selections yield nothing under this rule (improper deciding conditions, undeclared variables, unknown fragments
or fragments which contain themselves), the document is not executable, two fragments share a name or a required
variable is missing.  A variable which is declared twice has the value of its last declaration (`dmk`). -/
theorem c34_exact {H : PyHash} {doc : List Defn} {op : OpDef} {given : List (String × Val)} (q : QNode) :
    readOp H doc op given = .ok q ↔
      Executable doc ∧ ((docFrags doc).map (·.1)).Nodup ∧ ∃ vars items, OpVars given op.vars vars ∧
        Yields (dmk vars) (docFrags doc) op.sels items ∧ q = merge H [.mk items (op.kind = .mutation)] := by
  rw [readOp, readOpF_ok (Nat.le_refl _)]
  constructor
  · rintro ⟨hx, hf, vars, items, h1, h2, h3⟩
    obtain ⟨r, hr, rfl⟩ := (readVars_any _ _).1 h1
    exact ⟨hx, hf, r, items, hr, reads_yields h2, h3⟩
  · rintro ⟨hx, hf, vars, items, h1, h2, h3⟩
    exact ⟨hx, hf, _, items, (readVars_any _ _).2 ⟨vars, h1, rfl⟩, yields_reads h2, h3⟩

/-- C34: what is left out is excluded by the rule of GraphQL, always -/
theorem c34_left_out {dirs : List Directive} (h : LeftOut vars dirs) : Excluded vars dirs :=
  shouldSkip_excluded (shouldSkip_leftOut.2 h)

/-- C34: what the rule of GraphQL excludes and the code takes nevertheless: exactly the selections with a first
`@skip` whose condition is false, and an `@include` with a false condition or another `@skip` with a true one; or
without `@skip`, a first `@include` whose condition is true and another one with a false condition -/
theorem c34_deviation {dirs : List Directive} :
    (TakenIn vars dirs ∧ Excluded vars dirs) ↔
    ∃ d a v d' a' v', Decides dirs d ∧ d.args = [("if", a)] ∧ Evals vars a v ∧
      d' ∈ dirs ∧ d'.args = [("if", a')] ∧ Evals vars a' v' ∧
      ((d.name = "skip" ∧ Falsy v ∧ d'.name = "skip" ∧ ¬ Falsy v') ∨
       (d.name = "skip" ∧ Falsy v ∧ d'.name = "include" ∧ Falsy v') ∨
       (d.name = "include" ∧ ¬ Falsy v ∧ d'.name = "include" ∧ Falsy v')) := by
  constructor
  · rintro ⟨h, d', hd', a', v', h1', h2', h3'⟩
    rcases h with h | ⟨d, a, v, hd, h1, h2, h3⟩
    · rcases h3' with ⟨h3', _⟩ | ⟨h3', _⟩
      · exact absurd h3' (h d' hd').1
      · exact absurd h3' (h d' hd').2
    · refine ⟨d, a, v, d', a', v', hd, h1, h2, hd', h1', h2', ?_⟩
      rcases h3 with ⟨h3, h4⟩ | ⟨h3, h4⟩ <;> rcases h3' with ⟨h3', h4'⟩ | ⟨h3', h4'⟩
      · exact .inl ⟨h3, h4, h3', h4'⟩
      · exact .inr (.inl ⟨h3, h4, h3', h4'⟩)
      · exfalso
        rcases hd.name with ⟨h5, _⟩ | ⟨_, h5, _⟩
        · rw [h3] at h5; exact absurd h5 (by decide)
        · exact absurd h3' (by simpa using List.find?_eq_none.1 h5 d' hd')
      · exact .inr (.inr ⟨h3, h4, h3', h4'⟩)
  · rintro ⟨d, a, v, d', a', v', hd, h1, h2, hd', h1', h2', h⟩
    refine ⟨.inr ⟨d, a, v, hd, h1, h2, ?_⟩, d', hd', a', v', h1', h2', ?_⟩
    · rcases h with ⟨h3, h4, _⟩ | ⟨h3, h4, _⟩ | ⟨h3, h4, _⟩
      · exact .inl ⟨h3, h4⟩
      · exact .inl ⟨h3, h4⟩
      · exact .inr ⟨h3, h4⟩
    · rcases h with ⟨_, _, h3, h4⟩ | ⟨_, _, h3, h4⟩ | ⟨_, _, h3, h4⟩
      · exact .inl ⟨h3, h4⟩
      · exact .inr ⟨h3, h4⟩
      · exact .inr ⟨h3, h4⟩

/-- the document of `c34_both`, read by the exact rule -/
example : Yields [] [] [.leaf "a" none [] [⟨"include", [("if", .bool false)]⟩, ⟨"skip", [("if", .bool false)]⟩]]
    [.field "a" none none] :=
  .cons (.leaf (.inr ⟨⟨"skip", [("if", .bool false)]⟩, _, _,
    .skip (before := [⟨"include", [("if", .bool false)]⟩]) rfl (by simp), rfl, .bool _, .inl ⟨rfl, .false⟩⟩) .none) .nil

/-- the document of the example, read by the exact rule -/
example (H : PyHash) : ∃ vars items, OpVars [("s", .bool true)] exGqlQ.vars vars ∧
    Yields (dmk vars) (docFrags exGqlDoc) exGqlQ.sels items ∧
    readOp H exGqlDoc exGqlQ [("s", .bool true)] = .ok (merge H [.mk items false]) := by
  have h : ∃ q, readOp H exGqlDoc exGqlQ [("s", .bool true)] = .ok q := ⟨_, rfl⟩
  obtain ⟨q, hq⟩ := h
  obtain ⟨_, _, vars, items, h1, h2, h3⟩ := (c34_exact q).1 hq
  exact ⟨vars, items, h1, h2, by rw [hq, h3]; rfl⟩

end Hiku
