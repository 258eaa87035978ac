import Verif.Spec.Endpoint
import Verif.Props.Denormalize2
import Verif.Props.Accepted
import Verif.Props.ReadGraphql3

/-! # C45: the GraphQL endpoint -/

namespace Hiku.Endpoint

variable {ep : Endpoint}

theorem readRequest_ok {r : Request} {op : Operation} : readRequest ep r = .ok op ↔ Reads ep r op := by
  unfold readRequest Reads
  cases r.query with
  | none => simp
  | some src =>
    simp only [Option.some.injEq, exists_and_left, exists_eq_left']
    cases ep.parse src with
    | error e => simp [error_bind']
    | ok doc => simp [ok_bind']

theorem readRequest_error {r : Request} {e : Err} : readRequest ep r = .error e ↔ ReadFails ep r e := by
  unfold readRequest ReadFails
  cases r.query with
  | none => simp [eq_comm]
  | some src =>
    simp only [Option.some.injEq, exists_eq_left', reduceCtorEq, false_and, false_or]
    cases ep.parse src with
    | error e => simp [error_bind']
    | ok doc => simp [ok_bind']

theorem Reads.det {r : Request} {op op' : Operation} (h : Reads ep r op) (h' : Reads ep r op') : op = op' := by
  rw [← readRequest_ok] at h h'
  rw [h] at h'
  cases h'; rfl

theorem chooseGraph_eq (k : OpKind) : chooseGraph ep k =
    (match graphOf ep k with
      | some g => .ok g
      | none => .error (.graphql [.unsupported k])) := by
  unfold chooseGraph graphOf
  cases k <;> cases ep.mutation <;> rfl

theorem switchGraph_asks {r : Request} {op : Operation} {gi : Nat} {g : Graph} (h : Asks ep r op gi g) :
    switchGraph ep r = .ok (gi, op) := by
  unfold switchGraph
  rw [readRequest_ok.2 h.reads]
  simp only [chooseGraph_eq, h.graph]

theorem typeName_eq (k : OpKind) : typeName k = rootType k := by cases k <;> rfl

theorem dispatch_asks {r : Request} {op : Operation} {gi : Nat} {g : Graph} (h : Asks ep r op gi g) (log : List Run) :
    dispatch ep r log =
      (match validate g ep.lim (stripNode op.query) with
        | .error e => (.error e, log)
        | .ok [] =>
            (match ep.engine log gi (stripNode op.query) with
              | .error e => if e = .graphQLError then .ok (.errors [.raisedByCode]) else .error e
              | .ok x =>
                  match denormalizeQ ep.H x.1 g (some (rootType op.kind)) x.2 op.query with
                  | .error e => .error e
                  | .ok v => .ok (.data v),
             log ++ [⟨gi, stripNode op.query⟩])
        | .ok errors => (.ok (.errors (errors.map .invalid)), log)) := by
  unfold dispatch
  rw [switchGraph_asks h]
  simp only [execute, h.get, processQuery, typeName_eq]
  cases validate g ep.lim (stripNode op.query) with
  | error e => rfl
  | ok errs =>
    cases errs with
    | cons e r => rfl
    | nil =>
      simp only
      cases ep.engine log gi (stripNode op.query) with
      | error e =>
        simp only [Raised.ofErr]
        by_cases he : e = .graphQLError
        · simp [he, answer]
        · simp [he, answer]
      | ok x =>
        simp only
        cases denormalizeQ ep.H x.1 g (some (rootType op.kind)) x.2 op.query with
        | error e => rfl
        | ok v => rfl

/-- every request is readable for a graph, readable and not supported, or not readable -/
theorem request_cases (hw : WellBuilt ep) (r : Request) :
    (∃ op gi g, Asks ep r op gi g) ∨ (∃ op, Reads ep r op ∧ graphOf ep op.kind = none) ∨ ∃ e, ReadFails ep r e := by
  cases h : readRequest ep r with
  | error e => exact .inr (.inr ⟨e, readRequest_error.1 h⟩)
  | ok op =>
    have h := readRequest_ok.1 h
    cases hg : graphOf ep op.kind with
    | none => exact .inr (.inl ⟨op, h, hg⟩)
    | some gi =>
      have : (ep.graphs[gi]?).isSome := by
        cases hk : op.kind with
        | query => rw [hk] at hg; cases hg; exact hw.query
        | mutation => rw [hk] at hg; exact hw.mutation _ hg
        | subscription => rw [hk] at hg; cases hg
      obtain ⟨g, hgg⟩ := Option.isSome_iff_exists.1 this
      exact .inl ⟨op, gi, g, h, hg, hgg⟩

/-! ### What is not executed -/

/-- C45: a request which the reader refuses is answered with one error, and nothing is executed. -/
theorem c45_unreadable {r : Request} (h : ReadFails ep r .typeError) (log : List Run) :
    dispatch ep r log = (.ok (.errors [.failedToRead .typeError]), log) := by
  unfold dispatch switchGraph
  rw [readRequest_error.2 h]
  rfl

theorem dispatch_readFails {r : Request} {e : Err} (h : ReadFails ep r e) (hte : e ≠ .typeError) (log : List Run) :
    dispatch ep r log = (.error e, log) := by
  unfold dispatch switchGraph
  rw [readRequest_error.2 h]
  cases e <;> first | exact absurd rfl hte | rfl

/-- C45: a subscription, or a mutation without a mutation graph, is answered with one error, and nothing is
executed. -/
theorem c45_unsupported {r : Request} {op : Operation} (h : Reads ep r op) (hg : graphOf ep op.kind = none)
    (log : List Run) : dispatch ep r log = (.ok (.errors [.unsupported op.kind]), log) := by
  unfold dispatch switchGraph
  rw [readRequest_ok.2 h]
  simp only [chooseGraph_eq, hg]
  rfl

/-- C45: an invalid query is answered with all its validation errors (at least one), and nothing is executed. -/
theorem c45_invalid {r : Request} {op : Operation} {gi : Nat} {g : Graph} (h : Asks ep r op gi g) {errors : List QErr}
    (hv : validate g ep.lim (stripNode op.query) = .ok errors) (hi : ¬ QueryValid g g.root (stripNode op.query))
    (log : List Run) :
    dispatch ep r log = (.ok (.errors (errors.map .invalid)), log) ∧ errors ≠ [] ∧
      ∀ e, e ∈ errors ↔ Violation g g.root (stripNode op.query) e := by
  have hne : errors ≠ [] := fun e => hi ((c24_valid hv).1 e)
  refine ⟨?_, hne, fun e => c24_exact hv e⟩
  rw [dispatch_asks h, hv]
  cases errors with
  | nil => exact absurd rfl hne
  | cons e r => rfl

/-- C45: at most one query is executed for a request: the query of the requested operation, on the graph for the kind
of this operation, valid for this graph. -/
theorem c45_only_valid (hw : WellBuilt ep) (r : Request) (log : List Run) :
    (dispatch ep r log).2 = log ∨ ∃ op gi g, Asks ep r op gi g ∧
      (dispatch ep r log).2 = log ++ [⟨gi, stripNode op.query⟩] ∧ QueryValid g g.root (stripNode op.query) := by
  rcases request_cases hw r with ⟨op, gi, g, h⟩ | ⟨op, h, hg⟩ | ⟨e, h⟩
  · rw [dispatch_asks h]
    cases hv : validate g ep.lim (stripNode op.query) with
    | error e => exact .inl rfl
    | ok errs =>
      cases errs with
      | cons e r => exact .inl rfl
      | nil => exact .inr ⟨op, gi, g, h, rfl, (c24_valid hv).1 rfl⟩
  · rw [c45_unsupported h hg]; exact .inl rfl
  · left
    unfold dispatch switchGraph
    rw [readRequest_error.2 h]
    cases e <;> rfl

theorem stripItems_none (fs : List QItem) (ih : ∀ n q o a, .link n q o a ∈ fs → NoTypename (stripNode q)) :
    NoTypenameItems (stripItems fs) := by
  induction fs with
  | nil => simp [stripItems, NoTypenameItems]
  | cons i r ihr =>
    have hr := ihr fun n q o a hm => ih n q o a (List.mem_cons_of_mem _ hm)
    rw [stripItems]
    by_cases hn : i.name ≠ TYPENAME
    · rw [if_pos hn]
      cases i with
      | field n o a => rw [stripItem, NoTypenameItems]; exact ⟨hn, hr⟩
      | link n q o a => rw [stripItem, NoTypenameItems]; exact ⟨hn, ih n q o a (by simp), hr⟩
    · rw [if_neg hn]; exact hr

/-- C45: what is executed never contains `__typename`, which is answered by the endpoint itself. -/
theorem c45_no_typename (q : QNode) : NoTypename (stripNode q) := by
  induction q using QNode.ind with
  | h fs ord ih => rw [stripNode, NoTypename]; exact stripItems_none fs ih

mutual
/-- C45: and it is the requested query if that does not contain `__typename`. -/
theorem c45_strip_same : ∀ q : QNode, NoTypename q → stripNode q = q
  | .mk fs ord, h => by rw [NoTypename] at h; rw [stripNode, c45_strip_items fs h]
theorem c45_strip_items : ∀ fs : List QItem, NoTypenameItems fs → stripItems fs = fs
  | [], _ => by rw [stripItems]
  | .field n o a :: r, h => by
      rw [NoTypenameItems] at h
      rw [stripItems, if_pos (show (QItem.field n o a).name ≠ TYPENAME from h.1), stripItem, c45_strip_items r h.2]
  | .link n q o a :: r, h => by
      rw [NoTypenameItems] at h
      rw [stripItems, if_pos (show (QItem.link n q o a).name ≠ TYPENAME from h.1), stripItem, c45_strip_same q h.2.1,
        c45_strip_items r h.2.2]
end

/-! ### What is answered -/

/-- C45: a valid query is executed once. -/
theorem c45_executed {r : Request} {op : Operation} {gi : Nat} {g : Graph} (h : Asks ep r op gi g)
    (hv : validate g ep.lim (stripNode op.query) = .ok []) (log : List Run) :
    (dispatch ep r log).2 = log ++ [⟨gi, stripNode op.query⟩] := by
  rw [dispatch_asks h, hv]

/-- C45: the answer of `dispatch` is data only for a valid query which was executed. -/
theorem c45_data_executed (hw : WellBuilt ep) {r : Request} {log log' : List Run} {v : Val}
    (hd : dispatch ep r log = (.ok (.data v), log')) :
    ∃ op gi g x, Asks ep r op gi g ∧ QueryValid g g.root (stripNode op.query) ∧
      log' = log ++ [⟨gi, stripNode op.query⟩] ∧ ep.engine log gi (stripNode op.query) = .ok x ∧
      denormalizeQ ep.H x.1 g (some (rootType op.kind)) x.2 op.query = .ok v := by
  rcases request_cases hw r with ⟨op, gi, g, h⟩ | ⟨op, h, hg⟩ | ⟨e, h⟩
  · rw [dispatch_asks h] at hd
    cases hv : validate g ep.lim (stripNode op.query) with
    | error e => rw [hv] at hd; cases hd
    | ok errs =>
      rw [hv] at hd
      cases errs with
      | cons e r => cases hd
      | nil =>
        simp only at hd
        cases he : ep.engine log gi (stripNode op.query) with
        | error e =>
          rw [he] at hd
          simp only at hd
          by_cases hq : e = .graphQLError
          · rw [if_pos hq] at hd; cases hd
          · rw [if_neg hq] at hd; cases hd
        | ok x =>
          rw [he] at hd
          simp only at hd
          cases hx : denormalizeQ ep.H x.1 g (some (rootType op.kind)) x.2 op.query with
          | error e => rw [hx] at hd; cases hd
          | ok v' =>
            rw [hx] at hd
            cases hd
            exact ⟨op, gi, g, x, h, (c24_valid hv).1 rfl, rfl, he, hx⟩
  · rw [c45_unsupported h hg] at hd; cases hd
  · unfold dispatch switchGraph at hd
    rw [readRequest_error.2 h] at hd
    cases e <;> cases hd

/-- exceptions which reading a document can raise: TypeError, and KeyError, ValueError, AttributeError in the cases
of C33 and C36 -/
theorem readOperation_error {H : PyHash} {doc : List Defn} {given : List (String × Val)} {name : Option String} {e : Err}
    (h : readOperation H doc given name = .error e) :
    e = .typeError ∨ (e = .attributeError ∧ ¬ Executable doc) ∨
    (e = .valueError ∧ ∃ n, name = some n ∧ ∀ o ∈ docOps doc, o.name ≠ some n) ∨
    (e = .keyError ∧ ∃ o ∈ docOps doc, ¬ SpreadsDefined (docFrags doc) o.sels) := by
  unfold readOperation at h
  cases hg : getOp doc name with
  | error e' =>
    rw [hg] at h
    cases h
    rcases c36_errors hg with h | ⟨h, n, h1, _, h2⟩ | h
    · exact .inr (.inl h)
    · exact .inr (.inr (.inl ⟨h, n, h1, h2⟩))
    · exact .inl h
  | ok op =>
    rw [hg, ok_bind'] at h
    cases hr : readOp H doc op given with
    | ok q => rw [hr] at h; cases h
    | error e' =>
      rw [hr] at h
      cases h
      rcases (c33_terminates H doc op given).2 e hr with h | h | ⟨h1, h2⟩
      · exact .inl h
      · exact .inr (.inl h)
      · refine .inr (.inr (.inr ⟨h1, op, ?_, h2⟩))
        have hc := c36_chosen.1 hg
        cases name with
        | none => have h3 : docOps doc = [op] := hc.2.2; simp [h3]
        | some n => exact hc.2.2.1

/-- C45: `dispatch` answers (with data or with errors) every request with a document which can be parsed, is
executable, has the requested operation and all used fragments, provided that validating the query, executing it
and reading the result raise nothing.  Missing: C45 does not exclude the other requests, for which exceptions
escape (`c45_unknown_fragment`, `c45_unknown_operation`, `c45_no_query`). -/
theorem c45_answers_partial (hw : WellBuilt ep) {r : Request} {src : String} {doc : List Defn}
    (hq : r.query = some src) (hp : ep.parse src = .ok doc) (hx : Executable doc)
    (hn : ∀ n, r.operationName = some n → ∃ o ∈ docOps doc, o.name = some n)
    (hf : ∀ o ∈ docOps doc, SpreadsDefined (docFrags doc) o.sels) (log : List Run)
    (hval : ∀ op gi g, Asks ep r op gi g → ∃ errs, validate g ep.lim (stripNode op.query) = .ok errs)
    (hrun : ∀ op gi g, Asks ep r op gi g → QueryValid g g.root (stripNode op.query) →
      ∃ x v, ep.engine log gi (stripNode op.query) = .ok x ∧
        denormalizeQ ep.H x.1 g (some (rootType op.kind)) x.2 op.query = .ok v) :
    ∃ a, (dispatch ep r log).1 = .ok a := by
  rcases request_cases hw r with ⟨op, gi, g, h⟩ | ⟨op, h, hg⟩ | ⟨e, h⟩
  · rw [dispatch_asks h]
    obtain ⟨errs, hv⟩ := hval op gi g h
    rw [hv]
    cases errs with
    | cons e r => exact ⟨_, rfl⟩
    | nil =>
      obtain ⟨x, v, h1, h2⟩ := hrun op gi g h ((c24_valid hv).1 rfl)
      exact ⟨.data v, by simp only [h1, h2]⟩
  · rw [c45_unsupported h hg]; exact ⟨_, rfl⟩
  · have he : e = .typeError := by
      rcases h with ⟨h, _⟩ | ⟨src', h, h2⟩
      · rw [hq] at h; cases h
      · rw [hq] at h; cases h
        rw [hp] at h2
        rcases h2 with h2 | ⟨doc', h2, h3⟩
        · cases h2
        · cases h2
          rcases readOperation_error h3 with h | ⟨_, h⟩ | ⟨_, n, h1, h2⟩ | ⟨_, o, h1, h2⟩
          · exact h
          · exact absurd hx h
          · obtain ⟨o, h3, h4⟩ := hn n h1
            exact absurd h4 (h2 o h3)
          · exact absurd (hf o h1) h2
    subst he
    rw [c45_unreadable h]
    exact ⟨_, rfl⟩

/-! ### Batches -/

/-- `as` are the answers to the requests, dispatched one after another, starting after the executions `log` -/
inductive Answers (ep : Endpoint) : List Run → List Request → List Answer → List Run → Prop
  | nil (log) : Answers ep log [] [] log
  | cons {log log' log'' r rs a as} : dispatch ep r log = (.ok a, log') → Answers ep log' rs as log'' →
      Answers ep log (r :: rs) (a :: as) log''

theorem dispatchList_ok {rs : List Request} : ∀ {log as log'},
    dispatchList ep rs log = (.ok as, log') ↔ Answers ep log rs as log' := by
  induction rs with
  | nil =>
    intro log as log'
    constructor
    · intro h; cases h; exact .nil _
    · intro h; cases h; rfl
  | cons r rs ih =>
    intro log as log'
    unfold dispatchList
    cases hd : dispatch ep r log with
    | mk o l =>
      cases o with
      | error e =>
        simp only
        constructor
        · intro h; cases h
        · intro h
          cases h with
          | cons h _ => rw [hd] at h; cases h
      | ok a =>
        simp only
        cases hl : dispatchList ep rs l with
        | mk o2 l2 =>
          cases o2 with
          | error e =>
            simp only
            constructor
            · intro h; cases h
            · intro h
              cases h with
              | cons h h2 => 
                rw [hd] at h; cases h
                rw [ih.2 h2] at hl; cases hl
          | ok as' =>
            simp only
            constructor
            · intro h; cases h; exact .cons hd (ih.1 hl)
            · intro h
              cases h with
              | cons h h2 =>
                rw [hd] at h; cases h
                rw [ih.2 h2] at hl; cases hl; rfl

/-- C45: a batch is answered with one answer for each request, in order, each of them as if the request were
dispatched alone after the executions of the previous ones. -/
theorem c45_batch {rs : List Request} {log log' : List Run} {b : BatchAnswer} :
    dispatchBatch ep (.list rs) log = (.ok b, log') ↔ ∃ as, b = .list as ∧ Answers ep log rs as log' := by
  unfold dispatchBatch
  simp only
  cases hd : dispatchList ep rs log with
  | mk o l =>
    cases o with
    | error e =>
      simp only
      constructor
      · intro h; cases h
      · rintro ⟨as, _, h⟩; rw [dispatchList_ok.2 h] at hd; cases hd
    | ok as =>
      simp only
      constructor
      · intro h; cases h; exact ⟨as, rfl, dispatchList_ok.1 hd⟩
      · rintro ⟨as', rfl, h⟩; rw [dispatchList_ok.2 h] at hd; cases hd; rfl

/-- C45: a single request is answered by a batch endpoint as by the other one -/
theorem c45_batch_one {r : Request} {log log' : List Run} {b : BatchAnswer} :
    dispatchBatch ep (.one r) log = (.ok b, log') ↔ ∃ a, b = .one a ∧ dispatch ep r log = (.ok a, log') := by
  unfold dispatchBatch
  simp only
  cases dispatch ep r log with
  | mk o l =>
    cases o with
    | error e => simp
    | ok a =>
      simp only [Prod.mk.injEq, Except.ok.injEq]
      constructor
      · rintro ⟨h, h2⟩; exact ⟨a, h.symm, rfl, h2⟩
      · rintro ⟨a', h, h1, h2⟩; subst h1; exact ⟨h.symm, h2⟩

theorem Answers.length {log log' : List Run} {rs : List Request} {as : List Answer} (h : Answers ep log rs as log') :
    as.length = rs.length := by
  induction h with
  | nil => rfl
  | cons _ _ ih => simp [ih]

/-- C45: if the engine answers do not depend on what was executed before, every request of a batch is answered as if it
were the only one. -/
theorem c45_batch_alone {rs : List Request} {as : List Answer} {log log' : List Run} (h : Answers ep log rs as log')
    (hp : ∀ log log' gi q, ep.engine log gi q = ep.engine log' gi q) :
    List.Forall₂ (fun r a => (dispatch ep r []).1 = .ok a) rs as := by
  have key : ∀ r log, (dispatch ep r log).1 = (dispatch ep r []).1 := by
    intro r log
    unfold dispatch
    cases switchGraph ep r with
    | error e => rfl
    | ok x =>
      simp only [execute]
      cases ep.graphs[x.1]? with
      | none => rfl
      | some g =>
        simp only
        cases processQuery ep g x.2.query with
        | error e => rfl
        | ok q =>
          simp only [hp log []]
          cases ep.engine [] x.1 q with
          | error e => rfl
          | ok y =>
            simp only
            cases denormalizeQ ep.H y.1 g (some (typeName x.2.kind)) y.2 x.2.query <;> rfl
  induction h with
  | nil => exact .nil
  | cons hd _ ih => exact .cons (by rw [← key, hd]) ih

/-- C45: only valid queries are executed for a batch, whatever happens: every new entry of the log is a valid query
without `__typename` of one of the requests. -/
theorem c45_batch_only_valid (hw : WellBuilt ep) {rs : List Request} : ∀ {log : List Run},
    ∃ runs, (dispatchList ep rs log).2 = log ++ runs ∧ runs.length ≤ rs.length ∧
      ∀ x ∈ runs, ∃ r ∈ rs, ∃ op gi g, Asks ep r op gi g ∧ x = ⟨gi, stripNode op.query⟩ ∧
        QueryValid g g.root (stripNode op.query) := by
  induction rs with
  | nil => intro log; exact ⟨[], by simp [dispatchList], by simp, by simp⟩
  | cons r rs ih =>
    intro log
    have one : ∃ runs, (dispatch ep r log).2 = log ++ runs ∧ runs.length ≤ 1 ∧
        ∀ x ∈ runs, ∃ op gi g, Asks ep r op gi g ∧ x = ⟨gi, stripNode op.query⟩ ∧
          QueryValid g g.root (stripNode op.query) := by
      rcases c45_only_valid hw r log with h | ⟨op, gi, g, h1, h2, h3⟩
      · exact ⟨[], by simp [h], by simp, by simp⟩
      · exact ⟨_, h2, by simp, by
          intro x hx
          rw [List.mem_singleton] at hx
          exact ⟨op, gi, g, h1, hx, h3⟩⟩
    obtain ⟨runs, h1, h2, h3⟩ := one
    have h3' : ∀ x ∈ runs, ∃ r' ∈ r :: rs, ∃ op gi g, Asks ep r' op gi g ∧ x = ⟨gi, stripNode op.query⟩ ∧
        QueryValid g g.root (stripNode op.query) := fun x hx => ⟨r, by simp, h3 x hx⟩
    unfold dispatchList
    cases hd : dispatch ep r log with
    | mk o l =>
      rw [hd] at h1
      have h1 : l = log ++ runs := h1
      subst h1
      cases o with
      | error e => exact ⟨runs, rfl, by simp; omega, h3'⟩
      | ok a =>
        simp only
        obtain ⟨runs2, h4, h5, h6⟩ := @ih (log ++ runs)
        have h6' : ∀ x ∈ runs2, ∃ r' ∈ r :: rs, ∃ op gi g, Asks ep r' op gi g ∧ x = ⟨gi, stripNode op.query⟩ ∧
            QueryValid g g.root (stripNode op.query) := by
          intro x hx
          obtain ⟨r', hr', h⟩ := h6 x hx
          exact ⟨r', List.mem_cons_of_mem _ hr', h⟩
        refine ⟨runs ++ runs2, ?_, by simp; omega, ?_⟩
        · cases hl : dispatchList ep rs (log ++ runs) with
          | mk o2 l2 =>
            rw [hl] at h4
            cases o2 <;> simpa using h4
        · intro x hx
          rcases List.mem_append.1 hx with hx | hx
          · exact h3' x hx
          · exact h6' x hx

/-- C45 does not hold for batches whose items raise: no request is answered. -/
theorem c45_batch_escapes {rs : List Request} {r : Request} {e : Err} {log log1 log2 : List Run} {as : List Answer}
    (h : Answers ep log rs as log1) (hr : dispatch ep r log1 = (.error e, log2)) (rs' : List Request) :
    dispatchBatch ep (.list (rs ++ r :: rs')) log = (.error e, log2) := by
  have key : dispatchList ep (rs ++ r :: rs') log = (.error e, log2) := by
    induction h with
    | nil => rw [List.nil_append, dispatchList, hr]
    | cons hd _ ih => rw [List.cons_append, dispatchList, hd]; simp only [ih hr]
  unfold dispatchBatch
  simp only [key]

/-- what a request may fail with: the document is missing, cannot be parsed or read (other than by TypeError), the
validation fails on it (C26 says when), the engine fails with another error than `GraphQLError`, or the result cannot
be denormalized -/
inductive Escapes (ep : Endpoint) (r : Request) (log : List Run) : Err → Prop
  | reading {e} : ReadFails ep r e → e ≠ .typeError → Escapes ep r log e
  | validation {op gi g e} : Asks ep r op gi g → validate g ep.lim (stripNode op.query) = .error e → Escapes ep r log e
  | engine {op gi g e} : Asks ep r op gi g → validate g ep.lim (stripNode op.query) = .ok [] →
      ep.engine log gi (stripNode op.query) = .error e → e ≠ .graphQLError → Escapes ep r log e
  | result {op gi g x e} : Asks ep r op gi g → validate g ep.lim (stripNode op.query) = .ok [] →
      ep.engine log gi (stripNode op.query) = .ok x →
      denormalizeQ ep.H x.1 g (some (rootType op.kind)) x.2 op.query = .error e → Escapes ep r log e

/-- C45: exactly when a request is not answered: `dispatch` raises an exception if and only if reading, validating,
executing or denormalizing raises it, and it is not one of the two kinds which are answered -/
theorem c45_escapes (hw : WellBuilt ep) (r : Request) (log : List Run) (e : Err) :
    (dispatch ep r log).1 = .error e ↔ Escapes ep r log e := by
  constructor
  · intro h
    rcases request_cases hw r with ⟨op, gi, g, ha⟩ | ⟨op, ha, hg⟩ | ⟨e', ha⟩
    · rw [dispatch_asks ha] at h
      cases hv : validate g ep.lim (stripNode op.query) with
      | error e' => rw [hv] at h; cases h; exact .validation ha hv
      | ok errs =>
        rw [hv] at h
        cases errs with
        | cons => cases h
        | nil =>
          simp only at h
          cases he : ep.engine log gi (stripNode op.query) with
          | error e' =>
            rw [he] at h
            simp only at h
            split at h
            · cases h
            · rename_i hne
              cases h
              exact .engine ha hv he hne
          | ok x =>
            rw [he] at h
            simp only at h
            cases hd : denormalizeQ ep.H x.1 g (some (rootType op.kind)) x.2 op.query with
            | error e' => rw [hd] at h; cases h; exact .result ha hv he hd
            | ok v => rw [hd] at h; cases h
    · rw [c45_unsupported ha hg] at h; cases h
    · by_cases hte : e' = .typeError
      · subst hte; rw [c45_unreadable ha] at h; cases h
      · rw [dispatch_readFails ha hte] at h
        cases h
        exact .reading ha hte
  · intro h
    cases h with
    | reading ha hte => rw [dispatch_readFails ha hte]
    | validation ha hv => rw [dispatch_asks ha, hv]
    | engine ha hv he hne => rw [dispatch_asks ha, hv]; simp only [he, if_neg hne]
    | result ha hv he hd => rw [dispatch_asks ha, hv]; simp only [he, hd]

end Hiku.Endpoint
