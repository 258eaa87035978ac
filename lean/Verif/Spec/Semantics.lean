import Verif.Spec.Options
import Verif.Spec.Store

/-! Specification for C06, C09, C14, C15: the reference semantics of queries and the documented
loading protocol of data functions.

The semantics walks the query over the data, object by object, without batches, callbacks, index or
schedule. -/

namespace Hiku

/-- What the data functions know.  `field f name options object` is the value of a field loaded by the
function `f` (`object = none` on the root), `link f required options` the value of a link whose
function is `f`, `proc` the meaning of compiled expressions.  `obj g node ident`: the object exists
in the graph number `g`. -/
structure Data where
  field : PFunc → String → Opts → Option Val → Val
  link : PFunc → Option Val → Opts → Val
  proc : Nat → Val → Val → List Val → Val
  obj : Nat → String → Val → Prop

/-- meaning of fields computed by sub-graphs: sub-graph, requirements, procedure, values of the
options, object -/
abbrev SubSem := Nat → QNode → Nat → List Val → Val → Val

section
variable (D : Data) (sub : SubSem)

/-- the value of a field of an object -/
def semField (gn : GNode) (gf : GField) (o : Opts) (ident : Val) : Val :=
  match gf.func with
  | .plain f => D.field f gf.name o (gn.name.map fun _ => ident)
  | .checked sg reqs p =>
      sub sg reqs p (gf.options.map fun op => (dget (o.getD []) op.name).getD .none) ident

def semName (gn : GNode) (ident : Val) (n : String) (o : Opts) : Val :=
  match gn.get n with
  | some (.field gf) => semField D sub gn gf o ident
  | _ => .none

/-- options are passed to a link function only if the link declares some -/
def declOpts (gl : GLink) (o : Opts) : Opts := if gl.options.isEmpty then none else o

/-- the value of a link of an object: identifier(s) of the linked objects or `Nothing` -/
def semLink (gn : GNode) (ident : Val) (gl : GLink) (o : Opts) : Val :=
  D.link gl.func (gl.requires.map fun r => semName D sub gn ident r none) (declOpts gl o)

mutual
/-- the value of a query node on an object: a dict with the result keys -/
def semNode (g : Graph) (gn : GNode) (ident : Val) : QNode → Val
  | .mk fs _ => .dict (dmk (semItems g gn ident fs))
def semItems (g : Graph) (gn : GNode) (ident : Val) : List QItem → List (Val × Val)
  | [] => []
  | i :: r => (.str i.resultKey, semItem g gn ident i) :: semItems g gn ident r
def semItem (g : Graph) (gn : GNode) (ident : Val) : QItem → Val
  | .field n o _ => semName D sub gn ident n o
  | .link n q o _ =>
      match gn.get n with
      | some (.link gl) =>
          match g.node gl.node with
          | some t =>
              match gl.typeEnum with
              | .maybe =>
                  if semLink D sub gn ident gl o = .nothing then .none
                  else semNode g t (semLink D sub gn ident gl o) q
              | .one => semNode g t (semLink D sub gn ident gl o) q
              | .many =>
                  .list ((targets .many (semLink D sub gn ident gl o)).map fun i => semNode g t i q)
          | none => .none
      | _ => semName D sub gn ident n o
end

end

/-- The meaning of fields computed by sub-graphs, for the graph number `gi`: the expression gets the
requirements below `this` evaluated on the object and the other requirements evaluated on the root
of the lower graph. -/
def semSub (sys : Sys) (D : Data) (gi : Nat) : SubSem := fun sg reqs p opts ident =>
  match sys.subs[sg]? with
  | none => .none
  | some s =>
      if _h : s.graph < gi then
        match sys.graphs[s.graph]? with
        | none => .none
        | some g =>
            match g.node s.node, dget reqs.fieldsMap THIS with
            | some t, some (.link _ q _ _) =>
                D.proc p (semNode D (semSub sys D s.graph) g t ident q)
                  (semNode D (semSub sys D s.graph) g g.root rootIdent
                    (.mk (reqs.fields.filter fun r => r.name ≠ THIS) false)) opts
            | _, _ => .none
      else .none
termination_by gi

/-- the value of a query of the graph number `gi` -/
def semQuery (sys : Sys) (D : Data) (gi : Nat) (q : QNode) : Val :=
  match sys.graphs[gi]? with
  | none => .none
  | some g => semNode D (semSub sys D gi) g g.root rootIdent q

/-! ### Valid queries and systems -/

/-- all declared options are given -/
def OptsGiven (gf : GField) (o : Opts) : Prop :=
  ∀ op ∈ gf.options, ∃ l v, o = some l ∧ dget l op.name = some v

section
variable (U : String → Opts → Prop)

mutual
/-- the item can be loaded from objects of the node `gn`; all fields and links (name and options) are
among `U` -/
def ItemOk (g : Graph) (gn : GNode) : QItem → Prop
  | .field n o _ => U n o ∧ ∃ gf, gn.get n = some (.field gf) ∧ OptsGiven gf o
  | .link n q o _ => U n o ∧
      ((∃ gl t, gn.get n = some (.link gl) ∧ g.node gl.node = some t ∧ NodeOk g t q) ∨
       (∃ gf, gn.get n = some (.field gf) ∧ OptsGiven gf o))
/-- a selection on a (complex) field is not supported in ordered nodes -/
def NodeOk (g : Graph) (gn : GNode) : QNode → Prop
  | .mk fs ord => ItemsOk g gn fs ∧
      (ord = true → ∀ i ∈ fs, i.isLink = true → ∃ gl, gn.get i.name = some (.link gl))
def ItemsOk (g : Graph) (gn : GNode) : List QItem → Prop
  | [] => True
  | i :: r => ItemOk g gn i ∧ ItemsOk g gn r
end

mutual
/-- no options, no aliases, not ordered: the queries which `RequirementsExtractor` builds -/
def QItem.Plain : QItem → Prop
  | .field _ o a => o = none ∧ a = none
  | .link _ q o a => o = none ∧ a = none ∧ q.Plain
def QNode.Plain : QNode → Prop
  | .mk fs ord => ord = false ∧ PlainItems fs
def PlainItems : List QItem → Prop
  | [] => True
  | i :: r => i.Plain ∧ PlainItems r
end

/-- requirements of a field computed by a sub-graph on the node `t` of the graph `g` -/
def ReqsOk (g : Graph) (t : GNode) (reqs : QNode) : Prop :=
  reqs.Plain ∧ (∃ i ∈ reqs.fields, i.name = THIS) ∧
  ∀ i ∈ reqs.fields, if i.name = THIS then ∃ q, i = .link THIS q none none ∧ NodeOk U g t q
    else ItemOk U g g.root i

/-- The graphs are well-formed (`U` are the names and options which occur in queries and
requirements). -/
structure GoodSys (sys : Sys) : Prop where
  this : U THIS none
  nodes : ∀ (gi : Nat) g, sys.graphs[gi]? = some g → g.node rootName = none
  links : ∀ (gi : Nat) g, sys.graphs[gi]? = some g → ∀ gn, IsNode g gn → ∀ n gl,
    gn.get n = some (.link gl) → (∃ t, g.node gl.node = some t) ∧
      ∀ r, gl.requires = some r → r ≠ "" ∧ ItemOk U g gn (.field r none none)
  subs : ∀ (gi : Nat) g, sys.graphs[gi]? = some g → ∀ gn, IsNode g gn → ∀ n gf,
    gn.get n = some (.field gf) → ∀ sg reqs p, gf.func = .checked sg reqs p →
      gn.name.isSome ∧ ∃ s g' t, sys.subs[sg]? = some s ∧ s.graph < gi ∧
        sys.graphs[s.graph]? = some g' ∧ g'.node s.node = some t ∧ g'.root.get THIS = none ∧
        ReqsOk U g' t reqs

end

/-- options which no data function can tell apart -/
def OptsEquiv (D : Data) (o o' : Opts) : Prop :=
  (∀ f n i, D.field f n o i = D.field f n o' i) ∧ (∀ f r, D.link f r o = D.link f r o') ∧
  ∀ k, dget (o.getD []) k = dget (o'.getD []) k

/-- no hash collisions among the fields and links which occur in the query and in the requirements
(see C04) -/
def Faithful (H : PyHash) (D : Data) (U : String → Opts → Prop) : Prop :=
  ∀ n o n' o', U n o → U n' o' → indexKey H n o = indexKey H n' o' → n = n' ∧ OptsEquiv D o o'

/-! ### The loading protocol -/

mutual
/-- the first node requests everything which the second one requests -/
def Includes (q1 : QNode) : QNode → Prop
  | .mk fs _ => IncludesAll q1 fs
def IncludesAll (q1 : QNode) : List QItem → Prop
  | [] => True
  | i :: r => IncludesItem q1 i ∧ IncludesAll q1 r
def IncludesItem (q1 : QNode) : QItem → Prop
  | .field n _ _ => ∃ o a, QItem.field n o a ∈ q1.fields
  | .link n q _ _ => (∃ q' o a, QItem.link n q' o a ∈ q1.fields) ∧
      ∀ q' o a, QItem.link n q' o a ∈ q1.fields → Includes q' q
end

/-- the values of the options of a field, in the order of the declarations -/
def optVals (gf : GField) (o : Opts) : List Val := gf.options.map fun op => (dget (o.getD []) op.name).getD .none

/-- a value which the result machinery takes for references to objects -/
def Val.refLike : Val → Bool
  | .ref .. => true
  | .seq .list (.ref .. :: _) => true
  | _ => false

def withCtx (f : PFunc) (args : List Arg) : List Arg := if f.passCtx then .ctx :: args else args

def optArgs (gl : GLink) (o : Opts) : List Arg := if gl.options.isEmpty then [] else [.opts o]

/-- the object exists -/
def IdentOk (D : Data) (gi : Nat) (gn : GNode) (ident : Val) : Prop :=
  match gn.name with
  | none => ident = rootIdent
  | some nm => D.obj gi nm ident

/-- The data functions follow the loading protocol: called with any non-empty list of their fields
and existing objects they return one row per object with one value per field; link functions return
the link value, one for every required value on nodes; link values fit the link type and point to
existing objects.  Only fields, links and options from `U` have to be supported.  Outcomes may not
depend on the submission number.  `sub` is the meaning of fields computed by sub-graphs. -/
structure Loads (env : Env) (D : Data) (sub : Nat → SubSem) (U : String → Opts → Prop) : Prop where
  fieldsRoot : ∀ (n gi : Nat) g f qfs, env.sys.graphs[gi]? = some g → qfs ≠ [] →
    (∀ q ∈ qfs, U q.name q.options ∧ ∃ gf, g.root.get q.name = some (.field gf) ∧ gf.func = .plain f) →
    ∃ r, env.world.call n f.id (withCtx f [.fields qfs]) = .ok r ∧
      r.asSeq = some (qfs.map fun q => D.field f q.name q.options none)
  fieldsNode : ∀ (n gi : Nat) g nm gn f qfs ids, env.sys.graphs[gi]? = some g → g.node nm = some gn →
    qfs ≠ [] →
    (∀ q ∈ qfs, U q.name q.options ∧ ∃ gf, gn.get q.name = some (.field gf) ∧ gf.func = .plain f) →
    ids ≠ [] → (∀ i ∈ ids, D.obj gi nm i) →
    ∃ r rows, env.world.call n f.id (withCtx f [.fields qfs, .ids ids]) = .ok r ∧ r.asSeq = some rows ∧
      List.Forall₂ (fun i row =>
        Val.asSeq row = some (qfs.map fun q => D.field f q.name q.options (some i))) ids rows
  linkPlain : ∀ (n gi : Nat) g gn nm gl o, env.sys.graphs[gi]? = some g → IsNode g gn →
    gn.get nm = some (.link gl) → U nm o → gl.requires = none →
    env.world.call n gl.func.id (withCtx gl.func (optArgs gl o)) =
      .ok (D.link gl.func none (declOpts gl o))
  linkRoot : ∀ (n gi : Nat) g nm gl o r v, env.sys.graphs[gi]? = some g →
    g.root.get nm = some (.link gl) → U nm o → gl.requires = some r →
    v = semName D (sub gi) g.root rootIdent r none →
    env.world.call n gl.func.id (withCtx gl.func (.val v :: optArgs gl o)) =
      .ok (D.link gl.func (some v) (declOpts gl o))
  linkNode : ∀ (n gi : Nat) g nn gn nm gl o r ids vs, env.sys.graphs[gi]? = some g →
    g.node nn = some gn → gn.get nm = some (.link gl) → U nm o → gl.requires = some r →
    ids ≠ [] → (∀ i ∈ ids, D.obj gi nn i) →
    vs = ids.map (fun i => semName D (sub gi) gn i r none) →
    ∃ res, env.world.call n gl.func.id (withCtx gl.func (.val (.list vs) :: optArgs gl o)) = .ok res ∧
      res.asSeq = some (vs.map fun v => D.link gl.func (some v) (declOpts gl o))
  linkValue : ∀ (gi : Nat) g gn nm gl o i v, env.sys.graphs[gi]? = some g → IsNode g gn →
    gn.get nm = some (.link gl) → U nm o → IdentOk D gi gn i →
    v = semLink D (sub gi) gn i gl o →
    ValueShape gl.typeEnum v ∧ (gl.typeEnum = .one → v ≠ .nothing) ∧
      ∀ t ∈ targets gl.typeEnum v, D.obj gi gl.node t
  noRefs : ∀ f n o i, (D.field f n o i).refLike = false

/-- Fields computed by sub-graphs: objects exist in the lower graph; compiled expressions depend on their
requirements only: they give the same when more is requested. -/
structure SubFieldsOk (env : Env) (D : Data) (U : String → Opts → Prop) : Prop where
  noRefsProc : ∀ p this root opts, (D.proc p this root opts).refLike = false
  subObj : ∀ (gi : Nat) g nn gn n gf sg reqs p s i, env.sys.graphs[gi]? = some g →
    g.node nn = some gn → gn.get n = some (.field gf) → gf.func = .checked sg reqs p →
    env.sys.subs[sg]? = some s → D.obj gi nn i → D.obj s.graph s.node i
  proc : ∀ (gi : Nat) g nn gn n o gf sg reqs p s g' t q i q1 r1,
    env.sys.graphs[gi]? = some g → g.node nn = some gn → gn.get n = some (.field gf) →
    gf.func = .checked sg reqs p → U n o → OptsGiven gf o → env.sys.subs[sg]? = some s → D.obj gi nn i →
    env.sys.graphs[s.graph]? = some g' → g'.node s.node = some t →
    dget reqs.fieldsMap THIS = some (.link THIS q none none) →
    Includes q1 q → q1.Plain → NodeOk U g' t q1 →
    Includes r1 (.mk (reqs.fields.filter fun r => r.name ≠ THIS) false) → r1.Plain → NodeOk U g' g'.root r1 →
    env.world.proc p (semNode D (semSub env.sys D s.graph) g' t i q1)
      (semNode D (semSub env.sys D s.graph) g' g'.root rootIdent r1) (optVals gf o) =
    .ok (D.proc p (semNode D (semSub env.sys D s.graph) g' t i q)
      (semNode D (semSub env.sys D s.graph) g' g'.root rootIdent
        (.mk (reqs.fields.filter fun r => r.name ≠ THIS) false)) (optVals gf o))

/-- the data functions follow the loading protocol, and fields computed by sub-graphs are as they should be -/
structure Conforms (env : Env) (D : Data) (U : String → Opts → Prop) : Prop extends
  Loads env D (semSub env.sys D) U, SubFieldsOk env D U

end Hiku
