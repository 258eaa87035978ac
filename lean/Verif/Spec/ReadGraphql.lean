import Verif.Model.ReadGraphql
import Mathlib.Data.List.Forall2

/-! Specification for C32-C36: the meaning of GraphQL documents -/

namespace Hiku

/-! ### C32: fragments replaced by their contents -/

mutual
/-- the second selection is the first one with every fragment spread, at any depth, replaced by the selections
of the fragment (as an inline fragment which keeps the directives of the spread) -/
inductive InlinesSel (frags : List (String × List Sel)) : Sel → Sel → Prop
  | leaf {n a args dirs} : InlinesSel frags (.leaf n a args dirs) (.leaf n a args dirs)
  | obj {n a args dirs ss ss'} : Inlines frags ss ss' →
      InlinesSel frags (.obj n a args dirs ss) (.obj n a args dirs ss')
  | inline {dirs ss ss'} : Inlines frags ss ss' → InlinesSel frags (.inline dirs ss) (.inline dirs ss')
  | spread {n dirs body body'} : dget frags n = some body → Inlines frags body body' →
      InlinesSel frags (.spread n dirs) (.inline dirs body')
inductive Inlines (frags : List (String × List Sel)) : List Sel → List Sel → Prop
  | nil : Inlines frags [] []
  | cons {s s' r r'} : InlinesSel frags s s' → Inlines frags r r' → Inlines frags (s :: r) (s' :: r')
end

mutual
/-- the names of the fragments which are spread somewhere in the selections -/
def Sel.spreads : Sel → List String
  | .leaf .. => []
  | .obj _ _ _ _ ss => spreadsIn ss
  | .spread n _ => [n]
  | .inline _ ss => spreadsIn ss
def spreadsIn : List Sel → List String
  | [] => []
  | s :: r => s.spreads ++ spreadsIn r
end

/-- all fragments which are spread are defined -/
def SpreadsDefined (frags : List (String × List Sel)) (sels : List Sel) : Prop :=
  (∀ f ∈ spreadsIn sels, (dget frags f).isSome) ∧
  ∀ f body, dget frags f = some body → ∀ f' ∈ spreadsIn body, (dget frags f').isSome

/-- fragments do not spread themselves: `rank` is smaller for the fragments which a fragment spreads -/
def SpreadsAcyclic (frags : List (String × List Sel)) (rank : String → Nat) : Prop :=
  ∀ f body, dget frags f = some body → ∀ f' ∈ spreadsIn body, rank f' < rank f

/-! ### C34: directives -/

mutual
/-- the value of a value in a document: variables have the values `vars`, objects are dicts -/
inductive Evals (vars : List (String × Val)) : AVal → Val → Prop
  | null : Evals vars .null .none
  | int (i) : Evals vars (.int i) (.int i)
  | float (t) : Evals vars (.float t) (.float t)
  | str (s) : Evals vars (.str s) (.str s)
  | bool (b) : Evals vars (.bool b) (.bool b)
  | enum (s) : Evals vars (.enum s) (.str s)
  | list {xs vs} : EvalsList vars xs vs → Evals vars (.list xs) (.list vs)
  | obj {kvs vs} : EvalsArgs vars kvs vs → Evals vars (.obj kvs) (.dict (dmk (vs.map fun kv => (.str kv.1, kv.2))))
  | var {n v} : dget vars n = some v → Evals vars (.var n) v
inductive EvalsList (vars : List (String × Val)) : List AVal → List Val → Prop
  | nil : EvalsList vars [] []
  | cons {a v r vs} : Evals vars a v → EvalsList vars r vs → EvalsList vars (a :: r) (v :: vs)
inductive EvalsArgs (vars : List (String × Val)) : List (String × AVal) → List (String × Val) → Prop
  | nil : EvalsArgs vars [] []
  | cons {k a v r vs} : Evals vars a v → EvalsArgs vars r vs → EvalsArgs vars ((k, a) :: r) ((k, v) :: vs)
end

/-- the values which count as false in Python -/
inductive Falsy : Val → Prop
  | none : Falsy .none
  | false : Falsy (.bool false)
  | zero : Falsy (.int 0)
  | float0 : Falsy (.float "0.0")
  | floatNeg0 : Falsy (.float "-0.0")
  | str : Falsy (.str "")
  | kw : Falsy (.kw "")
  | sym : Falsy (.sym "")
  | seq (k) : Falsy (.seq k [])
  | map (k) : Falsy (.map k [])

/-- `@skip(if: true)` or `@include(if: false)` is among the directives.  Conditions which are not booleans count
by their Python truth value. -/
def Excluded (vars : List (String × Val)) (dirs : List Directive) : Prop :=
  ∃ d ∈ dirs, ∃ a v, d.args = [("if", a)] ∧ Evals vars a v ∧
    ((d.name = "skip" ∧ ¬ Falsy v) ∨ (d.name = "include" ∧ Falsy v))

/-- `@skip` and `@include` -/
def Directive.isCond (d : Directive) : Bool := d.name = "skip" || d.name = "include"

/-- a condition with exactly one argument `if` which has a value -/
def Directive.Ok (vars : List (String × Val)) (d : Directive) : Prop := ∃ a v, d.args = [("if", a)] ∧ Evals vars a v

/-- the conditions are proper -/
def CondsOk (vars : List (String × Val)) (dirs : List Directive) : Prop := ∀ d ∈ dirs, d.isCond = true → d.Ok vars

/-- the directive has a false condition -/
def Directive.False (vars : List (String × Val)) (d : Directive) : Prop :=
  ∃ a v, d.args = [("if", a)] ∧ Evals vars a v ∧ Falsy v

/-- at most one `@skip` and at most one `@include`, with proper conditions, and not both with a false condition
(`c34_both`: then the code ignores the `@include`) -/
def DirsOk (vars : List (String × Val)) (dirs : List Directive) : Prop :=
  (dirs.filter fun d => d.name = "skip").length ≤ 1 ∧ (dirs.filter fun d => d.name = "include").length ≤ 1 ∧
  CondsOk vars dirs ∧
  ¬ ∃ d ∈ dirs, ∃ d' ∈ dirs, d.name = "skip" ∧ d'.name = "include" ∧ d.False vars ∧ d'.False vars

/-- the same; a single condition may be improper -/
def DirsFit (vars : List (String × Val)) (dirs : List Directive) : Prop :=
  (dirs.filter Directive.isCond).length ≤ 1 ∨ DirsOk vars dirs

/-- the options: no arguments are no options -/
inductive MeansArgs (vars : List (String × Val)) : List (String × AVal) → Opts → Prop
  | none : MeansArgs vars [] none
  | some {a r kvs} : EvalsArgs vars (a :: r) kvs → MeansArgs vars (a :: r) (some (dmk kvs))

mutual
/-- the meaning of a selection: the items of the query it contributes -/
inductive MeansSel (vars : List (String × Val)) (frags : List (String × List Sel)) : Sel → List QItem → Prop
  | excluded {s} : CondsOk vars s.dirs → Excluded vars s.dirs → MeansSel vars frags s []
  | leaf {n a args dirs o} : CondsOk vars dirs → ¬ Excluded vars dirs → MeansArgs vars args o →
      MeansSel vars frags (.leaf n a args dirs) [.field n o a]
  | obj {n a args dirs o ss items} : CondsOk vars dirs → ¬ Excluded vars dirs → MeansArgs vars args o →
      Means vars frags ss items → MeansSel vars frags (.obj n a args dirs ss) [.link n (.mk items false) o a]
  | spread {n dirs body items} : CondsOk vars dirs → ¬ Excluded vars dirs → dget frags n = some body →
      Means vars frags body items → MeansSel vars frags (.spread n dirs) items
  | inline {dirs ss items} : CondsOk vars dirs → ¬ Excluded vars dirs → Means vars frags ss items →
      MeansSel vars frags (.inline dirs ss) items
inductive Means (vars : List (String × Val)) (frags : List (String × List Sel)) : List Sel → List QItem → Prop
  | nil : Means vars frags [] []
  | cons {s r a b} : MeansSel vars frags s a → Means vars frags r b → Means vars frags (s :: r) (a ++ b)
end

mutual
/-- the second list is the first one without the excluded selections and without directives -/
inductive PrunesSel (vars : List (String × Val)) : Sel → List Sel → Prop
  | excluded {s} : DirsOk vars s.dirs → Excluded vars s.dirs → PrunesSel vars s []
  | leaf {n a args dirs} : DirsOk vars dirs → ¬ Excluded vars dirs →
      PrunesSel vars (.leaf n a args dirs) [.leaf n a args []]
  | obj {n a args dirs ss ss'} : DirsOk vars dirs → ¬ Excluded vars dirs → Prunes vars ss ss' →
      PrunesSel vars (.obj n a args dirs ss) [.obj n a args [] ss']
  | spread {n dirs} : DirsOk vars dirs → ¬ Excluded vars dirs → PrunesSel vars (.spread n dirs) [.spread n []]
  | inline {dirs ss ss'} : DirsOk vars dirs → ¬ Excluded vars dirs → Prunes vars ss ss' →
      PrunesSel vars (.inline dirs ss) [.inline [] ss']
inductive Prunes (vars : List (String × Val)) : List Sel → List Sel → Prop
  | nil : Prunes vars [] []
  | cons {s s' r r'} : PrunesSel vars s s' → Prunes vars r r' → Prunes vars (s :: r) (s' ++ r')
end

/-- every fragment, pruned -/
def PrunesFrags (vars : List (String × Val)) : List (String × List Sel) → List (String × List Sel) → Prop :=
  List.Forall₂ fun f f' => f.1 = f'.1 ∧ Prunes vars f.2 f'.2

/-! ### C34: what the code does, for every document -/

/-- the directive which decides: the first `@skip`; without any `@skip`, the first `@include` -/
inductive Decides : List Directive → Directive → Prop
  | skip {d before after} : d.name = "skip" → (∀ x ∈ before, x.name ≠ "skip") → Decides (before ++ d :: after) d
  | incl {d before after} : d.name = "include" → (∀ x ∈ before, x.name ≠ "include") →
      (∀ x ∈ before ++ d :: after, x.name ≠ "skip") → Decides (before ++ d :: after) d

/-- the condition which decides leaves the selection out -/
def LeftOut (vars : List (String × Val)) (dirs : List Directive) : Prop :=
  ∃ d a v, Decides dirs d ∧ d.args = [("if", a)] ∧ Evals vars a v ∧
    ((d.name = "skip" ∧ ¬ Falsy v) ∨ (d.name = "include" ∧ Falsy v))

/-- there is no `@skip` and no `@include`, or the condition which decides takes the selection -/
def TakenIn (vars : List (String × Val)) (dirs : List Directive) : Prop :=
  (∀ d ∈ dirs, d.name ≠ "skip" ∧ d.name ≠ "include") ∨
  ∃ d a v, Decides dirs d ∧ d.args = [("if", a)] ∧ Evals vars a v ∧
    ((d.name = "skip" ∧ Falsy v) ∨ (d.name = "include" ∧ ¬ Falsy v))

mutual
/-- the items of the query a selection contributes, when only the first `@skip`, or else the first `@include`, counts -/
inductive YieldsSel (vars : List (String × Val)) (frags : List (String × List Sel)) : Sel → List QItem → Prop
  | out {s} : LeftOut vars s.dirs → YieldsSel vars frags s []
  | leaf {n a args dirs o} : TakenIn vars dirs → MeansArgs vars args o →
      YieldsSel vars frags (.leaf n a args dirs) [.field n o a]
  | obj {n a args dirs o ss items} : TakenIn vars dirs → MeansArgs vars args o →
      Yields vars frags ss items → YieldsSel vars frags (.obj n a args dirs ss) [.link n (.mk items false) o a]
  | spread {n dirs body items} : TakenIn vars dirs → dget frags n = some body →
      Yields vars frags body items → YieldsSel vars frags (.spread n dirs) items
  | inline {dirs ss items} : TakenIn vars dirs → Yields vars frags ss items →
      YieldsSel vars frags (.inline dirs ss) items
inductive Yields (vars : List (String × Val)) (frags : List (String × List Sel)) : List Sel → List QItem → Prop
  | nil : Yields vars frags [] []
  | cons {s r a b} : YieldsSel vars frags s a → Yields vars frags r b → Yields vars frags (s :: r) (a ++ b)
end

/-! ### C33, C35: what is visited -/

/-- The selection stands among the selections, on the top level or inside of fields and inline fragments, none of
which is excluded. -/
inductive VisitedIn (vars : List (String × Val)) : List Sel → Sel → Prop
  | here {ss s} : s ∈ ss → VisitedIn vars ss s
  | obj {ss n a args dirs ss' s} : .obj n a args dirs ss' ∈ ss → ¬ Excluded vars dirs → VisitedIn vars ss' s →
      VisitedIn vars ss s
  | inline {ss dirs ss' s} : .inline dirs ss' ∈ ss → ¬ Excluded vars dirs → VisitedIn vars ss' s →
      VisitedIn vars ss s

/-- the same, also inside of the fragments which are spread -/
inductive Visited (vars : List (String × Val)) (frags : List (String × List Sel)) : List Sel → Sel → Prop
  | here {ss s} : VisitedIn vars ss s → Visited vars frags ss s
  | spread {ss n dirs body s} : VisitedIn vars ss (.spread n dirs) → ¬ Excluded vars dirs → dget frags n = some body →
      Visited vars frags body s → Visited vars frags ss s

/-- a fragment which is visited and which, among its own contents, is spread again -/
def CyclicFragment (vars : List (String × Val)) (frags : List (String × List Sel)) (ss : List Sel) : Prop :=
  ∃ f dirs body dirs', Visited vars frags ss (.spread f dirs) ∧ ¬ Excluded vars dirs ∧ dget frags f = some body ∧
    Visited vars frags body (.spread f dirs') ∧ ¬ Excluded vars dirs'

mutual
/-- the variables in a value -/
def AVal.vars : AVal → List String
  | .var n => [n]
  | .list xs => varsList xs
  | .obj kvs => varsArgs kvs
  | _ => []
def varsList : List AVal → List String
  | [] => []
  | a :: r => a.vars ++ varsList r
def varsArgs : List (String × AVal) → List String
  | [] => []
  | (_, a) :: r => a.vars ++ varsArgs r
end

/-- the arguments of a field -/
def Sel.args : Sel → List (String × AVal)
  | .leaf _ _ args _ | .obj _ _ args _ _ => args
  | _ => []

/-! ### C35: variables of an operation -/

/-- the value of a declared variable: as given (also null), else the default, else null -/
def VarValue (given : List (String × Val)) (d : VarDef) (v : Val) : Prop :=
  dget given d.name = some v ∨
  (dget given d.name = none ∧ ∃ a, d.dflt = some a ∧ Evals [] a v) ∨
  (dget given d.name = none ∧ d.dflt = none ∧ d.nonNull = false ∧ v = .none)

/-- the variables of an operation -/
def OpVars (given : List (String × Val)) : List VarDef → List (String × Val) → Prop :=
  List.Forall₂ fun d kv => kv.1 = d.name ∧ VarValue given d kv.2

/-- a required variable is not given and has no default -/
def VarMissing (given : List (String × Val)) (d : VarDef) : Prop :=
  dget given d.name = none ∧ d.dflt = none ∧ d.nonNull = true

/-! ### C36: operations -/

/-- the operations of a document -/
def docOps (doc : List Defn) : List OpDef :=
  doc.filterMap fun
    | .op o => some o
    | _ => none

/-- the fragments of a document -/
def docFrags (doc : List Defn) : List (String × List Sel) :=
  doc.filterMap fun
    | .frag n s => some (n, s)
    | _ => none

/-- only operations and fragments -/
def Executable (doc : List Defn) : Prop := ∀ d ∈ doc, d ≠ .other

end Hiku
