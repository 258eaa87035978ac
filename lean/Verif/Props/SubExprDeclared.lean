import Verif.Props.ExprValidExample

/-! C55 from the declarations: that the requirements of fields are valid queries of the lower graphs is a consequence (C56),
and not an assumption -/

namespace Hiku.SubExpr

open Hiku.Expr

/-- the expression of a field over the graph `g`: inline records in the types of arguments are spelled out, options have
different names, `this` is used, functions are only called -/
structure DeclOk (g : Graph) (d : Decl) : Prop where
  args : ∀ f ats, dget d.fns f = some (.callable ats) → ∀ a ∈ ats, ArgTy a = true
  names : ("this" :: d.params).Nodup
  this : ∀ t, source (d.isFn g) d.src = some t → "this" ∈ reads t
  calls : ∀ t, source (d.isFn g) d.src = some t → ∀ x ∈ reads t, d.isFn g x = false

/-- The graphs are well-formed: links lead to nodes and require fields which exist; the sub-graphs of a graph are on nodes of
graphs with smaller numbers, whose fields have no options.  Nothing is said about requirements. -/
structure Layered (U : String → Opts → Prop) (decls : Nat → Decl) (sys : Sys) : Prop where
  this : U THIS none
  nodes : ∀ (gi : Nat) g, sys.graphs[gi]? = some g → g.node rootName = none
  links : ∀ (gi : Nat) g, sys.graphs[gi]? = some g → ∀ gn, IsNode g gn → ∀ n gl,
    gn.get n = some (.link gl) → (∃ t, g.node gl.node = some t) ∧
      ∀ r, gl.requires = some r → r ≠ "" ∧ ItemOk U g gn (.field r none none)
  subs : ∀ (gi : Nat) g, sys.graphs[gi]? = some g → ∀ gn, IsNode g gn → ∀ n gf,
    gn.get n = some (.field gf) → ∀ sg reqs p, gf.func = .checked sg reqs p →
      gn.name.isSome ∧ ∃ s g' t, sys.subs[sg]? = some s ∧ s.graph < gi ∧ sys.graphs[s.graph]? = some g' ∧
        g'.node s.node = some t ∧ g'.root.get THIS = none ∧ NoOptions g' ∧ Named U g' ∧ DeclOk g' (decls p)

variable {env : Env} {D : Data} {F : Fns} {decls : Nat → Decl} {base : Ty → Val → Prop} {U : String → Opts → Prop}

theorem Layered.good (hlay : Layered U decls env.sys) (hE : ExprFields env D F decls base U) : GoodSys U env.sys where
  this := hlay.this
  nodes := hlay.nodes
  links := hlay.links
  subs := by
    intro gi g hg gn hn n gf hget sg reqs p hf
    obtain ⟨h0, s, g', t, h1, h2, h3, h4, h5, h6, h7, h8⟩ := hlay.subs gi g hg gn hn n gf hget sg reqs p hf
    refine ⟨h0, s, g', t, h1, h2, h3, h4, h5, ?_⟩
    obtain ⟨nn, hnn⟩ : ∃ nn, g.node nn = some gn := by
      rcases hn with rfl | h
      · simp [Graph.root] at h0
      · exact h
    have hfield := hE.fields gi g nn gn n gf sg reqs p s g' t hg hnn hget hf h1 h3 h4
    obtain ⟨lim, c, h9, rfl, _⟩ := hfield.made
    obtain ⟨term, h10, _⟩ := hfield.source
    exact (c56_requirements_valid env.H lim s.node t (decls p) c term h9 h4 (hlay.nodes _ _ h3)
      (fun gn hn n gl h => (hlay.links _ _ h3 gn hn n gl h).1) h6 h7 hfield.simple h8.args h10 h8.names (h8.this _ h10)
      (h8.calls _ h10)).1

/-- C55 for well-formed graphs with declared expressions. -/
theorem c55_declared (hlay : Layered U decls env.sys) (hH : Faithful env.H D U)
    (hL : Loads env D (exprSub F decls env.sys D) U) (hE : ExprFields env D F decls base U)
    {choose : Nat → List Nat → List Nat} (hch : ValidChoice choose)
    {gi : Nat} {g : Graph} {q q' : QNode} (hg : env.sys.graphs[gi]? = some g)
    (hi : initOptions g q = .ok q') (hq : NodeOk U g g.root q') {fuel inner : Nat}
    (hf : costQuery env.sys 1 0 gi q < fuel) (hin : 1 + costQuery env.sys 0 1 gi q < inner) :
    ∃ idx, execute env choose inner fuel gi q = .ok (idx, q') ∧
      readNode env.H idx rootName rootIdent q' =
        .ok (semNode D (exprSub F decls env.sys D gi) g g.root rootIdent q') :=
  c55_result (hlay.good hE) hH hL hE hch hg hi hq hf hin

/-! ### The example of C55 -/

theorem xDeclOk : DeclOk xLow xDecl where
  args := by
    intro f ats h
    have := dget_mem h
    simp only [xDecl, List.mem_cons, List.not_mem_nil, or_false, Prod.mk.injEq, Ty.callable.injEq] at this
    rcases this with ⟨rfl, rfl⟩ | ⟨rfl, rfl⟩ | ⟨rfl, rfl⟩ <;> simp [ArgTy]
  names := by decide
  this := by
    intro t h
    rw [xSource] at h
    cases h
    decide
  calls := by
    intro t h
    rw [xSource] at h
    cases h
    decide

theorem xLayered : Layered xU (fun _ => xDecl) xEnv.sys where
  this := xGood.this
  nodes := xGood.nodes
  links := xGood.links
  subs := by
    intro gi g hg gn hn n gf h sg reqs p hf
    rcases xItems hg hn h with ⟨rfl, rfl, rfl, rfl, h⟩ | ⟨rfl, rfl, rfl, rfl, h⟩ | ⟨rfl, rfl, rfl, rfl, h⟩ |
      ⟨rfl, rfl, rfl, rfl, h⟩ | ⟨rfl, rfl, rfl, rfl, h⟩ | ⟨rfl, rfl, rfl, rfl, h⟩ <;> cases h <;>
      simp [xTitle, xSite, xName, xLabel] at hf
    obtain ⟨rfl, rfl, rfl⟩ := hf
    exact ⟨rfl, { graph := 0, node := "Track" }, xLow, xTrack, rfl, by simp, rfl, rfl, rfl, xLow_noOptions, xLow_named, xDeclOk⟩

example : ∃ idx, execute xEnv (fun _ l => l.take 1) (2 + costQuery xEnv.sys 0 1 1 xQuery) (costQuery xEnv.sys 1 0 1 xQuery + 1) 1 xQuery =
      .ok (idx, xQuery) ∧
    readNode xEnv.H idx rootName rootIdent xQuery =
      .ok (semNode xData (exprSub xF (fun _ => xDecl) xEnv.sys xData 1) xHigh xHigh.root rootIdent xQuery) :=
  c55_declared xLayered xFaithful (xLoads _) xFields validChoice_first (g := xHigh) rfl rfl xQuery_ok (by omega) (by omega)

end Hiku.SubExpr
