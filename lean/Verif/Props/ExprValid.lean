import Verif.Proofs.ExprValid
import Verif.Proofs.SubExprRun

/-! C56: requirements of expressions are valid queries, and begin with what is read -/

namespace Hiku.Expr

variable {strict : Bool} {types : List (String × Ty)}

theorem fits_merge (H : PyHash) {ns : List QNode} (hp : ∀ q ∈ ns, q.Plain) : ∀ {fs : List (String × Ty)},
    (∀ q ∈ ns, Fits strict types fs q) → Fits strict types fs (merge H ns) := by
  refine subMerge_induction H (P := fun ns => ∀ {fs : List (String × Ty)},
    (∀ q ∈ ns, Fits strict types fs q) → Fits strict types fs (merge H ns)) ?_ ns hp
  intro ns hp ih fs h
  rw [fits_iff]
  intro it hit
  rcases mem_merge hp hit with ⟨n, rfl, q, hq, hm⟩ | ⟨n, rfl, q, hq, q', hm⟩
  · exact fits_iff.1 (h q hq) _ hm
  · have := fits_iff.1 (h q hq) _ hm
    simp only [FitsItem] at this ⊢
    obtain ⟨t, gs, h1, h2, _⟩ := this
    refine ⟨t, gs, h1, h2, ih n ⟨q, hq, q', hm⟩ fun q'' hq'' => ?_⟩
    obtain ⟨q0, hq0, hm0⟩ := (mem_subMerge hp).1 hq''
    have := fits_iff.1 (h q0 hq0) _ hm0
    simp only [FitsItem] at this
    obtain ⟨t', gs', h3, h4, h5⟩ := this
    rw [h1] at h3
    cases h3
    rw [RecordIn.unique h2 h4]
    exact h5

theorem names_merge (H : PyHash) {ns : List QNode} (hp : ∀ q ∈ ns, q.Plain) (y : String) :
    (∃ i ∈ (merge H ns).fields, i.name = y) ↔ Names ns y := by
  constructor
  · rintro ⟨i, hi, rfl⟩
    rcases mem_merge hp hi with ⟨n, rfl, q, hq, hm⟩ | ⟨n, rfl, q, hq, q', hm⟩
    · exact ⟨q, hq, _, hm, rfl⟩
    · exact ⟨q, hq, _, hm, rfl⟩
  · rintro ⟨q, hq, i, hi, rfl⟩
    obtain ⟨it', h1, h2, _⟩ := merge_cover (H := H) hp hq hi
    exact ⟨it', h1, h2⟩

/-- C56.  The requirements of a checked expression are a valid query of the types of its variables, and at the top
they ask exactly for the variables which are read.  (Not `strict`: functions with arguments of any types are allowed, and
nothing is said about the kind of what is asked for as a field.) -/
theorem c56_fits (strict : Bool) (H : PyHash) (types vars : List (String × Ty)) (lim : Nat) (e e' : Ex) (q : QNode) (t : Term)
    (hA : NoAlias types) (hT : NoFnTypes types)
    (hv : ∀ x t, dget vars x = some t → NoFn t = true ∨ ∃ ats, t = .callable ats ∧ (strict = true → ∀ a ∈ ats, ArgTy a = true))
    (hraw : Raw e = true) (hcheck : check types lim (rootEnv vars) e = .ok e') (hreq : extract H types e' = .ok q)
    (hp : parse e' = some t) :
    Fits strict types vars q ∧ ∀ y, (∃ i ∈ q.fields, i.name = y) ↔ y ∈ reads t := by
  have hc := check_chk hA hcheck
  unfold extract at hreq
  obtain ⟨reqs, h1, h2⟩ := bind_ok_iff.1 hreq
  cases h2
  have henv : EnvOk strict types vars (rootEnv vars) := by
    intro x r hr
    rw [dget_rootEnv, Option.map_eq_some_iff] at hr
    obtain ⟨ty, hx, rfl⟩ := hr
    exact ⟨hx, hv x ty hx⟩
  have hpl := Hiku.SubExpr.reqsOf_plain e' reqs h1
  have hR := Chk.requires hA hT henv hraw hc t hp
  obtain ⟨h3, h4⟩ := hR.reqs reqs h1
  refine ⟨fits_merge H hpl h3, fun y => ?_⟩
  rw [names_merge H hpl, h4]
  constructor
  · rintro ⟨x, hx, r, hr, rfl⟩
    rw [dget_rootEnv, Option.map_eq_some_iff] at hr
    obtain ⟨ty, _, rfl⟩ := hr
    exact hx
  · intro hy
    obtain ⟨r, hr⟩ := Chk.bound hraw hc t hp y hy
    refine ⟨y, hy, r, hr, ?_⟩
    rw [dget_rootEnv, Option.map_eq_some_iff] at hr
    obtain ⟨ty, _, rfl⟩ := hr
    rfl

/-- C56 for functions with arguments of any types: what is asked for exists, and nothing else than what is read is asked
for. -/
theorem c56_exists (H : PyHash) (types vars : List (String × Ty)) (lim : Nat) (e e' : Ex) (q : QNode) (t : Term)
    (hA : NoAlias types) (hT : NoFnTypes types)
    (hv : ∀ x t, dget vars x = some t → NoFn t = true ∨ ∃ ats, t = .callable ats)
    (hraw : Raw e = true) (hcheck : check types lim (rootEnv vars) e = .ok e') (hreq : extract H types e' = .ok q)
    (hp : parse e' = some t) :
    Fits false types vars q ∧ ∀ y, (∃ i ∈ q.fields, i.name = y) ↔ y ∈ reads t :=
  c56_fits false H types vars lim e e' q t hA hT
    (fun x t hx => (hv x t hx).imp id fun ⟨ats, h⟩ => ⟨ats, h, fun h => by cases h⟩) hraw hcheck hreq hp

end Hiku.Expr

namespace Hiku.SubExpr

open Hiku.Expr

variable {U : String → Opts → Prop} {g : Graph}

/-- links of the graph lead to its nodes -/
def LinksLead (g : Graph) : Prop :=
  ∀ gn, IsNode g gn → ∀ n gl, gn.get n = some (.link gl) → ∃ t, g.node gl.node = some t

/-- no field of the graph needs options -/
def NoOptions (g : Graph) : Prop := ∀ gn, IsNode g gn → ∀ n gf, gn.get n = some (.field gf) → gf.options = []

/-- names of fields and links of the graph are among `U` -/
def Named (U : String → Opts → Prop) (g : Graph) : Prop := ∀ gn, IsNode g gn → ∀ n, (gn.get n).isSome → U n none

theorem node_ne_root (hroot : g.node rootName = none) {n : String} {t : GNode} (h : g.node n = some t) : n ≠ rootName := by
  rintro rfl
  rw [hroot] at h
  cases h

theorem recordIn_node (hroot : g.node rootName = none) {n : String} {t : GNode} (h : g.node n = some t) :
    RecordIn g.types (.ref n) t.recordFields :=
  .named _ _ _ (types_node h (node_ne_root hroot h)) (.record _)

theorem recordIn_link (hroot : g.node rootName = none) {gl : GLink} {t : GNode} (h : g.node gl.node = some t) :
    RecordIn g.types gl.ty t.recordFields := by
  unfold GLink.ty
  cases gl.typeEnum with
  | one => exact recordIn_node hroot h
  | maybe => exact .optional _ _ (recordIn_node hroot h)
  | many => exact .sequence _ _ (recordIn_node hroot h)

theorem optsGiven_nil {gf : GField} (h : gf.options = []) (o : Opts) : OptsGiven gf o := by
  intro op hop
  rw [h] at hop
  cases hop

/-- a query which fits the fields of a node is a query of the node -/
theorem fits_node (hroot : g.node rootName = none) (hl : LinksLead g) (ho : NoOptions g) (hU : Named U g) :
    ∀ (k : Nat) (it : QItem), sizeOf it ≤ k → it.Plain → ∀ gn, IsNode g gn → ∀ (fs : List (String × Ty)),
      dget fs it.name = (gn.get it.name).map GItem.ty → FitsItem true g.types fs it → ItemOk U g gn it := by
  intro k
  induction k with
  | zero => intro it hk; cases it <;> simp at hk
  | succ k ih =>
    intro it hk hp gn hgn fs hfs hf
    cases it with
    | field n o a =>
      obtain ⟨rfl, rfl⟩ := hp
      simp only [FitsItem] at hf
      obtain ⟨t, h1, h2⟩ := hf
      simp only [QItem.name] at hfs
      rw [hfs, Option.map_eq_some_iff] at h1
      obtain ⟨gi, h3, rfl⟩ := h1
      simp only [ItemOk]
      refine ⟨hU gn hgn n (by rw [h3]; rfl), ?_⟩
      cases gi with
      | field gf => exact ⟨gf, h3, optsGiven_nil (ho gn hgn n gf h3) _⟩
      | link gl =>
        obtain ⟨t, ht⟩ := hl gn hgn n gl h3
        exact absurd (recordIn_link hroot ht) (h2 trivial _)
    | link n q o a =>
      simp only [QItem.Plain] at hp
      obtain ⟨rfl, rfl, hqp⟩ := hp
      simp only [FitsItem] at hf
      obtain ⟨t, gs, h1, h2, h4⟩ := hf
      simp only [QItem.name] at hfs
      rw [hfs, Option.map_eq_some_iff] at h1
      obtain ⟨gi, h3, rfl⟩ := h1
      simp only [ItemOk]
      refine ⟨hU gn hgn n (by rw [h3]; rfl), ?_⟩
      cases gi with
      | field gf => exact .inr ⟨gf, h3, optsGiven_nil (ho gn hgn n gf h3) _⟩
      | link gl =>
        obtain ⟨t, ht⟩ := hl gn hgn n gl h3
        refine .inl ⟨gl, t, h3, ht, ?_⟩
        have := RecordIn.unique h2 (recordIn_link hroot ht)
        subst this
        rw [nodeOk_iff]
        obtain ⟨h5, h6⟩ := QNode.plain_iff.1 hqp
        refine ⟨fun i hi => ih i ?_ (h6 i hi) t ?_ t.recordFields (recordFields_get _ _) (fits_iff.1 h4 i hi), ?_⟩
        · cases q with
          | mk items b =>
            have := List.sizeOf_lt_of_mem (show i ∈ items from hi)
            simp at hk
            omega
        · exact .inr ⟨_, ht⟩
        · intro h; rw [h5] at h; cases h

theorem vars_fn {d : Decl} {node : String} (hsimple : SimpleTypes g d)
    (hargs : ∀ f ats, dget d.fns f = some (.callable ats) → ∀ a ∈ ats, ArgTy a = true)
    (hn : ("this" :: d.params).Nodup) {rt : List (String × Ty)} (hrt : rootTypes g = .ok rt) {x : String} {ty : Ty}
    (hx : dget (exprVars rt d.fns node d.opts) x = some ty) : GoodFn true ty := by
  have h := (vars_good (node := node) hsimple hn hrt) x (.root x ty) (by rw [dget_rootEnv, hx]; rfl)
  simp only [Ref.to] at h
  rw [vars_get hrt hn] at hx
  by_cases e : x = "this"
  · rw [if_pos e] at hx
    cases hx
    exact .inl rfl
  · rw [if_neg e] at hx
    rcases h.1 with h1 | ⟨ats, rfl, h1⟩
    · exact .inl h1
    · refine .inr ⟨ats, rfl, ?_⟩
      have hfn := h.2
      simp only [isCallable] at hfn
      unfold Decl.isFn at hfn
      simp only [Bool.and_eq_true, decide_eq_true_eq, Option.isNone_iff_eq_none] at hfn
      obtain ⟨⟨⟨_, h2⟩, h3⟩, _⟩ := hfn
      have h4 : dget (d.opts.map fun o => (o.name, o.ty.getD .any)) x = none := by
        rw [dget_eq_none_iff, List.map_map]
        exact h2
      rw [h4, h3] at hx
      exact fun _ => hargs x ats hx

/-- C56.  The requirements of a field which is defined by an expression over the node `t` of the graph `g` are a valid
query: below `this` they fit the node, the rest fits the root of the graph.  They ask for `this` when it is read, and for
nothing at the top but what is read. -/
theorem c56_requirements_valid (H : PyHash) (lim : Nat) (node : String) (t : GNode) (d : Decl) (c : Compiled) (term : Term)
    (hpost : postprocess H lim g node d.fns d.opts (toExpr d.src) = .ok c)
    (hnode : g.node node = some t) (hroot : g.node rootName = none) (hl : LinksLead g) (ho : NoOptions g) (hU : Named U g)
    (hsimple : SimpleTypes g d)
    (hargs : ∀ f ats, dget d.fns f = some (.callable ats) → ∀ a ∈ ats, ArgTy a = true)
    (hsrc : source (d.isFn g) d.src = some term) (hn : ("this" :: d.params).Nodup)
    (hthis : "this" ∈ reads term) (hfns : ∀ x ∈ reads term, d.isFn g x = false) :
    ReqsOk U g t c.reqs ∧ ∀ y, (∃ i ∈ c.reqs.fields, i.name = y) ↔ y ∈ reads term ∧ y ∉ d.params := by
  unfold postprocess at hpost
  obtain ⟨rt, hrt, hpost⟩ := bind_ok_iff.1 hpost
  obtain ⟨e', hcheck, hpost⟩ := bind_ok_iff.1 hpost
  obtain ⟨q0, hext, hpost⟩ := bind_ok_iff.1 hpost
  obtain ⟨code, hcode, hpost⟩ := bind_ok_iff.1 hpost
  cases hpost
  obtain ⟨hq0p, hq0s⟩ := extract_single hext
  have hpl := QNode.plain_iff.1 hq0p
  have henv := vars_good (node := node) hsimple hn hrt
  have hparse : parse e' = some term :=
    source_parse hsimple.noFn _ d.src (Nat.le_refl _) _ _ henv e' term hsrc (check_chk hsimple.alias_ hcheck)
  obtain ⟨hfits, hnames⟩ := c56_fits true H g.types (exprVars rt d.fns node d.opts) lim (toExpr d.src) e' q0 term
    hsimple.alias_ hsimple.noFn (fun x ty hx => vars_fn hsimple hargs hn hrt hx) (toExpr_raw _) hcheck hext hparse
  have hmem : ∀ i, i ∈ (QNode.mk (q0.fields.filter fun f => f.name ∉ d.params) false).fields ↔
      i ∈ q0.fields ∧ i.name ∉ d.params := by
    intro i
    simp [QNode.fields]
  have hnames' : ∀ y, (∃ i ∈ (QNode.mk (q0.fields.filter fun f => f.name ∉ d.params) false).fields, i.name = y) ↔
      y ∈ reads term ∧ y ∉ d.params := by
    intro y
    rw [← hnames]
    constructor
    · rintro ⟨i, hi, rfl⟩
      obtain ⟨h1, h2⟩ := (hmem i).1 hi
      exact ⟨⟨i, h1, rfl⟩, h2⟩
    · rintro ⟨⟨i, h1, rfl⟩, h2⟩
      exact ⟨i, (hmem i).2 ⟨h1, h2⟩, rfl⟩
  refine ⟨⟨?_, ?_, ?_⟩, hnames'⟩
  · rw [QNode.plain_iff]
    exact ⟨rfl, fun i hi => hpl.2 i ((hmem i).1 hi).1⟩
  · exact (hnames' THIS).2 ⟨hthis, (List.nodup_cons.1 hn).1⟩
  · intro i hi
    obtain ⟨h1, h2⟩ := (hmem i).1 hi
    have hf := fits_iff.1 hfits i h1
    have hip := hpl.2 i h1
    by_cases e : i.name = THIS
    · rw [if_pos e]
      have hty : dget (exprVars rt d.fns node d.opts) "this" = some (.ref node) := by
        rw [vars_get hrt hn, if_pos rfl]
      cases i with
      | field n o a =>
        simp only [QItem.name] at e
        subst e
        simp only [FitsItem] at hf
        obtain ⟨ty, h3, h4⟩ := hf
        rw [show THIS = "this" from rfl, hty] at h3
        cases h3
        exact absurd (recordIn_node hroot hnode) (h4 trivial _)
      | link n q o a =>
        simp only [QItem.name] at e
        subst e
        simp only [QItem.Plain] at hip
        obtain ⟨rfl, rfl, hqp⟩ := hip
        refine ⟨q, rfl, ?_⟩
        simp only [FitsItem] at hf
        obtain ⟨ty, gs, h3, h4, h5⟩ := hf
        rw [show THIS = "this" from rfl, hty] at h3
        cases h3
        have := RecordIn.unique h4 (recordIn_node hroot hnode)
        subst this
        rw [nodeOk_iff]
        obtain ⟨h6, h7⟩ := QNode.plain_iff.1 hqp
        refine ⟨fun i hi => ?_, fun h => by rw [h6] at h; cases h⟩
        exact fits_node hroot hl ho hU _ i (Nat.le_refl _) (h7 i hi) t (.inr ⟨_, hnode⟩) t.recordFields
          (recordFields_get _ _) (fits_iff.1 h5 i hi)
    · rw [if_neg e]
      refine fits_node hroot hl ho hU _ i (Nat.le_refl _) hip g.root (.inl rfl) _ ?_ hf
      have hx : i.name ∈ reads term := ((hnames' i.name).1 ⟨i, hi, rfl⟩).1
      have hnf := hfns _ hx
      rw [vars_get hrt hn, if_neg (show ¬ i.name = "this" from e)]
      have h4 : dget (d.opts.map fun o => (o.name, o.ty.getD .any)) i.name = none := by
        rw [dget_eq_none_iff, List.map_map]
        exact h2
      rw [h4, Option.none_or]
      cases hg : g.root.get i.name with
      | some it => rfl
      | none =>
        rw [Option.map_none, Option.none_or, dget_eq_none_iff]
        intro hm
        unfold Decl.isFn at hnf
        rw [hg] at hnf
        have h5 : (i.name ≠ "this") := e
        have h6 : (decide (i.name ∈ d.fns.map (·.1))) = true := decide_eq_true hm
        simp only [Option.isNone_none, Bool.and_true] at hnf
        rw [h6] at hnf
        simp [h5, h2] at hnf

end Hiku.SubExpr
