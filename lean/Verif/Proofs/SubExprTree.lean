import Verif.Proofs.SubExpr

/-! C55: trees of plain queries stand for the objects -/

namespace Hiku.SubExpr

open Hiku.Expr

/-- two meanings of fields computed by sub-graphs agree on the existing objects of a graph -/
def Agree (D : Data) (U : String → Opts → Prop) (gi : Nat) (g : Graph) (sub sub' : SubSem) : Prop :=
  ∀ gn n gf o i, IsNode g gn → gn.get n = some (.field gf) → U n o → OptsGiven gf o → IdentOk D gi gn i →
    semField D sub gn gf o i = semField D sub' gn gf o i

/-- links lead to existing objects -/
def LinksOk (D : Data) (U : String → Opts → Prop) (gi : Nat) (g : Graph) (sub : SubSem) : Prop :=
  ∀ gn n gl o i, IsNode g gn → gn.get n = some (.link gl) → U n o → IdentOk D gi gn i →
    ∀ t ∈ targets gl.typeEnum (semLink D sub gn i gl o), D.obj gi gl.node t

/-- required fields are fields -/
def RequiresOk (U : String → Opts → Prop) (g : Graph) : Prop :=
  ∀ gn, IsNode g gn → ∀ n gl, gn.get n = some (.link gl) → ∀ r, gl.requires = some r → ItemOk U g gn (.field r none none)

section
variable {D : Data} {U : String → Opts → Prop} {gi : Nat} {g : Graph} {sub sub' : SubSem}

theorem Agree.name (h : Agree D U gi g sub sub') {gn : GNode} {n : String} {gf : GField} {o : Opts} {i : Val}
    (hn : IsNode g gn) (hget : gn.get n = some (.field gf)) (hu : U n o) (ho : OptsGiven gf o) (hi : IdentOk D gi gn i) :
    semName D sub gn i n o = semName D sub' gn i n o := by
  unfold semName
  rw [hget]
  exact h gn n gf o i hn hget hu ho hi

theorem Agree.link (h : Agree D U gi g sub sub') (hr : RequiresOk U g) {gn : GNode} {n : String} {gl : GLink} {o : Opts}
    {i : Val} (hn : IsNode g gn) (hget : gn.get n = some (.link gl)) (hi : IdentOk D gi gn i) :
    semLink D sub gn i gl o = semLink D sub' gn i gl o := by
  unfold semLink
  cases hreq : gl.requires with
  | none => rfl
  | some r =>
    have := hr gn hn n gl hget r hreq
    simp only [ItemOk] at this
    obtain ⟨hu, gf, h1, h2⟩ := this
    simp only [Option.map_some]
    rw [h.name hn h1 hu h2 hi]

theorem identOk_node {nm : String} {t : GNode} {i : Val} (h : g.node nm = some t) : IdentOk D gi t i ↔ D.obj gi nm i := by
  unfold IdentOk
  rw [Graph.node_name h]

/-- trees and objects -/
def Shows (D : Data) (U : String → Opts → Prop) (gi : Nat) (g : Graph) (sub : SubSem) (a : Tree) (b : Obj) : Prop :=
  ∃ t q i, a = ⟨t, semNode D sub g t i q⟩ ∧ b = ⟨t, i⟩ ∧ q.Plain ∧ NodeOk U g t q ∧ IsNode g t ∧ IdentOk D gi t i

theorem semNode_dict (D : Data) (sub : SubSem) (g : Graph) (t : GNode) (i : Val) (q : QNode) :
    ∃ kvs, semNode D sub g t i q = .dict kvs := by
  cases q with
  | mk fs o => exact ⟨_, by rw [semNode]⟩

theorem semNode_key {D : Data} {sub : SubSem} {t : GNode} {i : Val} {q : QNode} (hp : q.Plain) {kvs : List (Val × Val)}
    {n : String} {v : Val} (he : semNode D sub g t i q = .dict kvs) (h : dget kvs (.str n) = some v) :
    ∃ it ∈ q.fields, it.name = n ∧ v = semItem D sub g t i it := by
  have hk := (QNode.plain_iff.1 hp).2
  cases q with
  | mk fs ord =>
    rw [semNode] at he
    cases he
    rw [semItems_map, dget_dmk] at h
    have := dget_mem h
    simp only [List.mem_reverse, List.mem_map, Prod.mk.injEq] at this
    obtain ⟨it, h1, h2, rfl⟩ := this
    simp only [QNode.fields] at hk ⊢
    refine ⟨it, h1, ?_, rfl⟩
    have hH : PyHash := ⟨fun _ => 0, fun _ => 0, fun _ => 0⟩
    rw [← (hk it h1).key (H := hH) |>.2.2.2]
    simpa using h2

/-- an item of a plain query -/
theorem plain_item {t : GNode} {q : QNode} (hp : q.Plain) (hok : NodeOk U g t q) {it : QItem} (hit : it ∈ q.fields) :
    (∃ gf, t.get it.name = some (.field gf) ∧ it.options = none ∧ U it.name none ∧ OptsGiven gf none) ∨
    ∃ gl t' q', t.get it.name = some (.link gl) ∧ g.node gl.node = some t' ∧ it = .link it.name q' none none ∧
      U it.name none ∧ q'.Plain ∧ NodeOk U g t' q' := by
  have h1 := (QNode.plain_iff.1 hp).2 it hit
  have h2 := (nodeOk_iff.1 hok).1 it hit
  cases it with
  | field n o a =>
    simp only [QItem.Plain] at h1
    obtain ⟨rfl, rfl⟩ := h1
    simp only [ItemOk] at h2
    obtain ⟨hu, gf, h3, h4⟩ := h2
    exact .inl ⟨gf, h3, rfl, hu, h4⟩
  | link n q' o a =>
    simp only [QItem.Plain] at h1
    obtain ⟨rfl, rfl, h5⟩ := h1
    simp only [ItemOk] at h2
    obtain ⟨hu, ⟨gl, t', h3, h4, h6⟩ | ⟨gf, h3, h4⟩⟩ := h2
    · exact .inr ⟨gl, t', q', h3, h4, rfl, hu, h5, h6⟩
    · exact .inl ⟨gf, h3, rfl, hu, h4⟩

/-- the value of a link, wrapped -/
theorem wrapLink_sem {t t' : GNode} {i : Val} {n : String} {q' : QNode} {gl : GLink} (hget : t.get n = some (.link gl))
    (hnode : g.node gl.node = some t') :
    wrapLink (Tree.mk t') gl.typeEnum (semItem D sub g t i (.link n q' none none)) =
      match gl.typeEnum with
      | .many => .list ((targets .many (semLink D sub t i gl none)).map fun j => .obj ⟨t', semNode D sub g t' j q'⟩)
      | .maybe => if semLink D sub t i gl none = .nothing then .val .none
          else .obj ⟨t', semNode D sub g t' (semLink D sub t i gl none) q'⟩
      | .one => .obj ⟨t', semNode D sub g t' (semLink D sub t i gl none) q'⟩ := by
  simp only [semItem, hget, hnode]
  cases gl.typeEnum with
  | many => simp [wrapLink, Function.comp_def]
  | one => rfl
  | maybe =>
    by_cases h : semLink D sub t i gl none = .nothing
    · simp only [h, if_true]; rfl
    · simp only [h, if_false]
      obtain ⟨kvs, e⟩ := semNode_dict D sub g t' (semLink D sub t i gl none) q'
      rw [e]
      rfl

theorem shows_stands (hag : Agree D U gi g sub sub') (hl : LinksOk D U gi g sub) (hr : RequiresOk U g) :
    Stands (treeGet g) (dataGet D sub' g) (Shows D U gi g sub) := by
  rintro a b ⟨t, q, i, rfl, rfl, hp, hok, hn, hi⟩ f v hv
  obtain ⟨kvs, e⟩ := semNode_dict D sub g t i q
  unfold treeGet at hv
  simp only [e] at hv
  cases hd : dget kvs (.str f) with
  | none => rw [hd] at hv; cases hv
  | some x =>
    rw [hd] at hv
    dsimp only at hv
    obtain ⟨it, hit, rfl, rfl⟩ := semNode_key hp e hd
    unfold dataGet
    dsimp only
    rcases plain_item hp hok hit with ⟨gf, h1, h2, h3, h4⟩ | ⟨gl, t', q', h1, h2, h3, h4, h5, h6⟩
    · rw [h1] at hv ⊢
      cases hv
      rw [semItem_field h1, h2, semName, h1]
      dsimp only
      rw [hag t it.name gf none i hn h1 h3 h4 hi]
      exact ⟨_, rfl, .val _⟩
    · rw [h1] at hv ⊢
      dsimp only at hv ⊢
      rw [h2] at hv ⊢
      dsimp only at hv ⊢
      cases hv
      refine ⟨_, rfl, ?_⟩
      have htar := hl t it.name gl none i hn h1 h4 hi
      rw [← hag.link hr (o := none) hn h1 hi]
      have hshow : ∀ j ∈ targets gl.typeEnum (semLink D sub t i gl none),
          Shows D U gi g sub ⟨t', semNode D sub g t' j q'⟩ ⟨t', j⟩ :=
        fun j hj => ⟨t', q', j, rfl, rfl, h5, h6, .inr ⟨_, h2⟩, (identOk_node h2).2 (htar j hj)⟩
      rw [h3, wrapLink_sem h1 h2]
      unfold linkObjs
      cases ht : gl.typeEnum with
      | many =>
        rw [ht] at hshow
        dsimp only
        refine .list ?_
        generalize targets .many (semLink D sub t i gl none) = l at hshow
        induction l with
        | nil => exact .nil
        | cons x l ih =>
          exact .cons (.obj (hshow x (by simp))) (ih fun j hj => hshow j (by simp [hj]))
      | one =>
        rw [ht] at hshow
        exact .obj (hshow _ (by simp [targets]))
      | maybe =>
        rw [ht] at hshow
        dsimp only
        by_cases hnone : semLink D sub t i gl none = .nothing
        · simp only [hnone, if_true]; exact .val _
        · simp only [hnone, if_false]
          exact .obj (hshow _ (by simp [targets, hnone]))

/-! ### Types -/

variable {base : Ty → Val → Prop} {fns : List (String × Ty)} {F : Fns}

theorem ofType_supplies {O : Type} {get : O → String → Except Err (PV O)} {types : List (String × Ty)} {Q : Type}
    {R : Q → String → Q → Prop} {t : Ty} {v : Val} (h : OfType types base t v) :
    ∀ q : Q, Supplies types (pyDom F get) (exprSem base fns) R t q (PV.val v) := by
  induction h with
  | any v => exact fun q => .any q _
  | scalar t v ht hb =>
    intro q
    refine .scalar t q _ ?_ ?_
    · simp only [List.mem_cons, List.not_mem_nil, or_false] at ht
      rcases ht with rfl | rfl | rfl | rfl <;> rfl
    · simp only [List.mem_cons, List.not_mem_nil, or_false] at ht
      rcases ht with rfl | rfl | rfl | rfl <;> exact hb
  | none t => exact fun q => .none t q _ rfl
  | some t v _ ih => exact fun q => .some t q _ (ih q)
  | sequence t k xs _ ih =>
    intro q
    refine .sequence t q _ (xs.map PV.val) rfl ?_
    intro x hx
    obtain ⟨y, hy, rfl⟩ := List.mem_map.1 hx
    exact ih y hy q
  | mapping k t kvs _ _ ih1 ih2 =>
    intro q
    refine .mapping k t q _ ?_ ?_
    · intro kv hkv
      obtain ⟨y, hy, rfl⟩ := List.mem_map.1 hkv
      exact ih1 y hy q
    · intro kv hkv
      obtain ⟨y, hy, rfl⟩ := List.mem_map.1 hkv
      exact ih2 y hy q
  | record fs kvs w h1 _ ih =>
    intro q
    refine .record fs q _ (fun f => PV.val (w f)) ?_ ?_
    · intro f t q' hf _
      show PV.get get (.val (.dict kvs)) f = _
      simp only [PV.get, h1 f t hf]; rfl
    · exact fun f t q' hf _ => ih f t hf q'
  | named n t v h1 _ ih => exact fun q => .named n t q _ h1 (ih q)

theorem includes_asks {q1 q : QNode} (h : Includes q1 q) {f : String} {q' : QNode} (ha : Asks q f q') :
    (∃ o a, QItem.field f o a ∈ q1.fields) ∨ (∃ q1' o a, QItem.link f q1' o a ∈ q1.fields) ∧
      ∀ q1' o a, QItem.link f q1' o a ∈ q1.fields → Includes q1' q' := by
  rw [includes_iff] at h
  rcases ha with ⟨o, a, h1, rfl⟩ | ⟨o, a, h1⟩
  · have := h _ h1
    simp only [IncludesItem] at this
    exact .inl this
  · have := h _ h1
    simp only [IncludesItem] at this
    exact .inr this

/-- the item of a record -/
theorem record_supplies (hl : LinksOk D U gi g sub) (ht : TypedData D sub U gi g base) {t : GNode} {i : Val} {q1 : QNode}
    (hp : q1.Plain) (hok : NodeOk U g t q1) (hn : IsNode g t) (hi : IdentOk D gi t i) {q : QNode} (hinc : Includes q1 q)
    (hroot : g.node rootName = none)
    (ih : ∀ f o a q', QItem.link f q' o a ∈ q.fields → ∀ nm t' j q1', g.node nm = some t' → q1'.Plain → NodeOk U g t' q1' →
      D.obj gi nm j → Includes q1' q' →
      Supplies g.types (pyDom F (treeGet g)) (exprSem base fns) Asks (.ref nm) q' (PV.obj ⟨t', semNode D sub g t' j q1'⟩))
    {f : String} {ty : Ty} {q' : QNode} (hty : (t.get f).map GItem.ty = some ty) (ha : Asks q f q') :
    ∃ w, treeGet g ⟨t, semNode D sub g t i q1⟩ f = .ok w ∧
      Supplies g.types (pyDom F (treeGet g)) (exprSem base fns) Asks ty q' w := by
  have hH : PyHash := ⟨fun _ => 0, fun _ => 0, fun _ => 0⟩
  have hmem : ∃ it ∈ q1.fields, it.name = f := by
    rcases includes_asks hinc ha with ⟨o, a, h⟩ | ⟨⟨q1', o, a, h⟩, _⟩
    · exact ⟨_, h, rfl⟩
    · exact ⟨_, h, rfl⟩
  obtain ⟨kvs, e, it, hit, rfl, hd⟩ := semNode_get (D := D) (sub := sub) (g := g) (gn := t) (i := i) hH hp hmem
  unfold treeGet
  simp only [e, hd]
  rcases plain_item hp hok hit with ⟨gf, h1, h2, h3, h4⟩ | ⟨gl, t', q1', h1, h2, h3, h4, h5, h6⟩
  · rw [h1] at hty ⊢
    simp only [Option.map_some, Option.some.injEq, GItem.ty] at hty
    subst hty
    refine ⟨_, rfl, ?_⟩
    rw [semItem_field h1, h2, semName, h1]
    exact ofType_supplies (ht t it.name gf i hn h3 h1 h4 hi) q'
  · rw [h1] at hty ⊢
    simp only [Option.map_some, Option.some.injEq, GItem.ty] at hty
    subst hty
    dsimp only
    rw [h2]
    refine ⟨_, rfl, ?_⟩
    have hlink : ∃ o a, QItem.link it.name q' o a ∈ q.fields := by
      rcases ha with ⟨o, a, h, rfl⟩ | h
      · exfalso
        have := includes_iff.1 hinc _ h
        simp only [IncludesItem] at this
        obtain ⟨o', a', h7⟩ := this
        have := (nodeOk_iff.1 hok).1 _ h7
        simp only [ItemOk] at this
        obtain ⟨_, gf, h8, _⟩ := this
        rw [h1] at h8
        cases h8
      · exact h
    obtain ⟨o, a, hlink⟩ := hlink
    have hinc' : Includes q1' q' := by
      have := includes_iff.1 hinc _ hlink
      simp only [IncludesItem] at this
      exact this.2 q1' none none (by rw [← h3]; exact hit)
    have htar := hl t it.name gl none i hn h1 h4 hi
    have hsup : ∀ j ∈ targets gl.typeEnum (semLink D sub t i gl none),
        Supplies g.types (pyDom F (treeGet g)) (exprSem base fns) Asks (.ref gl.node) q'
          (PV.obj ⟨t', semNode D sub g t' j q1'⟩) :=
      fun j hj => ih it.name o a q' hlink gl.node t' j q1' h2 h5 h6 (htar j hj) hinc'
    rw [h3, wrapLink_sem h1 h2]
    unfold GLink.ty
    cases htE : gl.typeEnum with
    | many =>
      rw [htE] at hsup
      refine .sequence _ _ _ _ rfl ?_
      intro x hx
      obtain ⟨j, hj, rfl⟩ := List.mem_map.1 hx
      exact hsup j hj
    | one =>
      rw [htE] at hsup
      exact hsup _ (by simp [targets])
    | maybe =>
      rw [htE] at hsup
      dsimp only
      by_cases hnone : semLink D sub t i gl none = .nothing
      · simp only [hnone, if_true]; exact .none _ _ _ rfl
      · simp only [hnone, if_false]
        exact .some _ _ _ (hsup _ (by simp [targets, hnone]))

/-- the tree of an object supplies what is requested -/
theorem node_supplies (hl : LinksOk D U gi g sub) (ht : TypedData D sub U gi g base) (hroot : g.node rootName = none) :
    ∀ (q : QNode) nm t' j q1', g.node nm = some t' → q1'.Plain → NodeOk U g t' q1' → D.obj gi nm j → Includes q1' q →
      Supplies g.types (pyDom F (treeGet g)) (exprSem base fns) Asks (.ref nm) q (PV.obj ⟨t', semNode D sub g t' j q1'⟩) := by
  refine QNode.ind ?_
  intro fs ord ih nm t' j q1' hnode hp hok hobj hinc
  have hnm : nm ≠ rootName := by rintro rfl; rw [hroot] at hnode; cases hnode
  refine .named nm _ _ _ (types_node hnode hnm) ?_
  have key : ∀ f ty q', dget t'.recordFields f = some ty → Asks (.mk fs ord) f q' →
      ∃ w, treeGet g ⟨t', semNode D sub g t' j q1'⟩ f = .ok w ∧
        Supplies g.types (pyDom F (treeGet g)) (exprSem base fns) Asks ty q' w := by
    intro f ty q' hf ha
    rw [recordFields_get] at hf
    exact record_supplies hl ht hp hok (.inr ⟨_, hnode⟩) ((identOk_node hnode).2 hobj) hinc hroot
      (fun f o a q' hm => ih f q' o a hm) hf ha
  refine .record _ _ _ (fun f => match treeGet g ⟨t', semNode D sub g t' j q1'⟩ f with | .ok w => w | .error _ => .val .none) ?_ ?_
  · intro f ty q' hf ha
    obtain ⟨w, h1, _⟩ := key f ty q' hf ha
    show treeGet g _ f = _
    rw [h1]; rfl
  · intro f ty q' hf ha
    obtain ⟨w, h1, h2⟩ := key f ty q' hf ha
    simp only [h1]
    exact h2

end

end Hiku.SubExpr
