import Verif.Props.Result

/-! # C20, C21, C22: denormalization -/

namespace Hiku

variable {H : PyHash} {idx : Index} {g : Graph}

theorem isNone_iff {c : Val} : (PObj.raw c).isNone = true ↔ c = .none := by
  constructor
  · intro h
    unfold PObj.isNone at h
    split at h
    · rename_i e; cases e; rfl
    · simp at h
  · rintro rfl; rfl

theorem forall2_ex {α β : Type} {R : α → β → Prop} {l : List α} (h : ∀ a ∈ l, ∃ b, R a b) :
    ∃ l', List.Forall₂ R l l' := by
  induction l with
  | nil => exact ⟨[], .nil⟩
  | cons a r ih =>
    obtain ⟨b, hb⟩ := h a (by simp)
    obtain ⟨l', hl⟩ := ih fun x hx => h x (by simp [hx])
    exact ⟨b :: l', .cons hb hl⟩

theorem nodup_str {l : List String} (h : l.Nodup) : (l.map Val.str).Nodup := by
  exact List.pairwise_map.2 (h.imp fun hne e => hne (by cases e; rfl))

theorem forall2_and {α β : Type} {R S : α → β → Prop} {l : List α} {l' : List β}
    (h : List.Forall₂ (fun a b => R a b ∧ S a b) l l') : List.Forall₂ R l l' ∧ List.Forall₂ S l l' := by
  induction h with
  | nil => exact ⟨.nil, .nil⟩
  | cons h1 _ ih => exact ⟨.cons h1.1 ih.1, .cons h1.2 ih.2⟩

theorem zip_keys {α : Type} {l : List α} {k : α → Val} {vs : List Val} (hl : l.length = vs.length) :
    ((l.map k).zip vs).map (·.1) = l.map k := by
  rw [List.map_fst_zip]; simp [hl]

mutual
theorem denormTy_ok : (t : Ty) → ∀ (f : QItem) (c : Val), Fits t f c →
    ∃ v, denormTy H idx t (.raw c) f = .ok v ∧ TyShape t f c v
  | t, .field n o a, c, _ => by
    refine ⟨c, ?_, ?_⟩
    · cases t <;> simp [denormTy, PObj.toVal]
    · cases t <;> simp [TyShape]
  | .sequence t, .link n q o a, c, h => by
    rw [Fits] at h
    obtain ⟨k, cs, rfl, h⟩ := h
    obtain ⟨vs, hvs⟩ := forall2_ex fun x hx => denormTy_ok t (.link n q o a) x (h x hx)
    obtain ⟨h1, h2⟩ := forall2_and hvs
    refine ⟨.list vs, ?_, ?_⟩
    · rw [denormTy]
      simp only [piter, ok_bind']
      rw [bind_ok_iff]
      refine ⟨vs, ?_, rfl⟩
      rw [mapM_ok_iff, List.forall₂_map_left_iff]
      exact h1
    · rw [TyShape]
      exact ⟨k, cs, vs, rfl, rfl, h2⟩
  | .optional t, .link n q o a, c, h => by
    rw [Fits] at h
    by_cases hc : c = .none
    · subst hc
      exact ⟨.none, by rw [denormTy]; rfl, by rw [TyShape]; exact .inl ⟨rfl, rfl⟩⟩
    · rcases h with h | h
      · exact absurd h hc
      · obtain ⟨v, h1, h2⟩ := denormTy_ok t (.link n q o a) c h
        refine ⟨v, ?_, by rw [TyShape]; exact .inr ⟨hc, h2⟩⟩
        rw [denormTy, if_neg (by rw [isNone_iff]; exact hc)]
        exact h1
  | .record ts, .link n q o a, c, h => by
    rw [Fits] at h
    obtain ⟨k, ckvs, rfl, hnd, h⟩ := h
    have h' : ∀ f ∈ q.fields, ∃ v, denormTyField H idx ts (.raw (.map k ckvs)) f = .ok v ∧
        ∃ c', dget ckvs (.str f.name) = some c' ∧ TyFieldShape ts f c' v := by
      intro f hf
      obtain ⟨c', h1, h2⟩ := h f hf
      obtain ⟨v, h3, h4⟩ := denormTyField_ok ts f k ckvs c' h1 h2
      exact ⟨v, h3, c', h1, h4⟩
    obtain ⟨vs, hvs⟩ := forall2_ex h'
    obtain ⟨h1, h2⟩ := forall2_and hvs
    refine ⟨.dict ((q.fields.map fun f => Val.str f.name).zip vs), ?_, ?_⟩
    · rw [denormTy, bind_ok_iff]
      refine ⟨(q.fields.map fun f => Val.str f.name).zip vs, ?_, ?_⟩
      · rw [mapM_ok_iff]
        clear h2 hvs h h' hnd
        generalize q.fields = l at h1 ⊢
        induction h1 with
        | nil => exact .nil
        | cons ha _ ih => exact .cons (by simp [ha]) ih
      · rw [dmk_eq_self]
        rw [zip_keys (k := fun f : QItem => Val.str f.name) h1.length_eq]
        have : (q.fields.map fun f => Val.str f.name) = (q.fields.map QItem.name).map Val.str := by simp
        rw [this]
        exact nodup_str hnd
    · rw [TyShape]
      exact ⟨k, ckvs, vs, rfl, rfl, h2⟩
  | .any, .link .., _, h | .boolean, .link .., _, h | .string, .link .., _, h | .integer, .link .., _, h
  | .float, .link .., _, h | .mapping .., .link .., _, h | .callable .., .link .., _, h
  | .ref .., .link .., _, h => by simp [Fits] at h
theorem denormTyField_ok : (ts : List (String × Ty)) → ∀ (f : QItem) (k : DictKind) (ckvs : List (Val × Val))
    (c : Val), dget ckvs (.str f.name) = some c → FitsField ts f c →
    ∃ v, denormTyField H idx ts (.raw (.map k ckvs)) f = .ok v ∧ TyFieldShape ts f c v
  | [], _, _, _, _, _, h => by simp [FitsField] at h
  | (n, t) :: r, f, k, ckvs, c, hc, h => by
    rw [FitsField] at h
    simp only [denormTyField, TyFieldShape]
    rcases h with ⟨hn, h⟩ | ⟨hn, h⟩
    · obtain ⟨v, h1, h2⟩ := denormTy_ok t f c h
      refine ⟨v, ?_, .inl ⟨hn, h2⟩⟩
      rw [if_pos hn]
      simp only [pget, hc, ok_bind']
      exact h1
    · obtain ⟨v, h1, h2⟩ := denormTyField_ok r f k ckvs c hc h
      exact ⟨v, by rw [if_neg hn]; exact h1, .inr ⟨hn, h2⟩⟩
end

theorem resultMap_get {q : QNode} (hu : q.keys.Nodup) {i : QItem} (hi : i ∈ q.fields) :
    dget q.resultMap i.resultKey = some i := by
  have hn : ((q.fields.map fun f => (f.resultKey, f)).map (·.1)).Nodup := by
    simpa [QNode.keys, Function.comp_def] using hu
  rw [QNode.resultMap, dget_dmk_nodup _ hn]
  exact dget_of_mem_nodup hn (List.mem_map.2 ⟨i, hi, rfl⟩)

theorem pget_item {q : QNode} (hu : q.keys.Nodup) {i : QItem} (hi : i ∈ q.fields) {n : String} {ident c : Val}
    (hc : dget idx (n, ident, i.indexKey H) = some c) :
    pget H idx (.proxy (.ref n ident) q) i.resultKey = .ok (wrapCell i c) := by
  simp [pget, proxyGet, resultMap_get hu hi, hc]

theorem uniqueKeys_item {fs : List QItem} (h : UniqueKeysItems fs) {n : String} {q : QNode} {o : Opts}
    {a : Option String} (hm : .link n q o a ∈ fs) : UniqueKeys q := by
  induction fs with
  | nil => simp at hm
  | cons x r ih =>
    have hm0 := List.mem_cons.1 hm
    cases x with
    | field n o a =>
      rw [UniqueKeysItems] at h
      rcases hm0 with hm0 | hm0
      · cases hm0
      · exact ih h hm0
    | link n q o a =>
      rw [UniqueKeysItems] at h
      rcases hm0 with hm0 | hm0
      · cases hm0; exact h.1
      · exact ih h.2 hm0

/-- the stored references of a sequence link as proxies -/
theorem piter_wrap {m nm : String} {q : QNode} {o : Opts} {a : Option String} {ids : List Val} :
    ∃ l, piter (wrapCell (.link m q o a) (.list (ids.map (.ref nm)))) = .ok l ∧
      l = ids.map fun i => .proxy (.ref nm i) q := by
  cases ids with
  | nil => exact ⟨[], rfl, rfl⟩
  | cons i r => exact ⟨_, rfl, by simp⟩

theorem denormNode_ok (q : QNode) : ∀ gn name ident, UniqueKeys q → Stored H idx g gn name ident q →
    ∃ v, denormNode H idx g gn (.proxy (.ref name ident) q) q = .ok v ∧ NodeShape H idx g gn name ident q v := by
  induction q using QNode.ind with
  | h fs ord ih =>
    intro gn name ident hu hs
    rw [UniqueKeys] at hu
    rw [Stored] at hs
    have hk : (QNode.mk fs ord).keys.Nodup := hu.1
    have key : ∀ l, (∀ i ∈ l, i ∈ fs) → StoredItems H idx g gn name ident l →
        ∃ vs, denormItems H idx g gn (.proxy (.ref name ident) (.mk fs ord)) l =
            .ok ((l.map fun f => Val.str f.resultKey).zip vs) ∧ l.length = vs.length ∧
          ItemsShape H idx g gn name ident l vs := by
      intro l
      induction l with
      | nil => intro _ _; exact ⟨[], by simp [denormItems], rfl, by simp [ItemsShape]⟩
      | cons i r ihr =>
        intro hm hst
        rw [StoredItems] at hst
        obtain ⟨hi, hr⟩ := hst
        obtain ⟨vs, h1, h2, h3⟩ := ihr (fun x hx => hm x (by simp [hx])) hr
        have hmi : i ∈ (QNode.mk fs ord).fields := hm i (by simp)
        have hone : ∃ gi v x, gn.get i.name = some gi ∧
            pget H idx (.proxy (.ref name ident) (.mk fs ord)) i.resultKey = .ok x ∧
            denormItem H idx g gi x i = .ok v ∧ ItemShape H idx g gn name ident i v := by
          cases i with
          | field n o a =>
            rw [StoredItem] at hi
            obtain ⟨hg, c, hc⟩ := hi
            obtain ⟨gi, hg⟩ := Option.isSome_iff_exists.1 hg
            refine ⟨gi, c, .raw c, hg, pget_item hk hmi hc, ?_, ?_⟩
            · rw [denormItem]; rfl
            · rw [ItemShape]; exact hc
          | link n q o a =>
            rw [StoredItem] at hi
            obtain ⟨c, hc, hi⟩ := hi
            have hp := pget_item hk hmi hc
            have huq := uniqueKeys_item hu.2 hmi
            have ihq := fun t nm i hsn => ih n q o a hmi t nm i huq hsn
            rcases hi with ⟨gl, t, hg, ht, hi⟩ | ⟨gf, ty, t, hg, hty, ht, hw, hfit⟩
            · cases hte : gl.typeEnum with
              | one =>
                rw [hte] at hi
                obtain ⟨i', rfl, hi⟩ := hi
                obtain ⟨v, e1, e2⟩ := ihq t gl.node i' hi
                refine ⟨.link gl, v, _, hg, hp, ?_, ?_⟩
                · simp only [denormItem, ht, hte, wrapCell]; exact e1
                · rw [ItemShape]
                  refine ⟨_, hc, .inl ⟨gl, t, hg, ht, ?_⟩⟩
                  rw [hte]
                  exact ⟨i', rfl, e2⟩
              | maybe =>
                rw [hte] at hi
                rcases hi with rfl | ⟨i', rfl, hi⟩
                · refine ⟨.link gl, .none, _, hg, hp, ?_, ?_⟩
                  · simp only [denormItem, ht, hte, wrapCell]; rfl
                  · rw [ItemShape]
                    refine ⟨_, hc, .inl ⟨gl, t, hg, ht, ?_⟩⟩
                    rw [hte]
                    exact .inl ⟨rfl, rfl⟩
                · obtain ⟨v, e1, e2⟩ := ihq t gl.node i' hi
                  refine ⟨.link gl, v, _, hg, hp, ?_, ?_⟩
                  · simp only [denormItem, ht, hte, wrapCell, PObj.isNone]; exact e1
                  · rw [ItemShape]
                    refine ⟨_, hc, .inl ⟨gl, t, hg, ht, ?_⟩⟩
                    rw [hte]
                    exact .inr ⟨i', rfl, e2⟩
              | many =>
                rw [hte] at hi
                obtain ⟨ids, rfl, hi⟩ := hi
                obtain ⟨vs', hvs⟩ := forall2_ex fun i' hi' => ihq t gl.node i' (hi i' hi')
                obtain ⟨e1, e2⟩ := forall2_and hvs
                obtain ⟨l, hl, rfl⟩ := piter_wrap (m := n) (nm := gl.node) (q := q) (o := o) (a := a) (ids := ids)
                refine ⟨.link gl, .list vs', _, hg, hp, ?_, ?_⟩
                · simp only [denormItem, ht, hte, hl, ok_bind']
                  rw [bind_ok_iff]
                  refine ⟨vs', ?_, rfl⟩
                  rw [mapM_ok_iff, List.forall₂_map_left_iff]
                  exact e1
                · rw [ItemShape]
                  refine ⟨_, hc, .inl ⟨gl, t, hg, ht, ?_⟩⟩
                  rw [hte]
                  exact ⟨ids, vs', rfl, rfl, e2⟩
            · rw [hw] at hp
              obtain ⟨v, e1, e2⟩ := denormTy_ok (H := H) (idx := idx) t _ _ hfit
              refine ⟨.field gf, v, _, hg, hp, ?_, ?_⟩
              · simp only [denormItem, hty, ht]; exact e1
              · rw [ItemShape]
                exact ⟨c, hc, .inr ⟨gf, ty, t, hg, hty, ht, e2⟩⟩
        obtain ⟨gi, v, x, e1, e2, e3, e4⟩ := hone
        refine ⟨v :: vs, ?_, by simp [h2], ?_⟩
        · simp only [denormItems, e1, e2, e3, h1, ok_bind']
          simp
        · rw [ItemsShape]
          exact ⟨v, vs, rfl, e4, h3⟩
    obtain ⟨vs, h1, h2, h3⟩ := key fs (fun _ h => h) hs
    refine ⟨.dict ((fs.map fun f => Val.str f.resultKey).zip vs), ?_, ?_⟩
    · rw [denormNode, h1]
      simp only [ok_bind']
      rw [dmk_eq_self]
      rw [zip_keys (k := fun f : QItem => Val.str f.resultKey) h2]
      have : (fs.map fun f => Val.str f.resultKey) = (fs.map QItem.resultKey).map Val.str := by simp
      rw [this]
      exact nodup_str hu.1
    · rw [NodeShape]
      exact ⟨vs, rfl, h3⟩

/-- C20: denormalizing a result in which everything requested is stored succeeds and gives dictionaries
with exactly the result keys of the query, in order, with lists for sequence links and None for missing
optional links, at every depth. -/
theorem c20_shape {q : QNode} (hu : UniqueKeys q) (hs : Stored H idx g g.root rootName rootIdent q) :
    ∃ v, denormalize H idx g q = .ok v ∧ NodeShape H idx g g.root rootName rootIdent q v :=
  denormNode_ok q g.root rootName rootIdent hu hs


/-! ### Finished executions -/

theorem linksOnly_item {gn : GNode} {fs : List QItem} (h : LinksOnlyItems g gn fs) {n : String} {q : QNode}
    {o : Opts} {a : Option String} (hm : .link n q o a ∈ fs) :
    ∃ gl t, gn.get n = some (.link gl) ∧ g.node gl.node = some t ∧ LinksOnly g t q := by
  induction fs with
  | nil => simp at hm
  | cons x r ih =>
    have hm0 := List.mem_cons.1 hm
    cases x with
    | field n o a =>
      rw [LinksOnlyItems] at h
      rcases hm0 with hm0 | hm0
      · cases hm0
      · exact ih h.2 hm0
    | link n q o a =>
      rw [LinksOnlyItems] at h
      rcases hm0 with hm0 | hm0
      · cases hm0; exact h.1
      · exact ih h.2 hm0

/-- the denormalized value is what can be read key by key -/
theorem read_of_shape (q : QNode) : ∀ gn name ident v, LinksOnly g gn q → UniqueKeys q →
    NodeShape H idx g gn name ident q v → readNode H idx name ident q = .ok v := by
  induction q using QNode.ind with
  | h fs ord ih =>
    intro gn name ident v hl hu hs
    rw [LinksOnly] at hl
    rw [UniqueKeys] at hu
    rw [NodeShape] at hs
    obtain ⟨vs, rfl, hs⟩ := hs
    have key : ∀ l vs, (∀ i ∈ l, i ∈ fs) → ItemsShape H idx g gn name ident l vs →
        readItems H idx name ident l = .ok ((l.map fun f => Val.str f.resultKey).zip vs) ∧
        l.length = vs.length := by
      intro l
      induction l with
      | nil => intro vs _ h; rw [ItemsShape] at h; subst h; exact ⟨by simp [readItems], rfl⟩
      | cons i r ihr =>
        intro vs hm h
        rw [ItemsShape] at h
        obtain ⟨v, vs', rfl, h1, h2⟩ := h
        obtain ⟨h3, h4⟩ := ihr vs' (fun x hx => hm x (by simp [hx])) h2
        have hone : readItem H idx name ident i = .ok v := by
          cases i with
          | field n o a => rw [ItemShape] at h1; simp [readItem, h1]
          | link n q o a =>
            rw [ItemShape] at h1
            obtain ⟨c, hc, h1⟩ := h1
            have hmi := hm _ (List.mem_cons_self)
            have huq := uniqueKeys_item hu.2 hmi
            obtain ⟨gl, t, e1, e2, e3⟩ := linksOnly_item hl hmi
            rcases h1 with ⟨gl', t', g1, g2, h1⟩ | ⟨gf, _, _, g1, _⟩
            · rw [e1] at g1; cases g1
              rw [e2] at g2; cases g2
              have ihq := fun i v => ih n q o a hmi t gl.node i v e3 huq
              rw [readItem, hc]
              cases hte : gl.typeEnum with
              | one =>
                rw [hte] at h1
                obtain ⟨i', rfl, h1⟩ := h1
                exact ihq i' v h1
              | maybe =>
                rw [hte] at h1
                rcases h1 with ⟨rfl, rfl⟩ | ⟨i', rfl, h1⟩
                · rfl
                · exact ihq i' v h1
              | many =>
                rw [hte] at h1
                obtain ⟨ids, vs, rfl, rfl, h1⟩ := h1
                cases h1 with
                | nil => rfl
                | @cons i0 v0 ids' vs0 ha hr =>
                  simp only [List.map_cons]
                  rw [bind_ok_iff]
                  refine ⟨v0 :: vs0, ?_, rfl⟩
                  rw [mapM_ok_iff]
                  refine .cons (ihq i0 v0 ha) ?_
                  rw [List.forall₂_map_left_iff]
                  exact hr.imp fun i v h => ihq i v h
            · rw [e1] at g1; cases g1
        rw [readItems, hone]
        simp only [ok_bind', h3]
        exact ⟨by simp, by simp [h4]⟩
    obtain ⟨h1, h2⟩ := key fs vs (fun _ h => h) hs
    rw [readNode, h1]
    simp only [ok_bind']
    rw [dmk_eq_self]
    rw [zip_keys (k := fun f : QItem => Val.str f.resultKey) h2]
    have : (fs.map fun f => Val.str f.resultKey) = (fs.map QItem.resultKey).map Val.str := by simp
    rw [this]
    exact nodup_str hu.1

section
variable {env : Env} {D : Data} {U : String → Opts → Prop} {st : St} {w : Nat} {wf : Wf}

mutual
/-- the values of complex fields with selections fit their declared types -/
def SelectionsFit (sys : Sys) (D : Data) (gi : Nat) (g : Graph) (gn : GNode) : QNode → Prop
  | .mk fs _ => SelectionsFitItems sys D gi g gn fs
def SelectionsFitItems (sys : Sys) (D : Data) (gi : Nat) (g : Graph) (gn : GNode) : List QItem → Prop
  | [] => True
  | .field .. :: r => SelectionsFitItems sys D gi g gn r
  | .link n q o a :: r => (match gn.get n with
      | some (.link gl) => ∀ t, g.node gl.node = some t → SelectionsFit sys D gi g t q
      | some (.field gf) => ∃ ty t, gf.ty = some ty ∧ getType g.dataTypes ty = some t ∧
          ∀ i, IdentOk D gi gn i → Fits t (.link n q o a) (semField D (semSub sys D gi) gn gf o i)
      | none => True) ∧ SelectionsFitItems sys D gi g gn r
end

theorem selectionsFit_item {gi : Nat} {gn : GNode} {fs : List QItem} (h : SelectionsFitItems env.sys D gi g gn fs)
    {n : String} {q : QNode} {o : Opts} {a : Option String} (hm : .link n q o a ∈ fs) :
    match gn.get n with
      | some (.link gl) => ∀ t, g.node gl.node = some t → SelectionsFit env.sys D gi g t q
      | some (.field gf) => ∃ ty t, gf.ty = some ty ∧ getType g.dataTypes ty = some t ∧
          ∀ i, IdentOk D gi gn i → Fits t (.link n q o a) (semField D (semSub env.sys D gi) gn gf o i)
      | none => True := by
  induction fs with
  | nil => simp at hm
  | cons x r ih =>
    have hm0 := List.mem_cons.1 hm
    cases x with
    | field n o a =>
      rw [SelectionsFitItems] at h
      rcases hm0 with hm0 | hm0
      · cases hm0
      · exact ih h hm0
    | link n q o a =>
      rw [SelectionsFitItems] at h
      rcases hm0 with hm0 | hm0
      · cases hm0; exact h.1
      · exact ih h.2 hm0

theorem storedItems_of {gn : GNode} {name : String} {ident : Val} {l : List QItem}
    (h : ∀ i ∈ l, StoredItem H idx g gn name ident i) : StoredItems H idx g gn name ident l := by
  induction l with
  | nil => simp [StoredItems]
  | cons x r ih =>
    rw [StoredItems]
    exact ⟨h x (by simp), ih fun i hi => h i (by simp [hi])⟩

theorem wrapCell_raw {f : QItem} {c : Val} (h : c.refLike = false) : wrapCell f c = .raw c := by
  unfold wrapCell
  split
  · simp [Val.refLike] at h
  · simp [Val.refLike] at h
  · rfl

/-- everything requested is stored when all the work is done -/
theorem stored_ok (C : Setup env D U) (hs : Sound env D U st) (hw : st.wfs[w]? = some wf)
    (hg : env.sys.graphs[wf.graph]? = some g) (q : QNode) :
    ∀ gn i, IsNode g gn → IdentOk D wf.graph gn i → NodeOk U g gn q → SelectionsFit env.sys D wf.graph g gn q →
      (∀ it ∈ q.fields, Cov env D st (fun _ => False) w wf.graph g gn i it) →
      Stored env.H wf.index g gn gn.indexName i q := by
  induction q using QNode.ind with
  | h fs ord ih =>
    intro gn i hn hi hq hsel hcov
    obtain ⟨hitems, _⟩ := nodeOk_iff.1 hq
    simp only [QNode.fields] at hitems hcov
    rw [SelectionsFit] at hsel
    rw [Stored]
    apply storedItems_of
    intro it hit
    have hc := hcov it hit
    have hpres : Present env.H st w gn i it.name it.options := by
      cases hc with
      | pend cb h _ => exact absurd h id
      | val gf h _ => exact h
      | link gl t h _ _ _ => exact h
    obtain ⟨wf', hw', hp⟩ := hpres
    rw [hw] at hw'; cases hw'
    obtain ⟨v, hv⟩ := Option.isSome_iff_exists.1 hp
    rcases (hitems it hit).cases with hfi | ⟨gl, hli⟩
    · obtain ⟨hu, gf, hget, _⟩ := hfi
      have hval := hs w wf g hw hg gn hn i it.name it.options _ hu hget v hv
      rw [cellSem_field hget] at hval
      cases it with
      | field n o a =>
        rw [StoredItem]
        simp only [QItem.name, QItem.options] at hget hv
        exact ⟨by rw [hget]; rfl, v, hv⟩
      | link n q o a =>
        rw [StoredItem]
        simp only [QItem.name, QItem.options] at hget hv hval
        have hsi := selectionsFit_item hsel hit
        simp only [hget] at hsi
        obtain ⟨ty, t, e1, e2, e3⟩ := hsi
        refine ⟨v, hv, .inr ⟨gf, ty, t, hget, e1, e2, ?_, ?_⟩⟩
        · exact wrapCell_raw (by rw [hval]; exact semField_refLike C.conf _ _ _ _ _)
        · rw [hval]; exact e3 i hi
    · obtain ⟨n, q, o, a, t, rfl, hu, hget, ht, hnq⟩ := hli
      simp only [QItem.name, QItem.options] at hv
      have hval := hs w wf g hw hg gn hn i n o _ hu hget v hv
      rw [cellSem_link hget] at hval
      obtain ⟨hshape, hone, htgt⟩ := C.conf.linkValue wf.graph g gn n gl o i _ hg hn hget hu hi rfl
      have htn := Graph.node_name ht
      have hti : t.indexName = gl.node := by simp [GNode.indexName, htn]
      have hsi := selectionsFit_item hsel hit
      simp only [hget] at hsi
      have hrec : ∀ i' ∈ targets gl.typeEnum (semLink D (semSub env.sys D wf.graph) gn i gl o),
          Stored env.H wf.index g t gl.node i' q := by
        intro i' hi'
        have := ih n q o a hit t i' (isNode_of_node ht) (by simp only [IdentOk, htn]; exact htgt i' hi') hnq
          (hsi t ht) (by
          intro it' hit'
          cases hc with
          | pend cb h _ => exact absurd h id
          | val gf _ h =>
            have h : gn.get n = _ := h
            rw [hget] at h; cases h
          | link gl' t' _ h1 h2 h3 =>
            rw [hget] at h1; cases h1
            rw [ht] at h2; cases h2
            exact h3 i' hi' it' hit')
        rw [hti] at this
        exact this
      rw [StoredItem]
      refine ⟨v, hv, .inl ⟨gl, t, hget, ht, ?_⟩⟩
      generalize hlv : semLink D (semSub env.sys D wf.graph) gn i gl o = lv at *
      rw [hval]
      unfold linkCell
      cases hte : gl.typeEnum with
      | maybe =>
        rw [hte] at hrec
        simp only
        by_cases hno : lv = .nothing
        · rw [if_pos hno]; exact .inl rfl
        · rw [if_neg hno]
          exact .inr ⟨lv, rfl, hrec lv (by simp [targets, hno])⟩
      | one =>
        rw [hte] at hrec
        exact ⟨lv, rfl, hrec lv (by simp [targets])⟩
      | many =>
        rw [hte] at hrec
        exact ⟨targets .many lv, rfl, hrec⟩

/-- the final state of a run, with the stored objects -/
theorem finish_stored (C : Setup env D U) {choose : Nat → List Nat → List Nat} (hch : ValidChoice choose)
    {gi : Nat} {g : Graph} {q q' : QNode} (hg : env.sys.graphs[gi]? = some g)
    (hi : initOptions g q = .ok q') (hq : NodeOk U g g.root q') (hsel : SelectionsFit env.sys D gi g g.root q')
    {fuel inner : Nat}
    (hf : costQuery env.sys 1 0 gi q < fuel) (hin : 1 + costQuery env.sys 0 1 gi q < inner) :
    ∃ idx, execute env choose inner fuel gi q = .ok (idx, q') ∧
      Stored env.H idx g g.root rootName rootIdent q' := by
  have hsd := C.good.subsDecrease
  obtain ⟨st, hst, hs⟩ := start_sinv C hg hi hq
  obtain ⟨n, r, h1, h2, h3⟩ := c07_terminates hsd hch hst
  obtain ⟨st', rfl, hs'⟩ := hs.loops C hsd hch h1 (start_einv hsd hst).1
  obtain ⟨_, hcb, _⟩ := c18_queue_empty hsd hch hst h1
  obtain ⟨wf, g', e1, e2, e3, e4, e5⟩ := hs'.top
  rw [hg] at e4; cases e4
  refine ⟨wf.index, ?_, ?_⟩
  · simp only [execute, hst, h3 fuel inner hf hin, ok_bind', e1, e3]
  · subst e2
    exact stored_ok C hs'.ok.sound e1 hg q' g.root rootIdent (.inl rfl) (by simp [IdentOk, Graph.root]) hq hsel (by
      intro it hit
      refine (e5 it hit).mono (.refl _) ?_
      rintro cb (h | ⟨o, h⟩)
      · simp at h
      · rw [hcb] at h; simp at h)

/-- C20 for executions: the result of every execution of a valid query can be denormalized and has the
shape of the query. -/
theorem c20_denormalize (hgood : GoodSys U env.sys) (hH : Faithful env.H D U) (hconf : Conforms env D U)
    {choose : Nat → List Nat → List Nat} (hch : ValidChoice choose)
    {gi : Nat} {g : Graph} {q q' : QNode} (hg : env.sys.graphs[gi]? = some g)
    (hi : initOptions g q = .ok q') (hq : NodeOk U g g.root q') (hu : UniqueKeys q')
    (hsel : SelectionsFit env.sys D gi g g.root q') {fuel inner : Nat}
    (hf : costQuery env.sys 1 0 gi q < fuel) (hin : 1 + costQuery env.sys 0 1 gi q < inner)
    {idx : Index} {qr : QNode} (he : execute env choose inner fuel gi q = .ok (idx, qr)) :
    ∃ v, denormalize env.H idx g qr = .ok v ∧ NodeShape env.H idx g g.root rootName rootIdent q' v := by
  obtain ⟨idx', h1, h2⟩ := finish_stored ⟨hgood, hH, hconf⟩ hch hg hi hq hsel hf hin
  rw [h1] at he
  cases he
  exact c20_shape hu h2

theorem selectionsFit_of_linksOnly {sys : Sys} {gi : Nat} (q : QNode) : ∀ gn, LinksOnly g gn q →
    SelectionsFit sys D gi g gn q := by
  induction q using QNode.ind with
  | h fs ord ih =>
    intro gn h
    rw [LinksOnly] at h
    rw [SelectionsFit]
    induction fs with
    | nil => simp [SelectionsFitItems]
    | cons x r ihr =>
      have ihr := ihr fun n q o a hm => ih n q o a (by simp [hm])
      cases x with
      | field n o a =>
        rw [LinksOnlyItems] at h
        rw [SelectionsFitItems]
        exact ihr h.2
      | link n q o a =>
        rw [LinksOnlyItems] at h
        rw [SelectionsFitItems]
        obtain ⟨⟨gl, t, e1, e2, e3⟩, h⟩ := h
        refine ⟨?_, ihr h⟩
        simp only [e1]
        intro t' ht'
        rw [e2] at ht'; cases ht'
        exact ih n q o a (by simp) t e3

/-- C20/C06: for queries which select on links only, the denormalized result of every execution is the
value of the reference semantics. -/
theorem c20_value (hgood : GoodSys U env.sys) (hH : Faithful env.H D U) (hconf : Conforms env D U)
    {choose : Nat → List Nat → List Nat} (hch : ValidChoice choose)
    {gi : Nat} {g : Graph} {q q' : QNode} (hg : env.sys.graphs[gi]? = some g)
    (hi : initOptions g q = .ok q') (hq : NodeOk U g g.root q') (hu : UniqueKeys q')
    (hl : LinksOnly g g.root q') {fuel inner : Nat}
    (hf : costQuery env.sys 1 0 gi q < fuel) (hin : 1 + costQuery env.sys 0 1 gi q < inner)
    {idx : Index} {qr : QNode} (he : execute env choose inner fuel gi q = .ok (idx, qr)) :
    denormalize env.H idx g qr = .ok (semQuery env.sys D gi q') := by
  obtain ⟨v, h1, h2⟩ := c20_denormalize hgood hH hconf hch hg hi hq hu (selectionsFit_of_linksOnly q' _ hl)
    hf hin he
  have h3 := read_of_shape q' g.root rootName rootIdent v hl hu h2
  obtain ⟨idx', h4, h5⟩ := c06_result hgood hH hconf hch hg hi hq hf hin
  rw [h4] at he
  cases he
  rw [h3] at h5
  cases h5
  exact h1

end

end Hiku

namespace Hiku

theorem exQuery_unique : UniqueKeys exQuery := by
  simp [exQuery, UniqueKeys, UniqueKeysItems, QItem.resultKey, QItem.alias_, QItem.name]

theorem exQuery_linksOnly : LinksOnly exHigh exHigh.root exQuery := by
  rw [exQuery, LinksOnly, LinksOnlyItems, LinksOnlyItems]
  refine ⟨⟨exTracks, exHighTrack, rfl, rfl, ?_⟩, trivial⟩
  rw [LinksOnly, LinksOnlyItems, LinksOnlyItems, LinksOnlyItems]
  refine ⟨rfl, ⟨exAlbumLink, exAlbum, rfl, rfl, ?_⟩, trivial⟩
  rw [LinksOnly, LinksOnlyItems, LinksOnlyItems]
  exact ⟨rfl, trivial⟩

/-- the hypotheses of C20 hold for the example -/
example {idx : Index} {qr : QNode} (h : execute exEnv (fun _ l => l.take 1) 3 6 1 exQuery = .ok (idx, qr)) :
    denormalize exEnv.H idx exHigh qr = .ok (semQuery exEnv.sys exData 1 exQuery) :=
  c20_value exGood exFaithful exConforms validChoice_first (g := exHigh) rfl rfl exQuery_ok exQuery_unique
    exQuery_linksOnly (by rw [exCost]; omega) (by rw [exForks]; omega) h

end Hiku
