import Verif.Spec.Denormalize
import Verif.Props.Semantics

/-! # C19: a result gives access to exactly what was requested -/

namespace Hiku

theorem mem_dmk {α β : Type} [DecidableEq α] {l : List (α × β)} {k : α} {v : β} (h : dget (dmk l) k = some v) :
    (k, v) ∈ l := by
  rw [dget_dmk] at h
  exact List.mem_reverse.1 (dget_mem h)

theorem dmk_isSome {α β : Type} [DecidableEq α] {l : List (α × β)} {k : α} :
    (dget (dmk l) k).isSome = true ↔ k ∈ l.map (·.1) := by
  rw [dget_dmk, dget_isSome_iff]
  simp

theorem resultMap_mem {q : QNode} {key : String} {f : QItem} (h : dget q.resultMap key = some f) :
    f ∈ q.fields ∧ f.resultKey = key := by
  have := mem_dmk h
  obtain ⟨a, h1, h2⟩ := List.mem_map.1 this
  cases h2
  exact ⟨h1, rfl⟩

theorem resultMap_none {q : QNode} {key : String} :
    dget q.resultMap key = none ↔ key ∉ q.keys := by
  rw [← Option.not_isSome_iff_eq_none, QNode.resultMap, dmk_isSome]
  simp [QNode.keys]

/-- C19: reading a key which is not a result key of the query at this position raises KeyError, even
if the data is stored in the index, and KeyError means just that. -/
theorem c19_denied {H : PyHash} {idx : Index} {n : String} {i : Val} {q : QNode} {key : String} :
    proxyGet H idx (.ref n i) q key = .error .keyError ↔ key ∉ q.keys := by
  rw [← resultMap_none]
  unfold proxyGet
  cases dget q.resultMap key with
  | none => simp
  | some f =>
    simp only
    cases dget idx (n, i, f.indexKey H) <;> simp

/-- a key which was requested, but was not loaded, is an AssertionError -/
theorem c19_missing {H : PyHash} {idx : Index} {n : String} {i : Val} {q : QNode} {key : String} :
    proxyGet H idx (.ref n i) q key = .error .assertionError ↔
      key ∈ q.keys ∧ ∀ x, proxyGet H idx (.ref n i) q key ≠ .ok x := by
  have h := c19_denied (H := H) (idx := idx) (n := n) (i := i) (q := q) (key := key)
  unfold proxyGet at h ⊢
  cases hd : dget q.resultMap key with
  | none => simp only [hd] at h ⊢; simp at h; simp [h]
  | some f =>
    simp only [hd] at h ⊢
    cases hi : dget idx (n, i, f.indexKey H) with
    | none => simp [hi] at h; simp [h]
    | some v => simp

/-- the engine reads `this` (`Model/Engine`, `subCall`) as `Proxy.__getitem__` does -/
theorem proxyGet_cell {H : PyHash} {idx : Index} {n : String} {i : Val} {q : QNode} {key : String} :
    proxyGet H idx (.ref n i) q key = (proxyCell H idx n i q key).map fun c => wrapCell c.1 c.2 := by
  unfold proxyGet proxyCell
  cases dget q.resultMap key with
  | none => rfl
  | some f =>
    simp only
    cases dget idx (n, i, f.indexKey H) <;> rfl

theorem readItems_mem {H : PyHash} {idx : Index} {n : String} {i : Val} {l : List QItem} {kvs : List (Val × Val)}
    (h : readItems H idx n i l = .ok kvs) : ∀ f ∈ l, ∃ v, readItem H idx n i f = .ok v := by
  induction l generalizing kvs with
  | nil => simp
  | cons x r ih =>
    rw [readItems, bind_ok_iff] at h
    obtain ⟨v, h1, h2⟩ := h
    rw [bind_ok_iff] at h2
    obtain ⟨kvs', h2, _⟩ := h2
    intro f hf
    rcases List.mem_cons.1 hf with rfl | hf
    · exact ⟨v, h1⟩
    · exact ih h2 f hf

theorem readNode_item {H : PyHash} {idx : Index} {n : String} {i : Val} {q : QNode} {v : Val}
    (h : readNode H idx n i q = .ok v) {f : QItem} (hf : f ∈ q.fields) : ∃ v, readItem H idx n i f = .ok v := by
  obtain ⟨fs, ord⟩ := q
  rw [readNode, bind_ok_iff] at h
  obtain ⟨kvs, h1, _⟩ := h
  exact readItems_mem h1 f hf

theorem readItem_cell {H : PyHash} {idx : Index} {n : String} {i : Val} {f : QItem} {v : Val}
    (h : readItem H idx n i f = .ok v) : ∃ c, dget idx (n, i, f.indexKey H) = some c := by
  cases f with
  | field m o a =>
    rw [readItem] at h
    split at h
    · simp at h
    · rename_i c hc; exact ⟨c, hc⟩
  | link m q o a =>
    rw [readItem] at h
    split at h
    · simp at h
    · rename_i hc; exact ⟨_, hc⟩
    · rename_i hc; exact ⟨_, hc⟩
    · rename_i hc; exact ⟨_, hc⟩

theorem forall2_left {α β : Type} {R : α → β → Prop} {l : List α} {l' : List β} (h : List.Forall₂ R l l')
    {a : α} (ha : a ∈ l) : ∃ b ∈ l', R a b := by
  induction h with
  | nil => simp at ha
  | cons h1 _ ih =>
    rcases List.mem_cons.1 ha with rfl | ha
    · exact ⟨_, by simp, h1⟩
    · obtain ⟨b, h2, h3⟩ := ih ha
      exact ⟨b, by simp [h2], h3⟩

theorem wrapCell_proxy {f : QItem} {c r : Val} {q : QNode} (h : wrapCell f c = .proxy r q) :
    ∃ m o a n i, f = .link m q o a ∧ c = .ref n i ∧ r = .ref n i := by
  unfold wrapCell at h
  split at h
  · cases h; exact ⟨_, _, _, _, _, rfl, rfl, rfl⟩
  · cases h
  · cases h

theorem wrapCell_proxies {f : QItem} {c : Val} {rs : List Val} {q : QNode} (h : wrapCell f c = .proxies rs q) :
    ∃ m o a n i l, f = .link m q o a ∧ c = .seq .list (.ref n i :: l) ∧ rs = .ref n i :: l := by
  unfold wrapCell at h
  split at h
  · cases h
  · cases h; exact ⟨_, _, _, _, _, _, rfl, rfl, rfl⟩
  · cases h

/-- everything below a readable object is readable -/
theorem reaches_readable {H : PyHash} {idx : Index} {n0 : String} {i0 : Val} {q0 : QNode} {v0 : Val}
    (h : readNode H idx n0 i0 q0 = .ok v0) {r : Val} {q : QNode} (hr : Reaches H idx (.ref n0 i0) q0 r q) :
    ∃ n i v, r = .ref n i ∧ readNode H idx n i q = .ok v := by
  induction hr with
  | start => exact ⟨n0, i0, v0, rfl, h⟩
  | @one r q key r' q' _ hg ih =>
    obtain ⟨n, i, v, rfl, hv⟩ := ih
    unfold proxyGet at hg
    split at hg
    · simp at hg
    · rename_i f hf
      obtain ⟨hm, _⟩ := resultMap_mem hf
      obtain ⟨u, hu⟩ := readNode_item hv hm
      simp only at hg
      cases hc : dget idx (n, i, f.indexKey H) with
      | none => rw [hc] at hg; simp at hg
      | some c =>
        rw [hc] at hg
        simp only [Except.ok.injEq] at hg
        obtain ⟨m, o, a, n', i', rfl, rfl, rfl⟩ := wrapCell_proxy hg
        rw [readItem] at hu
        have hc : dget idx (n, i, indexKey H m o) = some (.ref n' i') := hc
        rw [hc] at hu
        exact ⟨n', i', u, rfl, hu⟩
  | @many r q key rs r' q' _ hg hm ih =>
    obtain ⟨n, i, v, rfl, hv⟩ := ih
    unfold proxyGet at hg
    split at hg
    · simp at hg
    · rename_i f hf
      obtain ⟨hm', _⟩ := resultMap_mem hf
      obtain ⟨u, hu⟩ := readNode_item hv hm'
      simp only at hg
      cases hc : dget idx (n, i, f.indexKey H) with
      | none => rw [hc] at hg; simp at hg
      | some c =>
        rw [hc] at hg
        simp only [Except.ok.injEq] at hg
        obtain ⟨m, o, a, n', i', rest, rfl, rfl, rfl⟩ := wrapCell_proxies hg
        rw [readItem] at hu
        have hc : dget idx (n, i, indexKey H m o) = some (.seq .list (.ref n' i' :: rest)) := hc
        rw [hc] at hu
        simp only [bind_ok_iff] at hu
        obtain ⟨l, hl, _⟩ := hu
        rw [mapM_ok_iff] at hl
        obtain ⟨b, _, hb⟩ := forall2_left hl hm
        cases r' with
        | ref n'' i'' => exact ⟨n'', i'', b, rfl, hb⟩
        | _ => simp at hb

/-- C19: whatever can be read completely gives access to every requested key, at every position. -/
theorem c19_granted {H : PyHash} {idx : Index} {n0 : String} {i0 : Val} {q0 : QNode} {v0 : Val}
    (h : readNode H idx n0 i0 q0 = .ok v0) {r : Val} {q : QNode} (hr : Reaches H idx (.ref n0 i0) q0 r q)
    {key : String} (hk : key ∈ q.keys) : ∃ x, proxyGet H idx r q key = .ok x := by
  obtain ⟨n, i, v, rfl, hv⟩ := reaches_readable h hr
  cases hf : dget q.resultMap key with
  | none => exact absurd hk (resultMap_none.1 hf)
  | some f =>
    obtain ⟨hm, _⟩ := resultMap_mem hf
    obtain ⟨u, hu⟩ := readNode_item hv hm
    obtain ⟨c, hc⟩ := readItem_cell hu
    exact ⟨wrapCell f c, by simp [proxyGet, hf, hc]⟩

/-- C19: in the result of every execution of a valid query, at every position which can be reached,
reading a key succeeds if it is a result key of the query at that position and raises KeyError
otherwise. -/
theorem c19_access {env : Env} {D : Data} {U : String → Opts → Prop}
    (hgood : GoodSys U env.sys) (hH : Faithful env.H D U) (hconf : Conforms env D U)
    {choose : Nat → List Nat → List Nat} (hch : ValidChoice choose)
    {gi : Nat} {g : Graph} {q q' : QNode} (hg : env.sys.graphs[gi]? = some g)
    (hi : initOptions g q = .ok q') (hq : NodeOk U g g.root q') {fuel inner : Nat}
    (hf : costQuery env.sys 1 0 gi q < fuel) (hin : 1 + costQuery env.sys 0 1 gi q < inner)
    {idx : Index} {qr : QNode} (he : execute env choose inner fuel gi q = .ok (idx, qr))
    {r : Val} {p : QNode} (hr : Reaches env.H idx (.ref rootName rootIdent) q' r p) (key : String) :
    (key ∈ p.keys → ∃ x, proxyGet env.H idx r p key = .ok x) ∧
    (key ∉ p.keys → proxyGet env.H idx r p key = .error .keyError) := by
  obtain ⟨idx', h1, h2⟩ := c06_result hgood hH hconf hch hg hi hq hf hin
  rw [h1] at he
  cases he
  refine ⟨c19_granted h2 hr, ?_⟩
  obtain ⟨n, i, v, rfl, _⟩ := reaches_readable h2 hr
  exact c19_denied.2

/-- the hypotheses are met by the example system; a second-level object is reached -/
example {idx : Index} {qr : QNode}
    (he : execute exEnv (fun _ l => l.take 1) 20 20 1 exQuery = .ok (idx, qr)) (key : String)
    {r : Val} {p : QNode} (hr : Reaches exEnv.H idx (.ref rootName rootIdent) exQuery r p) (hk : key ∈ p.keys) :
    ∃ x, proxyGet exEnv.H idx r p key = .ok x :=
  (c19_access exGood exFaithful exConforms validChoice_first rfl rfl exQuery_ok (by rw [exCost]; omega)
    (by rw [exForks]; omega) he hr key).1 hk

example : ∃ idx qr, execute exEnv (fun _ l => l.take 1) 20 20 1 exQuery = .ok (idx, qr) ∧
    proxyGet exEnv.H idx (.ref rootName rootIdent) exQuery "tracks" =
      .ok (.proxies [.ref "Track" (.int 10), .ref "Track" (.int 20)]
        (.mk [.field "label" none none, .link "album" (.mk [.field "name" none none] false) none none] false)) ∧
    proxyGet exEnv.H idx (.ref "Track" (.int 10)) (.mk [.field "label" none none] false) "albumId" =
      .error .keyError :=
  ⟨_, _, rfl, rfl, rfl⟩

end Hiku
