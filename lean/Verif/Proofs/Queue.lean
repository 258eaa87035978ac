import Verif.Model.Queue
import Verif.Proofs.Dict
import Verif.Proofs.Basic

/-! Lemmas on the operations of the queue. -/

namespace Hiku

namespace Queue
variable {κ : Type}

/-- callbacks registered on `o` -/
def cbs (q : Queue κ) (o : Obj) : List κ := (dget q.callbacks o).getD []

/-- all registrations -/
def regs (q : Queue κ) : List (Obj × κ) := q.callbacks.flatMap fun p => p.2.map fun c => (p.1, c)

/-- consistency of the queue; futures are numbered below `nf` -/
structure Inv (q : Queue κ) (nf : Nat) : Prop where
  nd : (q.futures.map (·.1)).Nodup
  cnd : (q.callbacks.map (·.1)).Nodup
  keys : ∀ t, (dget q.futures t).isSome ↔ (dget q.forks t).isSome
  lt : ∀ t s, dget q.futures t = some s → t < q.nextTs
  flt : ∀ t s f, dget q.futures t = some s → f ∈ s → f < nf
  kid : ∀ p s t, dget q.forks p = some s → t ∈ s → p < t ∧ (dget q.futures t).isSome

theorem mem_outstanding {q : Queue κ} (hnd : (q.futures.map (·.1)).Nodup) {f : Nat} :
    f ∈ q.outstanding ↔ ∃ t s, dget q.futures t = some s ∧ f ∈ s := by
  simp only [outstanding, List.mem_flatMap]
  constructor
  · rintro ⟨⟨t, s⟩, hm, hf⟩; exact ⟨t, s, dget_of_mem_nodup hnd hm, hf⟩
  · rintro ⟨t, s, hm, hf⟩; exact ⟨(t, s), dget_mem hm, hf⟩

/-! ### submit -/

theorem submit_ok {q q' : Queue κ} {t f : Nat} (h : q.submit t f = .ok q') :
    ∃ s, dget q.futures t = some s ∧ q' = { q with futures := dset q.futures t (s ++ [f]) } := by
  unfold submit at h
  split at h
  · simp at h
  · rename_i s hs; simp at h; exact ⟨s, hs, h.symm⟩

theorem submit_of_live {q : Queue κ} {t : Nat} (f : Nat) {s : List Nat} (h : dget q.futures t = some s) :
    q.submit t f = .ok { q with futures := dset q.futures t (s ++ [f]) } := by
  simp [submit, h]

theorem Inv.submit {q q' : Queue κ} {nf t : Nat} (hi : q.Inv nf) (h : q.submit t nf = .ok q') :
    q'.Inv (nf + 1) := by
  obtain ⟨s, hs, rfl⟩ := submit_ok h
  refine ⟨nodup_dset hi.nd _ _, hi.cnd, ?_, ?_, ?_, ?_⟩
  · intro t'
    rw [dget_dset]
    split
    · rename_i e; subst e; simp [← hi.keys, hs]
    · exact hi.keys t'
  · intro t' s' h'
    rw [dget_dset] at h'
    split at h'
    · rename_i e; subst e; exact hi.lt _ _ hs
    · exact hi.lt _ _ h'
  · intro t' s' f h' hf
    rw [dget_dset] at h'
    split at h'
    · simp at h'; subst h'
      rcases List.mem_append.1 hf with hf | hf
      · exact Nat.lt_succ_of_lt (hi.flt _ _ _ hs hf)
      · simp at hf; omega
    · exact Nat.lt_succ_of_lt (hi.flt _ _ _ h' hf)
  · intro p s' t' h' ht
    obtain ⟨h1, h2⟩ := hi.kid p s' t' h' ht
    refine ⟨h1, ?_⟩
    rw [dget_dset]; split <;> simp_all

theorem length_flatMap_dset {α : Type} (d : List (Nat × List α)) {t : Nat} {s : List α} (s' : List α)
    (h : dget d t = some s) :
    ((dset d t s').flatMap (·.2)).length + s.length = (d.flatMap (·.2)).length + s'.length := by
  induction d with
  | nil => simp at h
  | cons x r ih =>
    obtain ⟨a, b⟩ := x
    simp only [dset]
    rw [dget_cons] at h
    split
    · rename_i e
      rw [if_pos e] at h; simp at h; subst h
      simp; omega
    · rename_i e
      rw [if_neg e] at h
      have := ih h
      simp at this ⊢; omega

theorem outstanding_submit {q q' : Queue κ} {t f : Nat} (h : q.submit t f = .ok q') :
    q'.outstanding.length = q.outstanding.length + 1 := by
  obtain ⟨s, hs, rfl⟩ := submit_ok h
  have := length_flatMap_dset q.futures (s ++ [f]) hs
  simp [outstanding] at this ⊢; omega

theorem flatMap_dset_perm (d : List (Nat × List Nat)) {t f : Nat} {s : List Nat} (h : dget d t = some s) :
    ((dset d t (s ++ [f])).flatMap (·.2)).Perm (d.flatMap (·.2) ++ [f]) := by
  induction d with
  | nil => simp at h
  | cons x r ih =>
    obtain ⟨a, b⟩ := x
    simp only [dset]
    rw [dget_cons] at h
    split
    · rename_i e
      rw [if_pos e] at h; simp at h; subst h
      simp only [List.flatMap_cons, List.append_assoc]
      exact List.perm_append_comm.append_left _
    · rename_i e
      rw [if_neg e] at h
      simp only [List.flatMap_cons, List.append_assoc]
      exact (ih h).append_left _

theorem outstanding_submit_perm {q q' : Queue κ} {t f : Nat} (h : q.submit t f = .ok q') :
    q'.outstanding.Perm (q.outstanding ++ [f]) := by
  obtain ⟨s, hs, rfl⟩ := submit_ok h
  exact flatMap_dset_perm _ hs

/-! ### fork -/

theorem fork_ok {q q' : Queue κ} {p t : Nat} (hi : ∀ t s, dget q.futures t = some s → t < q.nextTs)
    (hk : ∀ t, (dget q.futures t).isSome ↔ (dget q.forks t).isSome)
    (h : q.fork (some p) = .ok (q', t)) :
    t = q.nextTs ∧ q'.nextTs = q.nextTs + 1 ∧ q'.callbacks = q.callbacks ∧
    q'.futures = dset q.futures q.nextTs [] ∧
    ((∃ s, dget q.forks p = some s ∧ p < q.nextTs ∧
      q'.forks = dset (dset q.forks q.nextTs []) p (s ++ [q.nextTs])) ∨
     (p = q.nextTs ∧ q'.forks = dset (dset q.forks q.nextTs []) p [q.nextTs])) := by
  simp only [fork] at h
  split at h
  · simp at h
  · rename_i s hs
    simp at h
    obtain ⟨rfl, rfl⟩ := h
    refine ⟨rfl, rfl, rfl, rfl, ?_⟩
    rw [dget_dset] at hs
    split at hs
    · rename_i e; simp at hs; subst hs; exact .inr ⟨e.symm, rfl⟩
    · refine .inl ⟨s, hs, ?_, rfl⟩
      have : (dget q.futures p).isSome := by rw [hk]; simp [hs]
      obtain ⟨x, hx⟩ := Option.isSome_iff_exists.1 this
      exact hi _ _ hx

/-- forking from a live task set -/
theorem fork_of_live {q : Queue κ} {nf p : Nat} (hi : q.Inv nf) {s : List Nat}
    (h : dget q.forks p = some s) :
    ∃ q', q.fork (some p) = .ok (q', q.nextTs) ∧ q'.nextTs = q.nextTs + 1 ∧
      q'.callbacks = q.callbacks ∧
      (∀ x, dget q'.futures x = if q.nextTs = x then some [] else dget q.futures x) ∧
      (∀ x, dget q'.forks x = if p = x then some (s ++ [q.nextTs]) else
        if q.nextTs = x then some [] else dget q.forks x) := by
  have hp : p < q.nextTs := by
    have : (dget q.futures p).isSome := by rw [hi.keys]; simp [h]
    obtain ⟨x, hx⟩ := Option.isSome_iff_exists.1 this
    exact hi.lt _ _ hx
  have hne : q.nextTs ≠ p := by omega
  have hg : dget (dset q.forks q.nextTs []) p = some s := by rw [dget_dset_ne _ _ hne]; exact h
  refine ⟨{ futures := dset q.futures q.nextTs [], forks := dset (dset q.forks q.nextTs []) p (s ++ [q.nextTs]), callbacks := q.callbacks, nextTs := q.nextTs + 1 },
    by simp only [fork, hg], rfl, rfl, ?_, ?_⟩
  · intro x; exact dget_dset _ _ _ _
  · intro x; simp only [dget_dset]

theorem Inv.fork {q q' : Queue κ} {nf p t : Nat} (hi : q.Inv nf) (hp : (dget q.futures p).isSome)
    (h : q.fork (some p) = .ok (q', t)) : q'.Inv nf := by
  obtain ⟨s, hs⟩ := Option.isSome_iff_exists.1 ((hi.keys p).1 hp)
  obtain ⟨q'', h1, h2, h3, h4, h5⟩ := fork_of_live hi hs
  rw [h1] at h; simp at h; obtain ⟨rfl, rfl⟩ := h
  obtain ⟨_, _, _, hfu, _⟩ := fork_ok hi.lt hi.keys h1
  obtain ⟨sp, hsp⟩ := Option.isSome_iff_exists.1 hp
  have hpl := hi.lt _ _ hsp
  refine ⟨?_, by rw [h3]; exact hi.cnd, ?_, ?_, ?_, ?_⟩
  · rw [hfu]; exact nodup_dset hi.nd _ _
  · intro x
    rw [h4, h5]
    by_cases e1 : q.nextTs = x
    · simp [e1]; split <;> rfl
    · by_cases e2 : p = x
      · simp [e1, e2]; subst e2; exact hp
      · rw [if_neg e1, if_neg e2, if_neg e1]; exact hi.keys x
  · intro x sx hx
    rw [h4] at hx
    rw [h2]
    split at hx
    · omega
    · exact Nat.lt_succ_of_lt (hi.lt _ _ hx)
  · intro x sx f hx hf
    rw [h4] at hx
    split at hx
    · simp at hx; subst hx; simp at hf
    · exact hi.flt _ _ _ hx hf
  · intro x sx t' hx ht
    rw [h5] at hx
    have live : ∀ y, (dget q.futures y).isSome → (dget q''.futures y).isSome := by
      intro y hy; rw [h4]; split <;> simp_all
    split at hx
    · rename_i e; subst e
      simp at hx; subst hx
      rcases List.mem_append.1 ht with ht | ht
      · obtain ⟨a, b⟩ := hi.kid _ _ _ hs ht
        exact ⟨a, live _ b⟩
      · simp at ht; subst ht
        exact ⟨hpl, by rw [h4]; simp⟩
    · split at hx
      · simp at hx; subst hx; simp at ht
      · obtain ⟨a, b⟩ := hi.kid _ _ _ hx ht
        exact ⟨a, live _ b⟩

theorem outstanding_fork {q q' : Queue κ} {p t nf : Nat} (hi : q.Inv nf)
    (h : q.fork (some p) = .ok (q', t)) : q'.outstanding = q.outstanding := by
  obtain ⟨_, _, _, hf, _⟩ := fork_ok hi.lt hi.keys h
  have hn : dget q.futures q.nextTs = none := by
    cases hd : dget q.futures q.nextTs with
    | none => rfl
    | some s => exact absurd (hi.lt _ _ hd) (Nat.lt_irrefl _)
  have : ∀ (d : List (Nat × List Nat)) k, dget d k = none →
      (dset d k []).flatMap (·.2) = d.flatMap (·.2) := by
    intro d k hk
    induction d with
    | nil => simp [dset]
    | cons x r ih =>
      obtain ⟨a, b⟩ := x
      rw [dget_cons] at hk
      split at hk
      · simp at hk
      · rename_i e
        simp only [dset, if_neg e]
        simp only [List.flatMap_cons, ih hk]
  simp only [outstanding, hf, this _ _ hn]

theorem length_dset_le {α : Type} (d : List (Nat × α)) (k : Nat) (v : α) :
    (dset d k v).length ≤ d.length + 1 := by
  induction d with
  | nil => simp [dset]
  | cons x r ih => obtain ⟨a, b⟩ := x; simp only [dset]; split <;> simp_all

/-! ### callbacks -/

theorem cbs_addCallback (q : Queue κ) (o o' : Obj) (cb : κ) :
    (q.addCallback o cb).cbs o' = if o = o' then q.cbs o' ++ [cb] else q.cbs o' := by
  simp only [cbs, addCallback, dget_dset]
  split
  · rename_i e; subst e; rfl
  · rfl

theorem regs_addCallback (q : Queue κ) (o : Obj) (cb : κ) :
    ((q.addCallback o cb).regs).Perm (q.regs ++ [(o, cb)]) := by
  unfold regs addCallback
  simp only
  induction q.callbacks with
  | nil => simp [dset]
  | cons x r ih =>
    obtain ⟨a, b⟩ := x
    simp only [dset, dget_cons]
    by_cases e : a = o
    · subst e
      simp only [if_true, Option.getD_some, List.flatMap_cons, List.map_append, List.map_cons,
        List.map_nil, List.append_assoc]
      apply List.Perm.append_left
      exact List.perm_append_comm
    · simp only [if_neg e, List.flatMap_cons, List.append_assoc]
      exact List.Perm.append_left _ ih

theorem cbs_pop (q : Queue κ) (o o' : Obj) :
    (q.popCallbacks o).2.cbs o' = if o = o' then [] else q.cbs o' := by
  simp only [popCallbacks, cbs, dget_derase]
  split <;> simp

theorem pop_fst (q : Queue κ) (o : Obj) : (q.popCallbacks o).1 = q.cbs o := rfl

theorem regs_pop (q : Queue κ) (o : Obj) (hn : (q.callbacks.map (·.1)).Nodup) :
    (q.regs).Perm ((q.cbs o).map (fun c => (o, c)) ++ (q.popCallbacks o).2.regs) := by
  unfold regs cbs popCallbacks derase
  simp only
  generalize q.callbacks = d at hn ⊢
  induction d with
  | nil => simp
  | cons x r ih =>
    obtain ⟨a, b⟩ := x
    simp only [List.map_cons, List.nodup_cons] at hn
    simp only [dget_cons]
    by_cases e : a = o
    · subst e
      have hf : r.filter (fun kv => decide (kv.1 ≠ a)) = r := by
        rw [List.filter_eq_self]
        intro y hy
        have : y.1 ≠ a := fun e => hn.1 (e ▸ List.mem_map.2 ⟨y, hy, rfl⟩)
        simpa using this
      rw [List.filter_cons_of_neg (by simp), hf]
      simp
    · rw [List.filter_cons_of_pos (by simpa using e)]
      simp only [if_neg e, List.flatMap_cons]
      have := ih hn.2
      refine (List.Perm.append_left _ this).trans ?_
      rw [← List.append_assoc, ← List.append_assoc]
      exact List.Perm.append_right _ List.perm_append_comm

theorem mem_regs {q : Queue κ} (hn : (q.callbacks.map (·.1)).Nodup) {o : Obj} {cb : κ} :
    (o, cb) ∈ q.regs ↔ cb ∈ q.cbs o := by
  simp only [regs, cbs, List.mem_flatMap, List.mem_map]
  constructor
  · rintro ⟨⟨o', l⟩, hm, c, hc, he⟩
    simp at he; obtain ⟨rfl, rfl⟩ := he
    rw [dget_of_mem_nodup hn hm]; exact hc
  · intro h
    cases hd : dget q.callbacks o with
    | none => rw [hd] at h; simp at h
    | some l => rw [hd] at h; exact ⟨(o, l), dget_mem hd, cb, h, rfl⟩

theorem Inv.addCallback {q : Queue κ} {nf : Nat} (hi : q.Inv nf) (o : Obj) (cb : κ) :
    (q.addCallback o cb).Inv nf :=
  ⟨hi.nd, nodup_dset hi.cnd _ _, hi.keys, hi.lt, hi.flt, hi.kid⟩

theorem Inv.pop {q : Queue κ} {nf : Nat} (hi : q.Inv nf) (o : Obj) :
    (q.popCallbacks o).2.Inv nf := by
  refine ⟨hi.nd, ?_, hi.keys, hi.lt, hi.flt, hi.kid⟩
  exact List.Nodup.sublist (List.Sublist.map _ List.filter_sublist) hi.cnd

theorem Inv.mono {q : Queue κ} {nf nf' : Nat} (hi : q.Inv nf) (h : nf ≤ nf') : q.Inv nf' :=
  ⟨hi.nd, hi.cnd, hi.keys, hi.lt, fun t s f h1 h2 => Nat.lt_of_lt_of_le (hi.flt t s f h1 h2) h, hi.kid⟩

/-! ### dropDone -/

theorem dget_dropDone (q : Queue κ) (done : List Nat) (t : Nat) :
    dget (q.dropDone done).futures t = (dget q.futures t).map fun s => s.filter fun f => f ∉ done := by
  simp only [dropDone]
  exact dget_map_snd _ _ _

theorem Inv.dropDone {q : Queue κ} {nf : Nat} (hi : q.Inv nf) (done : List Nat) :
    (q.dropDone done).Inv nf := by
  refine ⟨?_, hi.cnd, ?_, ?_, ?_, ?_⟩
  · simp only [Queue.dropDone, List.map_map]; exact hi.nd
  · intro t; rw [dget_dropDone]; simp [Queue.dropDone, ← hi.keys]
  · intro t s h
    rw [dget_dropDone] at h
    cases hd : dget q.futures t with
    | none => simp [hd] at h
    | some s' => exact hi.lt _ _ hd
  · intro t s f h hf
    rw [dget_dropDone] at h
    cases hd : dget q.futures t with
    | none => simp [hd] at h
    | some s' => simp [hd] at h; subst h; exact hi.flt _ _ _ hd (List.mem_filter.1 hf).1
  · intro p s t h ht
    obtain ⟨a, b⟩ := hi.kid p s t h ht
    exact ⟨a, by rw [dget_dropDone]; simpa using b⟩

theorem outstanding_dropDone (q : Queue κ) (done : List Nat) :
    (q.dropDone done).outstanding = q.outstanding.filter fun f => f ∉ done := by
  simp only [outstanding, dropDone]
  induction q.futures with
  | nil => rfl
  | cons x r ih => rw [List.map_cons, List.flatMap_cons, ih, List.flatMap_cons, List.filter_append]

theorem length_outstanding_dropDone {q : Queue κ} {done : List Nat} {f : Nat}
    (hf : f ∈ q.outstanding) (hd : f ∈ done) :
    (q.dropDone done).outstanding.length < q.outstanding.length := by
  rw [outstanding_dropDone]
  exact List.length_filter_lt_length_iff_exists.2 ⟨f, hf, by simpa using hd⟩

/-! ### task sets -/

theorem mem_completed {q : Queue κ} {nf : Nat} (hi : q.Inv nf) {t : Nat} :
    t ∈ q.completed ↔ dget q.futures t = some [] ∧ dget q.forks t = some [] := by
  simp only [completed, List.mem_map, List.mem_filter]
  constructor
  · rintro ⟨⟨t', s⟩, ⟨hm, h⟩, rfl⟩
    have hd := dget_of_mem_nodup hi.nd hm
    simp at h
    obtain ⟨h1, h2⟩ := h
    simp only
    subst h1
    refine ⟨hd, ?_⟩
    have : (dget q.forks t').isSome := by rw [← hi.keys]; simp [hd]
    obtain ⟨s, hs⟩ := Option.isSome_iff_exists.1 this
    rw [hs] at h2 ⊢; simp at h2; rw [h2]
  · rintro ⟨h1, h2⟩
    exact ⟨(t, []), ⟨dget_mem h1, by simp [h2]⟩, rfl⟩

/-- A consistent queue without outstanding futures and without completed task sets has no task
sets at all. -/
theorem no_task_sets {q : Queue κ} {nf : Nat} (hi : q.Inv nf) (ho : q.outstanding = [])
    (hc : q.completed = []) (t : Nat) : dget q.futures t = none := by
  -- a task set with the greatest number would be completed
  have empty : ∀ t s, dget q.futures t = some s → s = [] := by
    intro t s h
    cases s with
    | nil => rfl
    | cons f r =>
      have : f ∈ q.outstanding := (mem_outstanding hi.nd).2 ⟨t, f :: r, h, by simp⟩
      rw [ho] at this; simp at this
  have key : ∀ n t, q.nextTs - t = n → dget q.futures t = none := by
    intro n
    induction n using Nat.strongRecOn with
    | ind n ih =>
      intro t ht
      cases hd : dget q.futures t with
      | none => rfl
      | some s =>
        exfalso
        have hs := empty t s hd
        subst hs
        have hlt := hi.lt _ _ hd
        have hk : (dget q.forks t).isSome := by rw [← hi.keys]; simp [hd]
        obtain ⟨ks, hks⟩ := Option.isSome_iff_exists.1 hk
        cases ks with
        | nil =>
          have : t ∈ q.completed := (mem_completed hi).2 ⟨hd, hks⟩
          rw [hc] at this; simp at this
        | cons c r =>
          obtain ⟨h1, h2⟩ := hi.kid t (c :: r) c hks (by simp)
          obtain ⟨sc, hsc⟩ := Option.isSome_iff_exists.1 h2
          have hcl := hi.lt _ _ hsc
          have := ih (q.nextTs - c) (by omega) c rfl
          rw [this] at hsc; cases hsc
  exact key _ t rfl

theorem dget_futures_removeTs (q : Queue κ) (t x : Nat) :
    dget (q.removeTs t).futures x = if t = x then none else dget q.futures x := dget_derase _ _ _

theorem dget_forks_removeTs (q : Queue κ) (t x : Nat) :
    dget (q.removeTs t).forks x =
      if t = x then none else (dget q.forks x).map fun s => s.filter (· ≠ t) := by
  simp only [removeTs]
  rw [dget_map_snd (fun s : List Nat => s.filter (· ≠ t)), dget_derase]
  split <;> simp

theorem Inv.removeTs {q : Queue κ} {nf : Nat} (hi : q.Inv nf) (t : Nat) : (q.removeTs t).Inv nf := by
  refine ⟨?_, hi.cnd, ?_, ?_, ?_, ?_⟩
  · exact List.Nodup.sublist (List.Sublist.map _ List.filter_sublist) hi.nd
  · intro x
    rw [dget_futures_removeTs, dget_forks_removeTs]
    split
    · simp
    · simp [hi.keys]
  · intro x s h
    rw [dget_futures_removeTs] at h
    split at h
    · simp at h
    · exact hi.lt _ _ h
  · intro x s f h hf
    rw [dget_futures_removeTs] at h
    split at h
    · simp at h
    · exact hi.flt _ _ _ h hf
  · intro p s x h hx
    rw [dget_forks_removeTs] at h
    split at h
    · simp at h
    · cases hd : dget q.forks p with
      | none => simp [hd] at h
      | some s' =>
        simp [hd] at h; subst h
        have hm := List.mem_filter.1 hx
        obtain ⟨a, b⟩ := hi.kid _ _ _ hd hm.1
        refine ⟨a, ?_⟩
        rw [dget_futures_removeTs]
        have : x ≠ t := by simpa using hm.2
        rw [if_neg (Ne.symm this)]; exact b

theorem length_removeTs {q : Queue κ} {t : Nat} {s : List Nat} (h : dget q.futures t = some s) :
    (q.removeTs t).futures.length < q.futures.length := by
  simp only [removeTs, derase]
  exact List.length_filter_lt_length_iff_exists.2 ⟨(t, s), dget_mem h, by simp⟩

theorem length_removeTs_le (q : Queue κ) (t : Nat) :
    (q.removeTs t).futures.length ≤ q.futures.length := by
  simp only [removeTs, derase]
  exact List.length_filter_le _ _

theorem outstanding_removeTs_le (q : Queue κ) (t : Nat) :
    (q.removeTs t).outstanding.length ≤ q.outstanding.length := by
  simp only [removeTs, derase, outstanding]
  induction q.futures with
  | nil => simp
  | cons x r ih =>
    rw [List.filter_cons]
    split
    · simp at ih ⊢; omega
    · simp at ih ⊢; omega

theorem outstanding_removeTs (q : Queue κ) (hnd : (q.futures.map (·.1)).Nodup) {t : Nat} (h : dget q.futures t = some []) :
    (q.removeTs t).outstanding = q.outstanding := by
  simp only [removeTs, derase, outstanding]
  have hm : ∀ x ∈ q.futures, x.1 = t → x.2 = [] := by
    rintro ⟨a, b⟩ hx rfl
    have := dget_of_mem_nodup hnd hx
    rw [h] at this; cases this; rfl
  clear h hnd
  generalize q.futures = l at hm
  induction l with
  | nil => rfl
  | cons x r ih =>
    have ih' := ih fun y hy => hm y (List.mem_cons_of_mem _ hy)
    rw [List.filter_cons]
    split
    · simp only [List.flatMap_cons, ih']
    · rename_i e
      simp at e
      rw [ih', List.flatMap_cons, hm x List.mem_cons_self e]; rfl

end Queue

end Hiku
