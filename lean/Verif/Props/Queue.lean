import Verif.Proofs.Queue
import Verif.Proofs.Basic
import Verif.Spec.QueueClient

/-! # C16, C17: callbacks of tasks and of task sets -/

namespace Hiku

section Claims
variable {κ : Type} [DecidableEq κ] {prog : Prog κ}

/-- the history so far is consistent with the queue; `left o` are the callbacks of `o` which were
taken out of the queue but not run yet; `d`: the program is disciplined -/
structure HInv (d : Prop) (left : Obj → List κ) (s : QState κ) : Prop where
  inv : s.q.Inv s.nf
  own : ∀ o c, c ∈ s.q.cbs o → c.1 = o
  order : ∀ o, registeredOn o s.trace = ranOn o s.trace ++ left o ++ (s.q.cbs o).map (·.2)
  sub : d → ∀ t f, QEv.submitted t f ∈ s.trace → f < s.nf ∧
    (Reported s.trace f ∨ ∃ fs, dget s.q.futures t = some fs ∧ f ∈ fs)
  forks : d → ∀ p t, QEv.forked (some p) t ∈ s.trace → dget s.q.futures t = none ∨
    ∃ ts, dget s.q.forks p = some ts ∧ t ∈ ts
  fbound : ∀ p t, QEv.forked p t ∈ s.trace → t < s.q.nextTs
  sbound : ∀ t f, QEv.submitted t f ∈ s.trace → t < s.q.nextTs

/-- C16, second half -/
def FutOK (l : List (QEv κ)) : Prop :=
  ∀ l1 f c l2, l = l1 ++ QEv.ran (.fut f) c :: l2 → Reported l1 f

/-- C17 -/
def TsOK (l : List (QEv κ)) : Prop :=
  ∀ l1 t c l2, l = l1 ++ QEv.ran (.ts t) c :: l2 →
    ∀ d f, Descendant l1 t d → QEv.submitted d f ∈ l1 → Reported l1 f

section
omit [DecidableEq κ]

theorem Reported.mono {l l' : List (QEv κ)} {f : Nat} (h : Reported l f) : Reported (l ++ l') f := by
  obtain ⟨d, h1, h2⟩ := h; exact ⟨d, List.mem_append.2 (.inl h1), h2⟩

theorem reported_snoc {l : List (QEv κ)} {e : QEv κ} {f : Nat} (he : ∀ d, e ≠ .reported d) :
    Reported (l ++ [e]) f ↔ Reported l f := by
  constructor
  · rintro ⟨d, h1, h2⟩
    rcases List.mem_append.1 h1 with h1 | h1
    · exact ⟨d, h1, h2⟩
    · simp at h1; exact absurd h1.symm (he d)
  · exact fun h => h.mono

theorem futOK_snoc {l : List (QEv κ)} {e : QEv κ} (h : FutOK l)
    (he : ∀ f c, e = .ran (.fut f) c → Reported l f) : FutOK (l ++ [e]) := by
  intro l1 f c l2 heq
  rcases List.eq_nil_or_concat l2 with rfl | ⟨m, x, rfl⟩
  · obtain ⟨h1, h2⟩ := List.append_inj' heq rfl
    simp at h2; subst h1; exact he f c h2
  · have : l ++ [e] = (l1 ++ QEv.ran (.fut f) c :: m) ++ [x] := by rw [heq]; simp
    obtain ⟨h1, _⟩ := List.append_inj' this rfl
    exact h l1 f c m h1

theorem tsOK_snoc {l : List (QEv κ)} {e : QEv κ} (h : TsOK l)
    (he : ∀ t c, e = .ran (.ts t) c → ∀ d f, Descendant l t d → QEv.submitted d f ∈ l → Reported l f) :
    TsOK (l ++ [e]) := by
  intro l1 t c l2 heq
  rcases List.eq_nil_or_concat l2 with rfl | ⟨m, x, rfl⟩
  · obtain ⟨h1, h2⟩ := List.append_inj' heq rfl
    simp at h2; subst h1; exact he t c h2
  · have : l ++ [e] = (l1 ++ QEv.ran (.ts t) c :: m) ++ [x] := by rw [heq]; simp
    obtain ⟨h1, _⟩ := List.append_inj' this rfl
    exact h l1 t c m h1
end

theorem registeredOn_append (o : Obj) (l l' : List (QEv κ)) :
    registeredOn o (l ++ l') = registeredOn o l ++ registeredOn o l' := by
  simp [registeredOn]

theorem ranOn_append (o : Obj) (l l' : List (QEv κ)) :
    ranOn o (l ++ l') = ranOn o l ++ ranOn o l' := by
  simp [ranOn]

/-! ### Operations -/

variable {left : Obj → List κ} {s s' : QState κ}

theorem fork_none_ok {q q' : Queue (Obj × κ)} {t nf : Nat} (hi : q.Inv nf) (h : q.fork none = .ok (q', t)) :
    t = q.nextTs ∧ q'.nextTs = q.nextTs + 1 ∧ q'.callbacks = q.callbacks ∧
    (∀ x, dget q'.futures x = if q.nextTs = x then some [] else dget q.futures x) ∧
    (∀ x, dget q'.forks x = if q.nextTs = x then some [] else dget q.forks x) ∧ q'.Inv nf := by
  simp [Queue.fork] at h
  obtain ⟨rfl, rfl⟩ := h
  refine ⟨rfl, rfl, rfl, fun x => dget_dset _ _ _ _, fun x => dget_dset _ _ _ _, ?_⟩
  refine ⟨nodup_dset hi.nd _ _, hi.cnd, ?_, ?_, ?_, ?_⟩
  · intro t; simp only [dget_dset]; split
    · simp
    · exact hi.keys t
  · intro t s h; simp only [dget_dset] at h
    split at h
    · rename_i e; simp; omega
    · have := hi.lt t s h; simp; omega
  · intro t s f h hf; simp only [dget_dset] at h
    split at h
    · simp at h; subst h; simp at hf
    · exact hi.flt t s f h hf
  · intro p s t h ht; simp only [dget_dset] at h ⊢
    split at h
    · simp at h; subst h; simp at ht
    · obtain ⟨h1, h2⟩ := hi.kid p s t h ht
      refine ⟨h1, ?_⟩
      split
      · simp
      · exact h2

/-- what an operation does to the task sets -/
theorem HInv.apply {d : Prop} (h : HInv d left s) {op : QOp κ} (ha : op.apply s = .ok s') :
    HInv d left s' ∧ s.q.nextTs ≤ s'.q.nextTs ∧ (∃ e, s'.trace = s.trace ++ [e] ∧ ∀ o c, e ≠ .ran o c) ∧
    (∀ t, (¬ (op = .submit t ∨ op = .fork (some t))) → t < s.q.nextTs →
      dget s'.q.futures t = dget s.q.futures t ∧ dget s'.q.forks t = dget s.q.forks t) ∧
    (∀ t, (dget s.q.futures t).isSome → (dget s'.q.futures t).isSome) := by
  cases op with
  | submit t0 =>
    simp only [QOp.apply, bind_ok_iff] at ha
    obtain ⟨q, hq, ha⟩ := ha
    simp at ha; subst ha
    obtain ⟨fs, h1, h2⟩ := Queue.submit_ok hq
    have hi := h.inv.submit hq
    have e1 : q.callbacks = s.q.callbacks := by rw [h2]
    have e2 : q.forks = s.q.forks := by rw [h2]
    have e3 : q.nextTs = s.q.nextTs := by rw [h2]
    have e4 : ∀ x, dget q.futures x = if t0 = x then some (fs ++ [s.nf]) else dget s.q.futures x := by
      intro x; rw [h2]; exact dget_dset _ _ _ _
    refine ⟨⟨hi, ?_, ?_, ?_, ?_, ?_, ?_⟩, by simp [e3], ⟨_, rfl, by simp⟩, ?_, ?_⟩
    · intro o c hc; simp only [Queue.cbs, e1] at hc; exact h.own o c hc
    · intro o
      rw [registeredOn_append, ranOn_append, h.order o]
      simp [registeredOn, ranOn, Queue.cbs, e1]
    · intro hd t f hm
      rcases List.mem_append.1 hm with hm | hm
      · obtain ⟨g1, g2⟩ := h.sub hd t f hm
        refine ⟨by simp; omega, ?_⟩
        rcases g2 with g2 | ⟨fs', g2, g3⟩
        · exact .inl g2.mono
        · simp only [e4]
          by_cases e : t0 = t
          · subst e; rw [h1] at g2; cases g2
            exact .inr ⟨_, if_pos rfl, by simp [g3]⟩
          · exact .inr ⟨fs', by rw [if_neg e]; exact g2, g3⟩
      · simp at hm; obtain ⟨rfl, rfl⟩ := hm
        refine ⟨by simp, .inr ⟨fs ++ [s.nf], by simp [e4], by simp⟩⟩
    · intro hd p t hm
      simp at hm
      rcases h.forks hd p t hm with g | g
      · left; simp only [e4]
        rw [if_neg]; exact g
        rintro rfl; rw [h1] at g; simp at g
      · right; simpa only [e2] using g
    · intro p t hm; simp at hm; rw [e3]; exact h.fbound p t hm
    · intro t f hm
      rw [e3]
      rcases List.mem_append.1 hm with hm | hm
      · exact h.sbound t f hm
      · simp at hm; obtain ⟨rfl, _⟩ := hm; exact h.inv.lt _ _ h1
    · intro t ht hlt
      simp at ht
      exact ⟨by simp only [e4]; rw [if_neg ht], by simp only [e2]⟩
    · intro t ht; simp only [e4]; split
      · simp
      · exact ht
  | fork p =>
    simp only [QOp.apply] at ha
    split at ha
    case isFalse => simp at ha
    rename_i hp
    simp only [bind_ok_iff] at ha
    obtain ⟨⟨q, t0⟩, hq, ha⟩ := ha
    simp at ha; subst ha
    have hmain : t0 = s.q.nextTs ∧ q.nextTs = s.q.nextTs + 1 ∧ q.callbacks = s.q.callbacks ∧
        (∀ x, dget q.futures x = if s.q.nextTs = x then some [] else dget s.q.futures x) ∧
        (∀ x, p ≠ some x → x < s.q.nextTs → dget q.forks x = dget s.q.forks x) ∧
        (∀ x ts, dget s.q.forks x = some ts → ∃ ts', dget q.forks x = some ts' ∧ ∀ y ∈ ts, y ∈ ts') ∧
        (∀ x, p = some x → ∃ ts, dget q.forks x = some ts ∧ t0 ∈ ts) ∧ q.Inv s.nf := by
      cases p with
      | none =>
        obtain ⟨g1, g2, g3, g4, g5, g6⟩ := fork_none_ok h.inv hq
        refine ⟨g1, g2, g3, g4, ?_, ?_, by simp, g6⟩
        · intro x _ hx; rw [g5, if_neg (by omega)]
        · intro x ts hx
          have hlt : x < s.q.nextTs := by
            obtain ⟨y, hy⟩ := Option.isSome_iff_exists.1 ((h.inv.keys x).2 (by simp [hx]))
            exact h.inv.lt _ _ hy
          exact ⟨ts, by rw [g5, if_neg (by omega)]; exact hx, fun _ h => h⟩
      | some x =>
        have hlive : ∃ ts, dget s.q.forks x = some ts := by
          simp only [Queue.fork] at hq
          split at hq
          · simp at hq
          · rename_i ts hx
            rw [dget_dset] at hx
            split at hx
            · rename_i e
              exfalso
              simp at hp
              omega
            · exact ⟨ts, hx⟩
        obtain ⟨ts, hts⟩ := hlive
        obtain ⟨q', g1, g2, g3, g4, g5⟩ := Queue.fork_of_live h.inv hts
        have hinv := h.inv.fork ((h.inv.keys x).2 (by simp [hts])) hq
        rw [g1] at hq; simp at hq; obtain ⟨rfl, rfl⟩ := hq
        refine ⟨rfl, g2, g3, g4, ?_, ?_, ?_, hinv⟩
        · intro y hy hlt
          rw [g5, if_neg (fun e => hy (by rw [e])), if_neg (by omega)]
        · intro y ts' hy
          rw [g5]
          by_cases e : x = y
          · subst e; rw [hts] at hy; cases hy
            exact ⟨_, if_pos rfl, fun z hz => by simp [hz]⟩
          · rw [if_neg e]
            have hlt : y < s.q.nextTs := by
              obtain ⟨z, hz⟩ := Option.isSome_iff_exists.1 ((h.inv.keys y).2 (by simp [hy]))
              exact h.inv.lt _ _ hz
            rw [if_neg (by omega)]
            exact ⟨ts', hy, fun _ h => h⟩
        · rintro y ⟨⟩
          exact ⟨_, by rw [g5, if_pos rfl], by simp⟩
    obtain ⟨rfl, m2, m3, m4, m5, m6, m7, m8⟩ := hmain
    have hn : dget s.q.futures s.q.nextTs = none := by
      cases hd : dget s.q.futures s.q.nextTs with
      | none => rfl
      | some x => have := h.inv.lt _ _ hd; omega
    refine ⟨⟨m8, ?_, ?_, ?_, ?_, ?_, ?_⟩, by simp [m2], ⟨_, rfl, by simp⟩, ?_, ?_⟩
    · intro o c hc; simp only [Queue.cbs, m3] at hc; exact h.own o c hc
    · intro o
      rw [registeredOn_append, ranOn_append, h.order o]
      simp [registeredOn, ranOn, Queue.cbs, m3]
    · intro hd t f hm
      simp at hm
      obtain ⟨g1, g2⟩ := h.sub hd t f hm
      refine ⟨g1, ?_⟩
      rcases g2 with g2 | ⟨fs', g2, g3⟩
      · exact .inl g2.mono
      · refine .inr ⟨fs', ?_, g3⟩
        simp only [m4]
        have := h.inv.lt _ _ g2
        rw [if_neg (by omega)]; exact g2
    · intro hd p' t hm
      rcases List.mem_append.1 hm with hm | hm
      · rcases h.forks hd p' t hm with g | ⟨ts, g1, g2⟩
        · left; simp only [m4]
          have := h.fbound _ _ hm
          rw [if_neg (by omega)]; exact g
        · right
          obtain ⟨ts', x1, x2⟩ := m6 _ _ g1
          exact ⟨ts', x1, x2 _ g2⟩
      · simp at hm
        obtain ⟨h1, rfl⟩ := hm
        right; exact m7 p' h1.symm
    · intro p' t hm
      show t < q.nextTs
      rcases List.mem_append.1 hm with hm | hm
      · have := h.fbound _ _ hm; omega
      · simp at hm; omega
    · intro t f hm
      simp at hm
      have := h.sbound _ _ hm
      show t < q.nextTs
      omega
    · intro t ht hlt
      simp at ht
      refine ⟨?_, m5 t ht hlt⟩
      simp only [m4]; rw [if_neg (by omega)]
    · intro t ht; simp only [m4]; split
      · simp
      · exact ht
  | addCallback o0 c0 =>
    simp [QOp.apply] at ha; subst ha
    refine ⟨⟨h.inv.addCallback _ _, ?_, ?_, ?_, ?_, ?_, ?_⟩, Nat.le_refl _, ⟨_, rfl, by simp⟩,
      fun t _ _ => ⟨rfl, rfl⟩, fun _ h => h⟩
    · intro o c hc
      simp only [Queue.cbs_addCallback] at hc
      split at hc
      · rename_i e; subst e
        rcases List.mem_append.1 hc with hc | hc
        · exact h.own _ c hc
        · simp at hc; rw [hc]
      · exact h.own o c hc
    · intro o
      simp only [Queue.cbs_addCallback]
      rw [registeredOn_append, ranOn_append, h.order o]
      by_cases e : o0 = o
      · subst e; simp [registeredOn, ranOn]
      · simp [registeredOn, ranOn, e]
    · intro hd t f hm
      simp at hm
      obtain ⟨g1, g2⟩ := h.sub hd t f hm
      exact ⟨g1, g2.imp (fun g => g.mono) id⟩
    · intro hd p t hm; simp at hm; exact h.forks hd p t hm
    · intro p t hm; simp at hm; exact h.fbound p t hm
    · intro p t hm; simp at hm; exact h.sbound p t hm

/-! ### Running callbacks -/

structure HAll (prog : Prog κ) (left : Obj → List κ) (B : List Nat) (s : QState κ) : Prop where
  h : HInv (Disciplined prog) left s
  fut : FutOK s.trace
  ts : Disciplined prog → TsOK s.trace
  comp : Disciplined prog → ∀ t ∈ B, dget s.q.futures t = some [] ∧ dget s.q.forks t = some []

/-- `s'` continues `s` -/
def Extends (s s' : QState κ) : Prop := ∃ l, s'.trace = s.trace ++ l

omit [DecidableEq κ] in
theorem Extends.trans {a b c : QState κ} (h : Extends a b) (h' : Extends b c) : Extends a c := by
  obtain ⟨l, h⟩ := h; obtain ⟨l', h'⟩ := h'
  exact ⟨l ++ l', by rw [h', h, List.append_assoc]⟩

theorem Extends.registeredOn {a b : QState κ} (h : Extends a b) (o : Obj) :
    Hiku.registeredOn o a.trace <+: Hiku.registeredOn o b.trace := by
  obtain ⟨l, h⟩ := h
  rw [h, registeredOn_append]; exact List.prefix_append _ _

theorem Extends.ranOn {a b : QState κ} (h : Extends a b) (o : Obj) :
    Hiku.ranOn o a.trace <+: Hiku.ranOn o b.trace := by
  obtain ⟨l, h⟩ := h
  rw [h, ranOn_append]; exact List.prefix_append _ _

theorem HAll.applyAll {B : List Nat} {ops : List (QOp κ)} {n0 : Nat}
    (h : HAll prog left B s) (hn : Disciplined prog → ∀ t ∈ B, t < n0) (hn0 : n0 ≤ s.q.nextTs)
    (hops : Disciplined prog → ∀ op ∈ ops, ∀ t, op = .submit t ∨ op = .fork (some t) → t ∉ B)
    (ha : QOp.applyAll s ops = .ok s') :
    HAll prog left B s' ∧ Extends s s' ∧ ∀ o, ranOn o s'.trace = ranOn o s.trace := by
  induction ops generalizing s with
  | nil => simp [QOp.applyAll] at ha; subst ha; exact ⟨h, ⟨[], by simp⟩, fun _ => rfl⟩
  | cons op r ih =>
    simp only [QOp.applyAll, bind_ok_iff] at ha
    obtain ⟨s1, h1, h2⟩ := ha
    obtain ⟨g1, g2, ⟨e, g3, g3'⟩, g4, _⟩ := h.h.apply h1
    have hall : HAll prog left B s1 := by
      refine ⟨g1, ?_, ?_, ?_⟩
      · rw [g3]; exact futOK_snoc h.fut fun f c he => absurd he (g3' _ _)
      · intro hd
        rw [g3]; exact tsOK_snoc (h.ts hd) fun f c he => absurd he (g3' _ _)
      · intro hd t ht
        obtain ⟨x1, x2⟩ := h.comp hd t ht
        have hlt : t < s.q.nextTs := Nat.lt_of_lt_of_le (hn hd t ht) hn0
        obtain ⟨y1, y2⟩ := g4 t (fun hh => hops hd op (by simp) t hh ht) hlt
        exact ⟨by rw [y1]; exact x1, by rw [y2]; exact x2⟩
    obtain ⟨i1, i2, i3⟩ := ih hall (Nat.le_trans hn0 g2) (fun hd op hm => hops hd op (by simp [hm])) h2
    refine ⟨i1, Extends.trans ⟨[e], g3⟩ i2, ?_⟩
    intro o
    rw [i3 o, g3, ranOn_append]
    cases e with
    | ran o' c => exact absurd rfl (g3' o' c)
    | _ => simp [ranOn]

/-- callbacks of `o` still to run -/
def only (o : Obj) (l : List κ) : Obj → List κ := fun o' => if o' = o then l else []

/-- what allows the callbacks of `o` to run -/
def MayRun (prog : Prog κ) (B : List Nat) (o : Obj) (s : QState κ) : Prop :=
  match o with
  | .fut f => Reported s.trace f
  | .ts t => Disciplined prog → t ∈ B

theorem HAll.run {B : List Nat} {o : Obj} {c : κ} {r : List κ}
    (h : HAll prog (only o (c :: r)) B s) (hm : MayRun prog B o s)
    (ha : prog.run (o, c) s = .ok s') :
    HAll prog (only o r) B s' ∧ Extends s s' ∧
      ∀ o', ranOn o' s'.trace = ranOn o' s.trace ++ (if o' = o then [c] else []) := by
  unfold Prog.run at ha
  simp only at ha
  have hran : ∀ o', ranOn o' (s.trace ++ [QEv.ran o c]) =
      ranOn o' s.trace ++ (if o' = o then [c] else []) := by
    intro o'
    rw [ranOn_append]
    congr 1
    by_cases e : o = o'
    · simp [ranOn, e]
    · simp [ranOn, e, Ne.symm e]
  have h1 : HAll prog (only o r) B { s with trace := s.trace ++ [.ran o c] } := by
    refine ⟨⟨h.h.inv, h.h.own, ?_, ?_, ?_, ?_, ?_⟩, ?_, ?_, h.comp⟩
    · intro o'
      show registeredOn o' (s.trace ++ [QEv.ran o c]) = ranOn o' (s.trace ++ [QEv.ran o c]) ++ _ ++ _
      rw [hran, registeredOn_append, h.h.order o']
      by_cases e : o' = o
      · simp [registeredOn, only, e]
      · simp [registeredOn, only, e]
    · intro hd t f hmem
      simp at hmem
      obtain ⟨g1, g2⟩ := h.h.sub hd t f hmem
      exact ⟨g1, g2.imp (fun g => g.mono) id⟩
    · intro hd p t hmem; simp at hmem; exact h.h.forks hd p t hmem
    · intro p t hmem; simp at hmem; exact h.h.fbound p t hmem
    · intro p t hmem; simp at hmem; exact h.h.sbound p t hmem
    · refine futOK_snoc h.fut ?_
      rintro f c' ⟨⟩
      exact hm
    · intro hd
      refine tsOK_snoc (h.ts hd) ?_
      rintro t c' ⟨⟩ d f hdes hsub
      obtain ⟨c1, c2⟩ := h.comp hd t (hm hd)
      -- every proper descendant is closed
      have dead : d = t ∨ dget s.q.futures d = none := by
        clear hsub
        induction hdes with
        | self => exact .inl rfl
        | @fork p d _ hf ih =>
          right
          rcases h.h.forks hd p d hf with g | ⟨ts, g1, g2⟩
          · exact g
          · rcases ih with rfl | ih
            · rw [c2] at g1; cases g1; simp at g2
            · have : (dget s.q.forks p).isSome := by simp [g1]
              rw [← h.h.inv.keys, ih] at this; simp at this
      obtain ⟨_, g | ⟨fs, g1, g2⟩⟩ := h.h.sub hd d f hsub
      · exact g
      · rcases dead with rfl | dead
        · rw [c1] at g1; cases g1; simp at g2
        · rw [dead] at g1; simp at g1
  obtain ⟨i1, i2, i3⟩ := h1.applyAll (n0 := s.q.nextTs)
    (fun hd t ht => h.h.inv.lt t _ (h.comp hd t ht).1) (Nat.le_refl _) (by
      intro hd op hop t ht hB
      obtain ⟨c1, c2⟩ := h.comp hd t hB
      rcases hd c s op hop t ht with hh | hh
      · exact hh ((Queue.mem_completed h.h.inv).2 ⟨c1, c2⟩)
      · have := h.h.inv.lt _ _ c1; omega) ha
  refine ⟨i1, Extends.trans ⟨[.ran o c], rfl⟩ i2, ?_⟩
  intro o'
  rw [i3]; exact hran o'

theorem MayRun.mono {B : List Nat} {o : Obj} (h : MayRun prog B o s) (he : Extends s s') :
    MayRun prog B o s' := by
  cases o with
  | fut f => obtain ⟨l, hl⟩ := he; simp only [MayRun, hl] at h ⊢; exact h.mono
  | ts t => exact h

theorem HAll.runCallbacks {B : List Nat} {o : Obj} {l : List (Obj × κ)} (hl : ∀ c ∈ l, c.1 = o)
    (h : HAll prog (only o (l.map (·.2))) B s) (hm : MayRun prog B o s)
    (ha : Hiku.runCallbacks prog.run l s = .ok s') :
    HAll prog (only o []) B s' ∧ Extends s s' ∧
      ∀ o', ranOn o' s'.trace = ranOn o' s.trace ++ (if o' = o then l.map (·.2) else []) := by
  induction l generalizing s with
  | nil =>
    simp [Hiku.runCallbacks] at ha; subst ha
    exact ⟨h, ⟨[], by simp⟩, by simp⟩
  | cons c r ih =>
    obtain ⟨o1, c⟩ := c
    have : o1 = o := hl (o1, c) (by simp)
    subst this
    simp only [Hiku.runCallbacks, bind_ok_iff] at ha
    obtain ⟨s1, h1, h2⟩ := ha
    obtain ⟨g1, g2, g3⟩ := h.run hm h1
    obtain ⟨i1, i2, i3⟩ := ih (fun c hc => hl c (by simp [hc])) g1 (hm.mono g2) h2
    refine ⟨i1, g2.trans i2, ?_⟩
    intro o'
    rw [i3, g3]
    by_cases e : o' = o1 <;> simp [e]

theorem only_nil (o : Obj) : (only o [] : Obj → List κ) = fun _ => [] := by
  funext o'; simp [only]

/-- the callbacks of `o` are run, all of them, in the order of registration -/
theorem HAll.fire {B : List Nat} {o : Obj} (h : HAll prog (fun _ => []) B s) (hm : MayRun prog B o s)
    (ha : fireCallbacks (clientLens κ) prog.run o s = .ok s') :
    HAll prog (fun _ => []) B s' ∧ Extends s s' ∧ ranOn o s'.trace = registeredOn o s.trace := by
  simp only [fireCallbacks, clientLens] at ha
  have h1 : HAll prog (only o ((s.q.cbs o).map (·.2))) B { s with q := (s.q.popCallbacks o).2 } := by
    refine ⟨⟨h.h.inv.pop o, ?_, ?_, h.h.sub, h.h.forks, h.h.fbound, h.h.sbound⟩, h.fut, h.ts, h.comp⟩
    · intro o' c hc
      have hc' : c ∈ (s.q.popCallbacks o).2.cbs o' := hc
      rw [Queue.cbs_pop] at hc'
      split at hc'
      · simp at hc'
      · exact h.h.own o' c hc'
    · intro o'
      show registeredOn o' s.trace = ranOn o' s.trace ++ _ ++ ((s.q.popCallbacks o).2.cbs o').map (·.2)
      rw [Queue.cbs_pop, h.h.order o']
      by_cases e : o = o'
      · subst e; simp [only]
      · simp [only, e, Ne.symm e]
  obtain ⟨i1, i2, i3⟩ := h1.runCallbacks (fun c hc => h.h.own o c hc) hm ha
  rw [only_nil] at i1
  refine ⟨i1, i2, ?_⟩
  have := i3 o
  simp only [if_true] at this
  rw [this, h.h.order o]; simp

theorem HAll.fireFutures {done : List Nat} (h : HAll prog (fun _ => []) [] s)
    (hm : ∀ f ∈ done, Reported s.trace f)
    (ha : Hiku.fireFutures (clientLens κ) prog.run done s = .ok s') :
    HAll prog (fun _ => []) [] s' ∧ Extends s s' ∧
      ∀ f ∈ done, registeredOn (.fut f) s.trace <+: ranOn (.fut f) s'.trace := by
  induction done generalizing s with
  | nil =>
    simp [Hiku.fireFutures] at ha; subst ha
    exact ⟨h, ⟨[], by simp⟩, by simp⟩
  | cons f r ih =>
    simp only [Hiku.fireFutures, bind_ok_iff] at ha
    obtain ⟨s1, h1, h2⟩ := ha
    obtain ⟨g1, g2, g3⟩ := h.fire (o := .fut f) (hm f (by simp)) h1
    obtain ⟨i1, i2, i3⟩ := ih g1 (fun x hx => by
      obtain ⟨l, hl⟩ := g2; rw [hl]; exact (hm x (by simp [hx])).mono) h2
    refine ⟨i1, g2.trans i2, ?_⟩
    intro x hx
    rcases List.mem_cons.1 hx with rfl | hx
    · rw [← g3]; exact i2.ranOn _
    · exact (g2.registeredOn _).trans (i3 x hx)

theorem HAll.removeTs {t : Nat} {r : List Nat} (hnd : t ∉ r) (h : HAll prog (fun _ => []) (t :: r) s) :
    HAll prog (fun _ => []) r { s with q := s.q.removeTs t } := by
  refine ⟨⟨h.h.inv.removeTs t, h.h.own, h.h.order, ?_, ?_, h.h.fbound, h.h.sbound⟩, h.fut, h.ts, ?_⟩
  · intro hd x f hm
    obtain ⟨g1, g2⟩ := h.h.sub hd x f hm
    refine ⟨g1, ?_⟩
    rcases g2 with g2 | ⟨fs, g2, g3⟩
    · exact .inl g2
    · refine .inr ⟨fs, ?_, g3⟩
      show dget (s.q.removeTs t).futures x = _
      rw [Queue.dget_futures_removeTs, if_neg]; exact g2
      rintro rfl
      rw [(h.comp hd t (by simp)).1] at g2; cases g2; simp at g3
  · intro hd p x hm
    show dget (s.q.removeTs t).futures x = _ ∨ ∃ ts, dget (s.q.removeTs t).forks p = some ts ∧ x ∈ ts
    rw [Queue.dget_futures_removeTs, Queue.dget_forks_removeTs]
    by_cases e : t = x
    · left; rw [if_pos e]
    · rw [if_neg e]
      rcases h.h.forks hd p x hm with g | ⟨ts, g1, g2⟩
      · exact .inl g
      · right
        have hp : t ≠ p := by
          rintro rfl
          rw [(h.comp hd t (by simp)).2] at g1; cases g1; simp at g2
        rw [if_neg hp, g1]
        exact ⟨_, rfl, by simp [g2, Ne.symm e]⟩
  · intro hd x hx
    obtain ⟨g1, g2⟩ := h.comp hd x (by simp [hx])
    have hne : t ≠ x := fun e => hnd (e ▸ hx)
    refine ⟨?_, ?_⟩
    · show dget (s.q.removeTs t).futures x = _
      rw [Queue.dget_futures_removeTs, if_neg hne]; exact g1
    · show dget (s.q.removeTs t).forks x = _
      rw [Queue.dget_forks_removeTs, if_neg hne, g2]; rfl

theorem HAll.fireTaskSets {l : List Nat} (hnd : l.Nodup) (h : HAll prog (fun _ => []) l s)
    (ha : Hiku.fireTaskSets (clientLens κ) prog.run l s = .ok s') :
    HAll prog (fun _ => []) [] s' ∧ Extends s s' ∧
      ∀ t ∈ l, registeredOn (.ts t) s.trace <+: ranOn (.ts t) s'.trace := by
  induction l generalizing s with
  | nil =>
    simp [Hiku.fireTaskSets] at ha; subst ha
    exact ⟨h, ⟨[], by simp⟩, by simp⟩
  | cons t r ih =>
    simp only [Hiku.fireTaskSets, bind_ok_iff] at ha
    obtain ⟨s1, h1, h2⟩ := ha
    rw [List.nodup_cons] at hnd
    obtain ⟨g1, g2, g3⟩ := h.fire (o := .ts t) (fun _ => by simp) h1
    have g4 := g1.removeTs hnd.1
    obtain ⟨i1, i2, i3⟩ := ih hnd.2 g4 h2
    refine ⟨i1, g2.trans i2, ?_⟩
    intro x hx
    rcases List.mem_cons.1 hx with rfl | hx
    · rw [← g3]; exact i2.ranOn _
    · exact (g2.registeredOn _).trans (i3 x hx)

theorem HAll.drains {res : Except Err (QState κ)} (h : HAll prog (fun _ => []) [] s)
    (hd : Drains (clientLens κ) prog.run s res) (hr : res = .ok s') :
    HAll prog (fun _ => []) [] s' ∧ Extends s s' ∧ s'.q.completed = [] := by
  induction hd with
  | stop hc => cases hr; exact ⟨h, ⟨[], by simp⟩, hc⟩
  | fail => simp at hr
  | @next s s1 r hc hf _ ih =>
    have h1 : HAll prog (fun _ => []) s.q.completed s :=
      ⟨h.h, h.fut, h.ts, fun _ t ht => (Queue.mem_completed h.h.inv).1 ht⟩
    have hnd : s.q.completed.Nodup := List.Nodup.sublist (List.Sublist.map _ List.filter_sublist) h.h.inv.nd
    obtain ⟨g1, g2, _⟩ := h1.fireTaskSets hnd hf
    obtain ⟨i1, i2, i3⟩ := ih g1 hr
    exact ⟨i1, g2.trans i2, i3⟩

theorem HAll.progresses {done : List Nat} (h : HAll prog (fun _ => []) [] s)
    (hp : Progresses (clientLens κ) prog.run done { s with trace := s.trace ++ [.reported done] } (.ok s')) :
    HAll prog (fun _ => []) [] s' ∧ Extends s s' ∧ s'.q.completed = [] ∧
      ∀ f ∈ done, registeredOn (.fut f) s.trace <+: ranOn (.fut f) s'.trace := by
  have h1 : HAll prog (fun _ => []) []
      { s with trace := s.trace ++ [.reported done], q := s.q.dropDone done } := by
    refine ⟨⟨h.h.inv.dropDone done, h.h.own, ?_, ?_, ?_, ?_, ?_⟩, ?_, ?_, by simp⟩
    · intro o
      show registeredOn o (s.trace ++ [QEv.reported done]) = ranOn o (s.trace ++ [QEv.reported done]) ++
        [] ++ (s.q.cbs o).map (·.2)
      rw [registeredOn_append, ranOn_append, h.h.order o]
      simp [registeredOn, ranOn]
    · intro hd t f hm
      simp at hm
      obtain ⟨g1, g2⟩ := h.h.sub hd t f hm
      refine ⟨g1, ?_⟩
      rcases g2 with g2 | ⟨fs, g2, g3⟩
      · exact .inl g2.mono
      · by_cases hf : f ∈ done
        · exact .inl ⟨done, by simp, hf⟩
        · refine .inr ⟨fs.filter fun f => f ∉ done, ?_, by simp [g3, hf]⟩
          show dget (s.q.dropDone done).futures t = _
          rw [Queue.dget_dropDone, g2]; rfl
    · intro hd p t hm
      simp at hm
      show dget (s.q.dropDone done).futures t = none ∨ _
      rw [Queue.dget_dropDone]
      rcases h.h.forks hd p t hm with g | g
      · left; simp [g]
      · exact .inr g
    · intro p t hm; simp at hm; exact h.h.fbound p t hm
    · intro p t hm; simp at hm; exact h.h.sbound p t hm
    · exact futOK_snoc h.fut (by simp)
    · exact fun hd => tsOK_snoc (h.ts hd) (by simp)
  cases hp with
  | ok hf hdr =>
    obtain ⟨g1, g2, g3⟩ := h1.fireFutures (done := done) (fun f hf => ⟨done, by simp, hf⟩) hf
    obtain ⟨i1, i2, i3⟩ := g1.drains hdr rfl
    refine ⟨i1, Extends.trans ⟨[.reported done], rfl⟩ (g2.trans i2), i3, ?_⟩
    intro f hf
    have e : Extends s { s with trace := s.trace ++ [.reported done], q := s.q.dropDone done } :=
      ⟨[.reported done], rfl⟩
    exact ((e.registeredOn _).trans (g3 f hf)).trans (i2.ranOn _)

theorem hall_init : HAll prog (fun _ => []) [] ({} : QState κ) := by
  refine ⟨⟨⟨by simp, by simp, by simp, by simp, by simp, by simp⟩, by simp [Queue.cbs], ?_, by simp, by simp,
    by simp, by simp⟩, ?_, ?_, by simp⟩
  · intro o; simp [registeredOn, ranOn, Queue.cbs]
  · intro l1 f c l2 h; simp at h
  · intro _ l1 f c l2 h; simp at h

theorem history_hall (h : History prog s) : HAll prog (fun _ => []) [] s := by
  induction h with
  | init => exact hall_init
  | op op _ ha ih =>
    obtain ⟨g1, g2, ⟨e, g3, g3'⟩, g4, _⟩ := ih.h.apply ha
    refine ⟨g1, ?_, ?_, by simp⟩
    · rw [g3]; exact futOK_snoc ih.fut fun f c he => absurd he (g3' _ _)
    · intro hd
      rw [g3]; exact tsOK_snoc (ih.ts hd) fun f c he => absurd he (g3' _ _)
  | progress done _ hp ih => exact (ih.progresses hp).1

/-! ### C16 -/

/-- C16: at any time, for every object (task or task set) the callbacks which were run are, in order,
the callbacks which were registered, except for those still stored in the queue: every callback runs
at most once, in registration order, and is never lost. -/
theorem c16_order (h : History prog s) (o : Obj) :
    registeredOn o s.trace = ranOn o s.trace ++ (s.q.cbs o).map (·.2) := by
  have := (history_hall h).h.order o
  simpa using this

/-- C16: a callback of a task runs only after the task was reported as finished. -/
theorem c16_after_report (h : History prog s) {l1 l2 : List (QEv κ)} {f : Nat} {c : κ}
    (he : s.trace = l1 ++ .ran (.fut f) c :: l2) : ∃ done, QEv.reported done ∈ l1 ∧ f ∈ done :=
  (history_hall h).fut l1 f c l2 he

/-- C16: when `progress(done)` returns, all callbacks which were registered for the finished tasks
before it was called have been run. -/
theorem c16_run (h : History prog s) {done : List Nat}
    (hp : Progresses (clientLens κ) prog.run done { s with trace := s.trace ++ [.reported done] } (.ok s'))
    {f : Nat} (hf : f ∈ done) : registeredOn (.fut f) s.trace <+: ranOn (.fut f) s'.trace :=
  ((history_hall h).progresses hp).2.2.2 f hf

/-! ### C17 -/

/-- C17: when a callback of a task set runs, every task submitted so far to it or to a task set
forked from it, directly or not, has been reported as finished -- for programs whose callbacks do not
submit to completed task sets (see `c17_counterexample`). -/
theorem c17_complete_partial (hd : Disciplined prog) (h : History prog s) {l1 l2 : List (QEv κ)} {t : Nat} {c : κ}
    (he : s.trace = l1 ++ .ran (.ts t) c :: l2) {d f : Nat} (hdes : Descendant l1 t d)
    (hs : QEv.submitted d f ∈ l1) : ∃ done, QEv.reported done ∈ l1 ∧ f ∈ done :=
  (history_hall h).ts hd l1 t c l2 he d f hdes hs

/-- C17: when `progress` returns, every task set left in the queue still waits for a task or for a
forked task set; so a task set without any is never left with its callbacks. -/
theorem c17_fires (h : History prog s) {done : List Nat}
    (hp : Progresses (clientLens κ) prog.run done { s with trace := s.trace ++ [.reported done] } (.ok s'))
    {t : Nat} {fs ts : List Nat} (h1 : dget s'.q.futures t = some fs) (h2 : dget s'.q.forks t = some ts) :
    fs ≠ [] ∨ ts ≠ [] := by
  obtain ⟨g1, _, g3, _⟩ := (history_hall h).progresses hp
  by_cases e1 : fs = []
  · by_cases e2 : ts = []
    · subst e1; subst e2
      have := (Queue.mem_completed g1.h.inv).2 ⟨h1, h2⟩
      rw [g3] at this; simp at this
    · exact .inr e2
  · exact .inl e1

end Claims

/-! ### Examples -/

/-- the bounded loop, when it ends within its bound, is a run of the unbounded one -/
theorem drains_of_drain {σ κ : Type} {L : QLens σ κ} {run : κ → σ → Except Err σ} {fuel : Nat} {s s' : σ}
    (h : drain L run fuel s = .ok s') : Drains L run s (.ok s') := by
  induction fuel generalizing s with
  | zero => simp [drain] at h
  | succ n ih =>
    unfold drain at h
    split at h
    · rename_i hc; simp at h; subst h; exact .stop hc
    · rename_i t r hc
      simp only [bind_ok_iff] at h
      obtain ⟨s1, h1, h2⟩ := h
      exact .next (by rw [hc]; simp) (by rw [hc]; exact h1) (ih h2)

theorem progresses_of_progress {σ κ : Type} {L : QLens σ κ} {run : κ → σ → Except Err σ} {fuel : Nat}
    {done : List Nat} {s s' : σ} (h : progress L run fuel done s = .ok s') :
    Progresses L run done s (.ok s') := by
  simp only [progress, bind_ok_iff] at h
  obtain ⟨s1, h1, h2⟩ := h
  exact .ok h1 (drains_of_drain h2)

namespace QueueExample

/-- callback 0 submits a task to task set 1, and registers callback 1 on it; others do nothing -/
def badProg : Prog Nat := fun c _ => if c = 0 then [.submit 1, .addCallback (.fut 2) 1] else []

/-- two task sets with a task each and callbacks on the sets and on the task of set 0 -/
def ops : List (QOp Nat) :=
  [.fork none, .fork none, .submit 0, .submit 1, .addCallback (.ts 0) 0, .addCallback (.ts 1) 2]

theorem applyAll_history {κ : Type} {prog : Prog κ} {s s' : QState κ} {ops : List (QOp κ)}
    (h : History prog s) (ha : QOp.applyAll s ops = .ok s') : History prog s' := by
  induction ops generalizing s with
  | nil => simp [QOp.applyAll] at ha; subst ha; exact h
  | cons op r ih =>
    simp only [QOp.applyAll, bind_ok_iff] at ha
    obtain ⟨s1, h1, h2⟩ := ha
    exact ih (.op op h h1) h2

def st (ops : List (QOp Nat)) : QState Nat :=
  match QOp.applyAll {} ops with | .ok s => s | .error _ => {}

/-- the state after the operations and `progress(done)` -/
def after (prog : Prog Nat) (s : QState Nat) (done : List Nat) : QState Nat :=
  match Hiku.progress (clientLens Nat) prog.run 10 done
    { s with trace := s.trace ++ [.reported done] } with | .ok s => s | .error _ => {}

/-- callback 0 forks a task set from set 1 and submits a task to the new one, if 1 waits for something -/
def goodProg : Prog Nat := fun c s =>
  if c = 0 ∧ 1 ∉ s.q.completed then [.fork (some 1), .submit s.q.nextTs] else []

/-- the hypothesis of `c17_complete_partial` is met by a program whose callbacks fork and submit -/
example : Disciplined goodProg := by
  intro c s op hop t ht
  by_cases h : c = 0 ∧ 1 ∉ s.q.completed
  · simp only [goodProg, if_pos h, List.mem_cons, List.not_mem_nil, or_false] at hop
    rcases hop with rfl | rfl
    · simp at ht; subst ht; exact .inl h.2
    · simp at ht; subst ht; exact .inr (Nat.le_refl _)
  · simp only [goodProg, if_neg h, List.not_mem_nil] at hop

/-- a history in which callback 0 of the first task forks from set 1 (set 2 with task 2), and callback
2 of set 1 runs only in the second round, after the report of tasks 1 and 2 -/
example : ∃ s, History goodProg s ∧ s.trace =
    [.forked none 0, .forked none 1, .submitted 0 0, .submitted 1 1, .registered (.fut 0) 0,
     .registered (.ts 1) 2, .reported [0], .ran (.fut 0) 0, .forked (some 1) 2, .submitted 2 2,
     .reported [1], .reported [2], .ran (.ts 1) 2] := by
  let s0 := st [.fork none, .fork none, .submit 0, .submit 1, .addCallback (.fut 0) 0,
    .addCallback (.ts 1) 2]
  have h0 : History goodProg s0 := applyAll_history .init (ops := [.fork none, .fork none, .submit 0,
    .submit 1, .addCallback (.fut 0) 0, .addCallback (.ts 1) 2]) rfl
  let tr1 : List (QEv Nat) := [.forked none 0, .forked none 1, .submitted 0 0, .submitted 1 1,
    .registered (.fut 0) 0, .registered (.ts 1) 2, .reported [0], .ran (.fut 0) 0, .forked (some 1) 2,
    .submitted 2 2]
  let s1 : QState Nat := ⟨⟨[(1, [1]), (2, [2])], [(1, [2]), (2, [])], [(.ts 1, [(.ts 1, 2)])], 3⟩, 3, tr1⟩
  have h1 : History goodProg s1 :=
    .progress [0] h0 (progresses_of_progress (fuel := 10) rfl)
  let s2 : QState Nat := ⟨⟨[(1, []), (2, [2])], [(1, [2]), (2, [])], [(.ts 1, [(.ts 1, 2)])], 3⟩, 3,
    tr1 ++ [.reported [1]]⟩
  have h2 : History goodProg s2 := .progress [1] h1 (progresses_of_progress (fuel := 10) rfl)
  let s3 : QState Nat := ⟨⟨[], [], [], 3⟩, 3,
    tr1 ++ [.reported [1], .reported [2], .ran (.ts 1) 2]⟩
  have h3 : History goodProg s3 :=
    .progress [2] h2 (progresses_of_progress (fuel := 10) rfl)
  exact ⟨s3, h3, rfl⟩

end QueueExample

open QueueExample in
/-- Finding 21: without the hypothesis of `c17_complete_partial` the claim fails.  Task sets 0 and 1 complete
in the same `progress` call, the callback of 0 submits a new task (number 2) to 1, and then the
callback of 1 runs although task 2 was never reported as finished. -/
theorem c17_counterexample :
    ∃ s : QState Nat, History badProg s ∧ ∃ l1 l2, s.trace = l1 ++ .ran (.ts 1) 2 :: l2 ∧
      QEv.submitted 1 2 ∈ l1 ∧ ¬ ∃ done, QEv.reported done ∈ s.trace ∧ 2 ∈ done := by
  let s0 := st ops
  have h0 : History badProg s0 := applyAll_history .init (ops := ops) rfl
  let s1 := after badProg s0 [0, 1]
  have h1 : History badProg s1 :=
    .progress [0, 1] h0 (progresses_of_progress (fuel := 10) rfl)
  have ht : s1.trace = [.forked none 0, .forked none 1, .submitted 0 0, .submitted 1 1,
      .registered (.ts 0) 0, .registered (.ts 1) 2, .reported [0, 1], .ran (.ts 0) 0,
      .submitted 1 2, .registered (.fut 2) 1, .ran (.ts 1) 2] := rfl
  refine ⟨s1, h1, [.forked none 0, .forked none 1, .submitted 0 0, .submitted 1 1,
      .registered (.ts 0) 0, .registered (.ts 1) 2, .reported [0, 1], .ran (.ts 0) 0,
      .submitted 1 2, .registered (.fut 2) 1], [], ht, by simp, ?_⟩
  rintro ⟨done, h, h2⟩
  rw [ht] at h
  simp at h; subst h; simp at h2

end Hiku
