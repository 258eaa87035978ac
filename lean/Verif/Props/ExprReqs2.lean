import Verif.Props.ExprReqs

/-! C38 and C39: the theorems -/

namespace Hiku.Expr

/-! ## Requests of queries -/

mutual
/-- everything which the second node requests is requested by the first one -/
def Covers (q : QNode) : QNode → Prop
  | .mk items _ => CoversAll q items
def CoversAll (q : QNode) : List QItem → Prop
  | [] => True
  | i :: r => CoversItem q i ∧ CoversAll q r
def CoversItem (q : QNode) : QItem → Prop
  | .field n _ _ => ∃ o a, QItem.field n o a ∈ q.fields
  | .link n node _ _ => ∃ node' o a, QItem.link n node' o a ∈ q.fields ∧ Covers node' node
end

theorem coversAll_iff (q : QNode) : ∀ (items : List QItem), CoversAll q items ↔ ∀ i ∈ items, CoversItem q i
  | [] => by simp [CoversAll]
  | i :: r => by simp [CoversAll, coversAll_iff q r]

theorem covers_iff (q q' : QNode) : Covers q q' ↔ ∀ i ∈ q'.fields, CoversItem q i := by
  cases q' with
  | mk items o => rw [Covers, coversAll_iff]; rfl

theorem covers_sim {q q' : QNode} {f : String} {q1' : QNode} (h : Covers q q') (hr : Asks q' f q1') :
    ∃ q1, Asks q f q1 ∧ Covers q1 q1' := by
  rw [covers_iff] at h
  rcases hr with ⟨o, a, h1, rfl⟩ | ⟨o, a, h1⟩
  · have := h _ h1
    simp only [CoversItem] at this
    obtain ⟨o', a', h2⟩ := this
    exact ⟨_, .inl ⟨o', a', h2, rfl⟩, by simp [Covers, CoversAll]⟩
  · have := h _ h1
    simp only [CoversItem] at this
    obtain ⟨n', o', a', h2, h3⟩ := this
    exact ⟨n', .inr ⟨o', a', h2⟩, h3⟩

/-- a merged query requests everything which the queries request -/
theorem merge_covers (H : PyHash) (nodes : List QNode) : ∀ q ∈ nodes, Covers (merge H nodes) q := by
  induction nodes using merge_induction' H with
  | h nodes ih =>
  intro q hq
  rw [covers_iff]
  intro i hi
  have hmem : i ∈ nodes.flatMap QNode.fields := List.mem_flatMap.2 ⟨q, hq, hi⟩
  rw [merge_closed]
  cases i with
  | field n o a =>
    have h1 : QItem.field n o a ∈ fieldItems (nodes.flatMap QNode.fields) := mem_fieldItems.2 ⟨hmem, rfl⟩
    have h2 : itemKey H (.field n o a) ∈ (dedupBy (itemKey H) [] (fieldItems (nodes.flatMap QNode.fields))).map (itemKey H) := by
      rw [mem_keys_dedupBy]
      exact ⟨List.mem_map_of_mem h1, by simp⟩
    obtain ⟨j, h3, h4⟩ := List.mem_map.1 h2
    have h5 := (mem_fieldItems.1 (mem_of_mem_dedupBy _ h3)).2
    cases j with
    | link => cases h5
    | field n' o' a' =>
      rw [itemKey_eq, itemKey_eq] at h4
      have : n' = n := (Prod.mk.inj h4).1
      subst this
      exact ⟨o', a', List.mem_append_left _ h3⟩
  | link n node o a =>
    have h1 : QItem.link n node o a ∈ linkItems (nodes.flatMap QNode.fields) := mem_linkItems.2 ⟨hmem, rfl⟩
    have h2 : itemKey H (.link n node o a) ∈ (dedupBy (itemKey H) [] (linkItems (nodes.flatMap QNode.fields))).map (itemKey H) := by
      rw [mem_keys_dedupBy]
      exact ⟨List.mem_map_of_mem h1, by simp⟩
    obtain ⟨j, h3, h4⟩ := List.mem_map.1 h2
    have h6 := mem_of_mem_dedupBy _ h3
    have h5 := (mem_linkItems.1 h6).2
    cases j with
    | field => cases h5
    | link n' node' o' a' =>
      have hn : n' = n := by rw [itemKey_eq, itemKey_eq] at h4; exact (Prod.mk.inj h4).1
      refine ⟨merge H (nodesOf H (itemKey H (.link n' node' o' a')) (nodes.flatMap QNode.fields)), o', a',
        List.mem_append_right _ (List.mem_map.2 ⟨_, h3, ?_⟩), ?_⟩
      · subst hn; rfl
      · refine ih _ h6 node ?_
        rw [mem_nodesOf]
        exact ⟨n, o, a, hmem, by rw [h4]; rfl⟩

theorem covers_nil (q : QNode) (b : Bool) : Covers q (.mk [] b) := by simp [Covers, CoversAll]

theorem covers_link {q node : QNode} {n : String} {add : Option QNode}
    (hn : node = add.getD (.mk [] false)) (h : Covers q (.mk [.link n node none none] false)) :
    ∃ q', Asks q n q' ∧ ∀ a, add = some a → Covers q' a := by
  simp only [Covers, CoversAll, CoversItem, and_true] at h
  obtain ⟨node', o, a, h1, h2⟩ := h
  refine ⟨node', .inr ⟨o, a, h1⟩, fun b hb => ?_⟩
  rw [hb] at hn
  simp only [Option.getD_some] at hn
  exact hn ▸ h2

theorem covers_field {q : QNode} {n : String}
    (h : Covers q (.mk [.field n none none] false)) : ∃ q', Asks q n q' := by
  simp only [Covers, CoversAll, CoversItem, and_true] at h
  obtain ⟨o, a, h1⟩ := h
  exact ⟨_, .inl ⟨o, a, h1, rfl⟩⟩

theorem reqStep_some {types : List (String × Ty)} {n : String} {ty : Ty} {add res : Option QNode}
    (h : reqStep types (some n) ty add = .ok res) :
    ∃ q0, res = some q0 ∧ ∀ q, Covers q q0 → ∃ q', Asks q n q' ∧ ∀ a, add = some a → Covers q' a := by
  unfold reqStep at h
  split at h
  · cases h
    exact ⟨_, rfl, fun q hq => covers_link rfl hq⟩
  · obtain ⟨it, _, h⟩ := bind_ok_iff.1 h
    split at h
    · cases h
      exact ⟨_, rfl, fun q hq => covers_link rfl hq⟩
    · split at h
      · cases h
      · cases add with
        | none =>
          cases h
          refine ⟨_, rfl, fun q hq => ?_⟩
          obtain ⟨q', h'⟩ := covers_field hq
          exact ⟨q', h', fun a ha => by cases ha⟩
        | some => cases h
  · split at h
    · cases h
    · cases add with
      | none =>
        cases h
        refine ⟨_, rfl, fun q hq => ?_⟩
        obtain ⟨q', h'⟩ := covers_field hq
        exact ⟨q', h', fun a ha => by cases ha⟩
      | some => cases h

theorem reqStep_none {types : List (String × Ty)} {ty : Ty} {add res : Option QNode}
    (h : reqStep types none ty add = .ok res) : res = add := by
  unfold reqStep at h
  split at h
  · cases h; rfl
  · obtain ⟨it, _, h⟩ := bind_ok_iff.1 h
    split at h
    · cases h
    · split at h <;> cases h
  · split at h
    · cases h
    · cases add with
      | none => cases h; rfl
      | some => cases h

/-- the requirement of a reference reaches it -/
theorem refToReq_reaches {types : List (String × Ty)} {top : QNode} : ∀ (r : Ref) (add : Option QNode) (req : QNode),
    refToReq types r add = .ok req → Covers top req → ∃ q, At Asks top r q ∧ ∀ a, add = some a → Covers q a
  | .root x t, add, req, h, hc => by
      simp only [refToReq] at h
      obtain ⟨ty, _, h⟩ := bind_ok_iff.1 h
      obtain ⟨res, h2, h⟩ := bind_ok_iff.1 h
      obtain ⟨q0, rfl, h3⟩ := reqStep_some h2
      cases h
      exact h3 top hc
  | .named b f t, add, req, h, hc => by
      simp only [refToReq] at h
      obtain ⟨ty, _, h⟩ := bind_ok_iff.1 h
      obtain ⟨res, h2, h⟩ := bind_ok_iff.1 h
      obtain ⟨q0, rfl, h3⟩ := reqStep_some h2
      obtain ⟨q, h4, h5⟩ := refToReq_reaches b _ req h hc
      obtain ⟨q', h6, h7⟩ := h3 q (h5 _ rfl)
      exact ⟨q', ⟨q, h4, h6⟩, h7⟩
  | .ref b t, add, req, h, hc => by
      simp only [refToReq] at h
      obtain ⟨ty, _, h⟩ := bind_ok_iff.1 h
      obtain ⟨res, h2, h⟩ := bind_ok_iff.1 h
      cases reqStep_none h2
      exact refToReq_reaches b _ req h hc

/-- what functions need from an argument -/
def needOf (t : Ty) : QNode := (typeToQuery t).getD (.mk [] false)

theorem ownReqs_reaches {types : List (String × Ty)} {top : QNode} {r : Option Ref} {reqs : List QNode}
    (h : ownReqs types r = .ok reqs) (hc : ∀ q ∈ reqs, Covers top q) : ∀ r', r = some r' → Reached Asks top r' := by
  rintro r' rfl
  simp only [ownReqs] at h
  obtain ⟨q, h1, h⟩ := bind_ok_iff.1 h
  cases h
  obtain ⟨q', h2, _⟩ := refToReq_reaches r' _ q h1 (hc q (by simp))
  exact ⟨q', h2⟩

/-- the requirements of the checked expression cover it -/
def Covd (types : List (String × Ty)) (top : QNode) (e e' : Ex) : Prop :=
  Raw e = true →
    (∀ reqs, reqsOf types e' = .ok reqs → (∀ q ∈ reqs, Covers top q) → Cov Asks Covers needOf top e') ∧
    ∀ r, e'.ref = some r → Reached Asks top r → Cov Asks Covers needOf top e'

theorem covAll_of {types : List (String × Ty)} {top : QNode} {es es' : List Ex} (h : List.Forall₂ (Covd types top) es es')
    (hr : RawAll es = true) {reqs : List QNode} (hq : reqsAll types es' = .ok reqs) (hc : ∀ q ∈ reqs, Covers top q) :
    CovAll Asks Covers needOf top es' := by
  induction h generalizing reqs with
  | nil => simp [CovAll]
  | cons h1 _ ih =>
    simp only [RawAll, Bool.and_eq_true] at hr
    simp only [reqsAll] at hq
    obtain ⟨a, ha, hq⟩ := bind_ok_iff.1 hq
    obtain ⟨b, hb, hq⟩ := bind_ok_iff.1 hq
    cases hq
    simp only [CovAll]
    exact ⟨(h1 hr.1).1 a ha fun q hq => hc q (List.mem_append_left _ hq),
      ih hr.2 hb fun q hq => hc q (List.mem_append_right _ hq)⟩

theorem cov_reached {top : QNode} {e : Ex} {r : Ref} (h : Cov Asks Covers needOf top e) (hr : e.ref = some r)
    (hne : ∀ r, e ≠ .tup [] r) : Reached Asks top r := by
  cases e with
  | sym n r' =>
    simp only [Cov] at h
    exact h r hr
  | tup xs r' =>
    cases xs with
    | nil => exact absurd rfl (hne r')
    | cons x xs =>
      cases x <;> (simp only [Cov] at h; exact h.1 r hr)
  | _ => cases hr

theorem Chk.ne_nil {types : List (String × Ty)} {env : List (String × Ref)} {e e' : Ex} (h : Chk types env e e') :
    ∀ r, e' ≠ .tup [] r := by
  cases h <;> (intro r h; cases h)

theorem covArgs_of {types : List (String × Ty)} {top : QNode} {es es' : List Ex}
    (h : List.Forall₂ (fun e e' => Covd types top e e' ∧ ∀ r, e' ≠ .tup [] r) es es')
    (hr : RawAll es = true) {ats : List Ty} {reqs : List QNode} (hq : reqsArgs types ats es' = .ok reqs)
    (hc : ∀ q ∈ reqs, Covers top q) : CovArgs Asks Covers needOf top ats es' := by
  induction h generalizing reqs ats with
  | nil => cases ats <;> simp [CovArgs]
  | @cons e e' _ _ h1 _ ih =>
    cases ats with
    | nil => simp [CovArgs]
    | cons t ats =>
      simp only [RawAll, Bool.and_eq_true] at hr
      simp only [reqsArgs] at hq
      simp only [CovArgs]
      cases ht : typeToQuery t with
      | none =>
        rw [ht] at hq
        dsimp only at hq
        obtain ⟨a, ha, hq⟩ := bind_ok_iff.1 hq
        obtain ⟨b, hb, hq⟩ := bind_ok_iff.1 hq
        cases hq
        refine ⟨?_, ih hr.2 hb fun q hq => hc q (List.mem_append_right _ hq)⟩
        have hcov := (h1.1 hr.1).1 a ha fun q hq => hc q (List.mem_append_left _ hq)
        refine ⟨hcov, fun r hr' => ?_⟩
        obtain ⟨q, hq⟩ := cov_reached hcov hr' h1.2
        exact ⟨q, hq, by unfold needOf; rw [ht]; exact covers_nil _ _⟩
      | some qt =>
        rw [ht] at hq
        dsimp only at hq
        cases hr' : e'.ref with
        | none => rw [hr'] at hq; cases hq
        | some r =>
          rw [hr'] at hq
          obtain ⟨q, h2, hq⟩ := bind_ok_iff.1 hq
          rw [ok_bind'] at hq
          obtain ⟨b, hb, hq⟩ := bind_ok_iff.1 hq
          cases hq
          obtain ⟨q', h3, h4⟩ := refToReq_reaches r _ q h2 (hc q (by simp))
          refine ⟨⟨(h1.1 hr.1).2 r hr' ⟨q', h3⟩, fun r' h5 => ?_⟩,
            ih hr.2 hb fun q hq => hc q (List.mem_append_right _ hq)⟩
          cases h5
          exact ⟨q', h3, by unfold needOf; rw [ht]; exact h4 _ rfl⟩

theorem covd_of_none {types : List (String × Ty)} {top : QNode} {e e' : Ex} (hn : e'.ref = none)
    (h : Raw e = true → ∀ reqs, reqsOf types e' = .ok reqs → (∀ q ∈ reqs, Covers top q) → Cov Asks Covers needOf top e') :
    Covd types top e e' :=
  fun hr => ⟨h hr, fun r hr' => by rw [hn] at hr'; cases hr'⟩

theorem forall2_mono {α β : Type} {P S : α → β → Prop} {l : List α} {r : List β} (h : List.Forall₂ P l r)
    (hi : ∀ a b, P a b → S a b) : List.Forall₂ S l r := by
  induction h with
  | nil => exact .nil
  | cons h _ ih => exact .cons (hi _ _ h) ih

theorem reqsOf_tup {types : List (String × Ty)} {h : Ex} {args : List Ex} {r : Option Ref} {reqs : List QNode}
    (hn : h.ref = none) (hq : reqsOf types (.tup (h :: args) r) = .ok reqs) :
    ∃ own rest, ownReqs types r = .ok own ∧ reqsAll types args = .ok rest ∧ reqs = own ++ rest := by
  unfold reqsOf at hq
  obtain ⟨own, h1, hq⟩ := bind_ok_iff.1 hq
  dsimp only at hq
  rw [hn] at hq
  obtain ⟨rest, h2, hq⟩ := bind_ok_iff.1 hq
  exact ⟨own, rest, h1, h2, (Except.ok.inj hq).symm⟩

mutual
theorem Chk.covd {types : List (String × Ty)} {top : QNode} {env : List (String × Ref)} {e e' : Ex} :
    Chk types env e e' → Covd types top e e' ∧ ∀ r, e' ≠ .tup [] r
  | .sym _ n r0 r h => ⟨fun _ => ⟨fun reqs hq hc => by
      simp only [reqsOf] at hq
      simp only [Cov]
      exact ownReqs_reaches hq hc, fun r' hr h => by
      cases hr
      simp only [Cov]
      rintro _ ⟨⟩
      exact h⟩, fun r h => by cases h⟩
  | .kw _ _ => ⟨covd_of_none rfl fun _ _ _ _ => trivial, fun r h => by cases h⟩
  | .const _ v => ⟨covd_of_none rfl fun _ _ _ _ => trivial, fun r h => by cases h⟩
  | .list _ xs ys h => ⟨covd_of_none rfl fun hr reqs hq hc => by
      simp only [reqsOf] at hq
      simp only [Raw] at hr
      simp only [Cov]
      exact covAll_of (forall2_mono (ChkAll.covd h) fun _ _ h => h.1) hr hq hc, fun r h => by cases h⟩
  | .dict _ xs ys h => ⟨covd_of_none rfl fun hr reqs hq hc => by
      simp only [reqsOf] at hq
      simp only [Raw] at hr
      simp only [Cov]
      exact covAll_of (forall2_mono (ChkAll.covd h) fun _ _ h => h.1) hr hq hc, fun r h => by cases h⟩
  | .get _ h obj obj' f fr r0 r fs res h1 h2 h3 h4 h5 => ⟨fun hr => by
      have ih := (Chk.covd (top := top) h2).1
      simp only [Raw, RawAll, Bool.and_eq_true, Bool.and_true, Option.isNone_iff_eq_none] at hr
      obtain ⟨_, hh, hraw, rfl⟩ := hr
      have ih := ih hraw
      have hcov : ∀ {c}, (∀ r', some (Ref.named r f res) = some r' → Reached Asks top r') → Cov Asks Covers needOf top obj' →
          c = obj' → Cov Asks Covers needOf top (.tup [h, obj', .sym f none] (some (.named r f res))) := by
        intro c hown hobj _
        cases h with
        | sym n hr0 =>
          simp only [Raw, Option.isNone_iff_eq_none] at hh
          subst hh
          simp only [Cov, CovAll]
          exact ⟨hown, hobj, fun r' hr' => (by cases hr'), trivial⟩
        | kw =>
          simp only [Cov, CovAll]
          exact ⟨hown, hobj, fun r' hr' => (by cases hr'), trivial⟩
        | _ => cases h1
      have hnone : h.ref = none := by
        cases h with
        | sym n hr0 =>
          simp only [Raw, Option.isNone_iff_eq_none] at hh
          exact hh
        | kw => rfl
        | _ => cases h1
      refine ⟨fun reqs hq hc => ?_, fun r' hr' hreach => ?_⟩
      · obtain ⟨own, rest, h6, h7, rfl⟩ := reqsOf_tup hnone hq
        refine hcov (ownReqs_reaches h6 fun q hq => hc q (List.mem_append_left _ hq)) ?_ rfl
        simp only [reqsAll] at h7
        obtain ⟨a, ha, h7⟩ := bind_ok_iff.1 h7
        obtain ⟨b, hb, h7⟩ := bind_ok_iff.1 h7
        cases h7
        exact ih.1 a ha fun q hq => hc q (List.mem_append_right _ (List.mem_append_left _ hq))
      · cases hr'
        refine hcov (fun r' hr' => by cases hr'; exact hreach) (ih.2 r h3 ?_) rfl
        obtain ⟨q, q', h8, _⟩ := hreach
        exact ⟨q', h8⟩, fun r h => by cases h⟩
  | .each _ h x xr col col' body body' r0 r it h1 h2 h3 h4 h5 => ⟨covd_of_none rfl fun hr reqs hq hc => by
      have ih1 := (Chk.covd (top := top) h2).1
      have ih2 := (Chk.covd (top := top) h5).1
      simp only [Raw, RawAll, Bool.and_eq_true] at hr
      obtain ⟨_, _, _, hraw1, hraw2, _⟩ := hr
      obtain ⟨own, rest, _, h7, rfl⟩ := reqsOf_tup rfl hq
      have hc : ∀ q ∈ rest, Covers top q := fun q hq => hc q (List.mem_append_right _ hq)
      simp only [reqsAll] at h7
      obtain ⟨a, ha, h7⟩ := bind_ok_iff.1 h7
      obtain ⟨b, hb, h7⟩ := bind_ok_iff.1 h7
      cases h7
      obtain ⟨c, hc1, hb⟩ := bind_ok_iff.1 hb
      obtain ⟨d, hd, hb⟩ := bind_ok_iff.1 hb
      cases hb
      obtain ⟨d1, hd1, hd⟩ := bind_ok_iff.1 hd
      obtain ⟨d2, hd2, hd⟩ := bind_ok_iff.1 hd
      cases hd2
      cases hd
      simp only [reqsOf] at ha
      simp only [List.append_nil, List.mem_append] at hc
      simp only [Cov, CovAll]
      exact ⟨fun r' hr' => (by cases hr'), ownReqs_reaches ha fun q hq => hc q (.inl hq),
        (ih1 hraw1).1 c hc1 fun q hq => hc q (.inr (.inl hq)),
        (ih2 hraw2).1 d1 hd1 fun q hq => hc q (.inr (.inr hq)), trivial⟩, fun r h => by cases h⟩
  | .ifSome _ h x xr e e' a a' b b' r0 r r' h1 h2 h3 h4 h5 h6 => ⟨covd_of_none rfl fun hr reqs hq hc => by
      have ih1 := (Chk.covd (top := top) h2).1
      have ih2 := (Chk.covd (top := top) h5).1
      have ih3 := (Chk.covd (top := top) h6).1
      simp only [Raw, RawAll, Bool.and_eq_true] at hr
      obtain ⟨_, _, ⟨_, hraw1, _⟩, hraw2, hraw3, _⟩ := hr
      obtain ⟨own, rest, _, h7, rfl⟩ := reqsOf_tup rfl hq
      have hc : ∀ q ∈ rest, Covers top q := fun q hq => hc q (List.mem_append_right _ hq)
      simp only [reqsAll] at h7
      obtain ⟨l, hl, h7⟩ := bind_ok_iff.1 h7
      obtain ⟨m, hm, h7⟩ := bind_ok_iff.1 h7
      cases h7
      obtain ⟨c, hc1, hm⟩ := bind_ok_iff.1 hm
      obtain ⟨d, hd, hm⟩ := bind_ok_iff.1 hm
      cases hm
      obtain ⟨d1, hd1, hd⟩ := bind_ok_iff.1 hd
      obtain ⟨d2, hd2, hd⟩ := bind_ok_iff.1 hd
      cases hd2
      cases hd
      simp only [reqsOf, reqsAll] at hl
      obtain ⟨l1, hl1, hl⟩ := bind_ok_iff.1 hl
      obtain ⟨l2, hl2, hl⟩ := bind_ok_iff.1 hl
      cases hl
      obtain ⟨l3, hl3, hl2⟩ := bind_ok_iff.1 hl2
      obtain ⟨l4, hl4, hl2⟩ := bind_ok_iff.1 hl2
      cases hl4
      cases hl2
      simp only [List.append_nil, List.mem_append] at hc
      simp only [Cov, CovAll]
      exact ⟨fun r' hr' => (by cases hr'), ⟨ownReqs_reaches hl1 fun q hq => hc q (.inl (.inl hq)),
        (ih1 hraw1).1 l3 hl3 fun q hq => hc q (.inl (.inr hq)), trivial⟩,
        (ih2 hraw2).1 c hc1 fun q hq => hc q (.inr (.inl hq)),
        (ih3 hraw3).1 d1 hd1 fun q hq => hc q (.inr (.inr hq)), trivial⟩, fun r h => by cases h⟩
  | .call _ f fr args args' r0 r ats h1 h2 h3 h4 h5 => ⟨covd_of_none rfl fun hr reqs hq hc => by
      have ih := ChkAll.covd (top := top) h4
      simp only [Raw, RawAll, Bool.and_eq_true] at hr
      obtain ⟨_, _, hraw⟩ := hr
      unfold reqsOf at hq
      obtain ⟨own, _, hq⟩ := bind_ok_iff.1 hq
      simp only [Ex.ref] at hq
      cases hto : r.to with
      | callable ats' =>
        rw [hto] at hq
        obtain ⟨rest, h8, hq⟩ := bind_ok_iff.1 hq
        cases hq
        simp only [Cov, hto]
        exact ⟨fun r' hr' => (by cases hr'), covArgs_of ih hraw h8 fun q hq => hc q (List.mem_append_right _ hq)⟩
      | _ => (rw [hto] at hq; cases hq), fun r h => by cases h⟩
theorem ChkAll.covd {types : List (String × Ty)} {top : QNode} {env : List (String × Ref)} {es es' : List Ex} :
    ChkAll types env es es' → List.Forall₂ (fun e e' => Covd types top e e' ∧ ∀ r, e' ≠ .tup [] r) es es'
  | .nil _ => .nil
  | .cons _ _ _ _ _ h h' => .cons (Chk.covd h) (ChkAll.covd h')
end

/-! ## C38 -/

mutual
theorem fieldsToQuery_asks : ∀ (fs : List (String × Ty)) (f : String) (t : Ty), (f, t) ∈ fs →
    ∃ o a, match typeToQuery t with
      | some q => QItem.link f q o a ∈ fieldsToQuery fs
      | none => QItem.field f o a ∈ fieldsToQuery fs
  | (n, t') :: r, f, t, h => by
      rcases List.mem_cons.1 h with h | h
      · cases h
        refine ⟨none, none, ?_⟩
        simp only [fieldsToQuery]
        cases typeToQuery t' <;> exact List.mem_cons_self
      · obtain ⟨o, a, h'⟩ := fieldsToQuery_asks r f t h
        refine ⟨o, a, ?_⟩
        simp only [fieldsToQuery]
        cases hq : typeToQuery t with
        | none => rw [hq] at h'; exact List.mem_cons_of_mem _ h'
        | some q => rw [hq] at h'; exact List.mem_cons_of_mem _ h'
end

theorem needOf_record {fs : List (String × Ty)} {f : String} {t : Ty} (h : dget fs f = some t) :
    Asks (needOf (.record fs)) f (needOf t) := by
  obtain ⟨o, a, h'⟩ := fieldsToQuery_asks fs f t (dget_mem h)
  have hr : needOf (.record fs) = .mk (fieldsToQuery fs) false := rfl
  rw [hr]
  unfold needOf
  cases hq : typeToQuery t with
  | none => rw [hq] at h'; exact .inl ⟨o, a, h', rfl⟩
  | some q => rw [hq] at h'; exact .inr ⟨o, a, h'⟩

/-- what is requested for an argument makes it as declared -/
theorem declared_of_supplies {types : List (String × Ty)} {D : PyDom (Except Err)} {B : Sem D.V} {t : Ty} {q : QNode} {v : D.V}
    (h : Supplies types D B Asks t q v) : q = needOf t → Declared D B t v := by
  induction h with
  | any => exact fun _ => .any _
  | scalar _ _ _ h1 h2 => exact fun _ => .scalar _ _ h1 h2
  | none _ _ _ h => exact fun _ => .none _ _ h
  | some _ _ _ _ ih => exact fun hq => .some _ _ (ih (by rw [hq]; rfl))
  | sequence _ _ _ xs h _ ih => exact fun hq => .sequence _ _ xs h fun x hx => ih x hx (by rw [hq]; rfl)
  | mapping => exact fun _ => .mapping _ _ _
  | record fs q v w h1 _ ih =>
    rintro rfl
    exact .record _ _ w (fun f t hf => h1 f t _ hf (needOf_record hf)) fun f t hf => ih f t _ hf (needOf_record hf) rfl
  | named => exact fun _ => .named _ _

theorem functions_of_declared {types : List (String × Ty)} {D : PyDom (Except Err)} {B : Sem D.V}
    (h : DeclaredFunctions D B) : Functions types D B Asks needOf :=
  fun ats f args hf ha => h ats f args hf (forall2_mono ha fun _ _ h => declared_of_supplies h rfl)

theorem dget_rootEnv (vars : List (String × Ty)) (x : String) :
    dget (rootEnv vars) x = (dget vars x).map (Ref.root x) := by
  unfold rootEnv
  induction vars with
  | nil => rfl
  | cons a vars ih =>
    obtain ⟨k, t⟩ := a
    simp only [List.map_cons, dget_cons]
    by_cases h : k = x
    · subst h; rw [if_pos rfl, if_pos rfl]; rfl
    · rw [if_neg h, if_neg h, ih]

theorem globals_envVal {types : List (String × Ty)} {D : PyDom (Except Err)} {B : Sem D.V} {Q : Type}
    {R : Q → String → Q → Prop} {top : Q} {vars : List (String × Ty)} {fns ctx : D.V} {ρ : List (String × D.V)}
    (hv : ∀ x t, dget vars x = some t → GoodVar t) (h : Globals types D B R top vars fns ctx ρ) :
    EnvVal types D B R top (rootEnv vars) fns ctx ρ := by
  intro x r hx
  rw [dget_rootEnv, Option.map_eq_some_iff] at hx
  obtain ⟨t, ht, rfl⟩ := hx
  refine ⟨hv x t ht, fun hr => ?_⟩
  have hg := h x t ht
  simp only [denote]
  cases hρ : dget ρ x with
  | some v =>
    rw [hρ] at hg
    refine ⟨v, rfl, hg.2, fun ats ha => ?_⟩
    simp only [Ref.to] at ha
    rw [ha] at hg
    cases hg.1
  | none =>
    rw [hρ] at hg
    by_cases hc : isCallable t = true
    · cases t with
      | callable ats =>
        obtain ⟨f, h1, h2⟩ := hg
        refine ⟨f, h1, fun q _ => .scalar _ _ _ rfl h2, fun ats' ha => ?_⟩
        simp only [Ref.to] at ha
        cases ha
        exact h2
      | _ => simp [isCallable] at hc
    · have hr : Reached R top (.root x t) := hr.resolve_right hc
      have hg : ∀ q', R top x q' → ∃ v, D.get ctx x = .ok v ∧ Supplies types D B R t q' v := by
        cases t with
        | callable => exact absurd rfl hc
        | _ => exact hg
      obtain ⟨q, hq⟩ := hr
      obtain ⟨v, h1, _⟩ := hg q hq
      refine ⟨v, ?_, fun q' hq' => ?_, fun ats ha => ?_⟩
      · show (if isCallable t = true then _ else _) = _
        rw [if_neg hc]; exact h1
      · obtain ⟨v', h2, h3⟩ := hg q' hq'
        rw [h1] at h2
        cases h2
        exact h3
      · simp only [Ref.to] at ha
        rw [ha] at hc
        exact absurd rfl hc

/-- C38.  Let `q` be the requirements of a checked expression.  With any data which is guaranteed to have only what `q`
requests, and functions which read from their arguments only what is declared, the expression has a value: it reads
nothing else.  (Functions can not rely on anything in arguments with named types: see `c38_typeref`.) -/
theorem c38_requirements_cover (H : PyHash) (types vars : List (String × Ty)) (lim : Nat) (e e' : Ex) (q : QNode) (t : Term)
    (hA : NoAlias types) (hT : NoFnTypes types) (hv : ∀ x t, dget vars x = some t → GoodVar t) (hraw : Raw e = true)
    (hcheck : check types lim (rootEnv vars) e = .ok e') (hreq : extract H types e' = .ok q) (hp : parse e' = some t)
    (D : PyDom (Except Err)) (B : Sem D.V) (fns ctx : D.V) (ρ : List (String × D.V))
    (hF : DeclaredFunctions D B) (htruthy : ∀ v, ∃ b, D.truthy v = .ok b)
    (hG : Globals types D B Asks q vars fns ctx ρ) :
    ∃ v, denote D fns ctx ρ t = .ok v := by
  have hc := check_chk hA hcheck
  unfold extract at hreq
  obtain ⟨reqs, h1, h2⟩ := bind_ok_iff.1 hreq
  cases h2
  have hcov := ((Chk.covd (top := merge H reqs) hc).1 hraw).1 reqs h1 (merge_covers H reqs)
  obtain ⟨v, h3, _⟩ := Chk.evals (le := Covers) hT (functions_of_declared hF) htruthy (fun h h' => covers_sim h h') hc
    hraw hcov t ρ hp (globals_envVal hv hG)
  exact ⟨v, h3⟩

/-- C38, for the compiled procedure -/
theorem c38_compiled_partial (H : PyHash) (types vars : List (String × Ty)) (lim : Nat) (e e' : Ex) (q : QNode) (t : Term)
    (params : List String)
    (hA : NoAlias types) (hT : NoFnTypes types) (hv : ∀ x t, dget vars x = some t → GoodVar t) (hraw : Raw e = true)
    (hcheck : check types lim (rootEnv vars) e = .ok e') (hreq : extract H types e' = .ok q) (hp : parse e' = some t)
    (hh : Hygienic params t) :
    ∃ p, compileLambda e' params = .ok p ∧
      ∀ (D : PyDom (Except Err)) (B : Sem D.V) (fns this ctx : D.V) (args : List (String × D.V)),
        args.map (·.1) = params → DeclaredFunctions D B → (∀ v, ∃ b, D.truthy v = .ok b) →
        Globals types D B Asks q vars fns ctx (("this", this) :: args) →
        ∃ v, runLambda D p fns this ctx args = .ok v := by
  obtain ⟨p, h1, h2⟩ := c37_compiled_meaning_partial e' t params hp hh
  refine ⟨p, h1, fun D B fns this ctx args ha hF ht hG => ?_⟩
  rw [h2 (Except Err) D fns this ctx args ha]
  exact c38_requirements_cover H types vars lim e e' q t hA hT hv hraw hcheck hreq hp D B fns ctx _ hF ht hG

/-! ## C39 -/

mutual
theorem cov_unit : ∀ (e : Ex), Cov Everything (fun _ _ => True) (fun _ => ()) () e
  | .sym _ _ => by simp only [Cov]; exact fun r _ => ⟨(), at_unit r⟩
  | .kw _ => by simp only [Cov]
  | .const _ => by simp only [Cov]
  | .list xs => by simp only [Cov]; exact covAll_unit xs
  | .dict xs => by simp only [Cov]; exact covAll_unit xs
  | .tup [] _ => by simp only [Cov]
  | .tup (.sym n none :: args) r => by
      simp only [Cov]
      exact ⟨fun r _ => ⟨(), at_unit r⟩, covAll_unit args⟩
  | .tup (.sym n (some hr) :: args) r => by
      simp only [Cov]
      refine ⟨fun r _ => ⟨(), at_unit r⟩, ?_⟩
      cases hr.to with
      | callable ats => exact covArgs_unit ats args
      | _ => exact covAll_unit args
  | .tup (.kw _ :: args) r | .tup (.const _ :: args) r | .tup (.list _ :: args) r | .tup (.dict _ :: args) r
  | .tup (.tup _ _ :: args) r => by
      simp only [Cov]
      exact ⟨fun r _ => ⟨(), at_unit r⟩, covAll_unit args⟩
theorem covAll_unit : ∀ (es : List Ex), CovAll Everything (fun _ _ => True) (fun _ => ()) () es
  | [] => by simp only [CovAll]
  | x :: r => by simp only [CovAll]; exact ⟨cov_unit x, covAll_unit r⟩
theorem covArgs_unit : ∀ (ats : List Ty) (es : List Ex), CovArgs Everything (fun _ _ => True) (fun _ => ()) () ats es
  | [], _ => by simp only [CovArgs]
  | _ :: _, [] => by simp only [CovArgs]
  | t :: ts, x :: r => by
      simp only [CovArgs]
      exact ⟨⟨cov_unit x, fun r _ => ⟨(), at_unit r, trivial⟩⟩, covArgs_unit ts r⟩
theorem at_unit : ∀ (r : Ref), At Everything () r ()
  | .root .. => trivial
  | .named b _ _ => ⟨(), at_unit b, trivial⟩
  | .ref b _ => at_unit b
end

/-- C39 (semantics).  A checked expression never fails on data of the types of its variables: fields which are read
exist, collections can be iterated, and functions get data of the types of their arguments. -/
theorem c39_checked_safe (types vars : List (String × Ty)) (lim : Nat) (e e' : Ex) (t : Term)
    (hA : NoAlias types) (hT : NoFnTypes types) (hv : ∀ x t, dget vars x = some t → GoodVar t) (hraw : Raw e = true)
    (hcheck : check types lim (rootEnv vars) e = .ok e') (hp : parse e' = some t)
    (D : PyDom (Except Err)) (B : Sem D.V) (fns ctx : D.V) (ρ : List (String × D.V))
    (hF : Functions types D B Everything (fun _ => ())) (htruthy : ∀ v, ∃ b, D.truthy v = .ok b)
    (hG : Globals types D B Everything () vars fns ctx ρ) :
    ∃ v, denote D fns ctx ρ t = .ok v := by
  obtain ⟨v, h3, _⟩ := Chk.evals (le := fun _ _ => True) hT hF htruthy (fun _ _ => ⟨(), trivial, trivial⟩)
    (check_chk hA hcheck) hraw (cov_unit e') t ρ hp (globals_envVal hv hG)
  exact ⟨v, h3⟩

/-! ## Examples -/

def exTypes : List (String × Ty) :=
  [("User", .record [("name", .string), ("age", .integer), ("friends", .sequence (.ref "User")),
    ("photo", .optional (.record [("url", .string)]))])]

def exVars : List (String × Ty) :=
  [("f", .callable [.record [("name", .string)]]), ("if", .callable [.any, .any, .any]), ("this", .ref "User")]

def rawSym (n : String) : Ex := .sym n none
def rawGet (e : Ex) (f : String) : Ex := .tup [rawSym "get", e, rawSym f] none

/-- `[(each x this.friends (f x)), (if_some [p this.photo] p.url nil), (if this.name this.name "?")]` -/
def exExpr : Ex :=
  .list [.tup [rawSym "each", rawSym "x", rawGet (rawSym "this") "friends", .tup [rawSym "f", rawSym "x"] none] none,
    .tup [rawSym "if_some", .list [rawSym "p", rawGet (rawSym "this") "photo"], rawGet (rawSym "p") "url",
      .const .none] none,
    .tup [rawSym "if", rawGet (rawSym "this") "name", rawGet (rawSym "this") "name", .const (.str "?")] none]

/-- its requirements: the names of the friends, the url of the photo and the name; not the age -/
def exReqs : QNode :=
  .mk [.link "this" (.mk [.field "name" none none, .link "friends" (.mk [.field "name" none none] false) none none,
    .link "photo" (.mk [.field "url" none none] false) none none] false) none none] false

theorem exExpr_checked : ∃ e' t, check exTypes 100 (rootEnv exVars) exExpr = .ok e' ∧ extract exHash exTypes e' = .ok exReqs ∧
    parse e' = some t ∧
    denote exDom (.dict [("f", .str "f")]) (.dict []) [("this", DV.dict [("name", .str "N"), ("photo", .none),
      ("friends", .list [.dict [("name", .str "A")]])])] t =
      .ok (DV.list [.list [.list [.str "f", .dict [("name", .str "A")]]], .none, .str "N"]) := ⟨_, _, rfl, rfl, rfl, rfl⟩

/-- the assumptions about types hold -/
theorem exTypes_good : NoAlias exTypes ∧ NoFnTypes exTypes ∧ (∀ x t, dget exVars x = some t → GoodVar t) ∧ Raw exExpr = true := by
  refine ⟨fun n t h m => ?_, fun n t h => ?_, fun x t h => ?_, rfl⟩
  · have := dget_mem h
    simp only [exTypes, List.mem_singleton, Prod.mk.injEq] at this
    rw [this.2]
    intro h; cases h
  · have := dget_mem h
    simp only [exTypes, List.mem_singleton, Prod.mk.injEq] at this
    rw [this.2]; rfl
  · have := dget_mem h
    simp only [exVars, List.mem_cons, List.not_mem_nil, or_false, Prod.mk.injEq] at this
    rcases this with ⟨_, rfl⟩ | ⟨_, rfl⟩ | ⟨_, rfl⟩
    · exact .inr ⟨_, rfl, by intro a ha; simp only [List.mem_singleton] at ha; subst ha; rfl⟩
    · exact .inr ⟨_, rfl, by
        intro a ha
        simp only [List.mem_cons, List.not_mem_nil, or_false] at ha
        rcases ha with rfl | rfl | rfl <;> rfl⟩
    · exact .inl rfl

/-- nothing is known about scalars and functions -/
def exSem : Sem DV := ⟨fun _ _ => True, fun _ => []⟩

/-- data without the age: the friend has only the name -/
def exData : DV := .dict [("name", .str "N"), ("photo", .dict [("url", .str "U")]), ("friends", .list [.dict [("name", .str "A")]])]

/-- the assumptions of C38 about data hold for data which has only what is required -/
theorem exExpr_globals :
    DeclaredFunctions exDom exSem ∧ (∀ v, ∃ b, exDom.truthy v = .ok b) ∧
    Globals exTypes exDom exSem Asks exReqs exVars (DV.dict [("f", .str "f"), ("if", .str "if")]) (DV.dict [])
      [("this", exData)] := by
  refine ⟨fun _ f args _ _ => ⟨DV.list (f :: args), rfl⟩, fun v => ?_, fun x t hx => ?_⟩
  · cases v <;> exact ⟨_, rfl⟩
  · have hm := dget_mem hx
    simp only [exVars, List.mem_cons, List.not_mem_nil, or_false, Prod.mk.injEq] at hm
    rcases hm with ⟨rfl, rfl⟩ | ⟨rfl, rfl⟩ | ⟨rfl, rfl⟩
    · exact ⟨DV.str "f", rfl, trivial⟩
    · exact ⟨DV.str "if", rfl, trivial⟩
    · refine ⟨rfl, fun q' hq' => .named _ _ _ _ rfl ?_⟩
      have hq : q' = .mk [.field "name" none none, .link "friends" (.mk [.field "name" none none] false) none none,
          .link "photo" (.mk [.field "url" none none] false) none none] false := by
        simpa [Asks, exReqs, QNode.fields] using hq'
      subst hq
      have hfriend : Supplies exTypes exDom exSem Asks (.ref "User") (.mk [.field "name" none none] false)
          (DV.dict [("name", .str "A")]) := by
        have key : ∀ f q', Asks (.mk [.field "name" none none] false) f q' → f = "name" := by
          intro f q' h
          rcases h with ⟨_, _, h, _⟩ | ⟨_, _, h⟩
          · simp [QNode.fields] at h; exact h.1
          · simp [QNode.fields] at h
        refine .named _ _ _ _ rfl (.record _ _ _ (fun _ => .str "A") (fun f t q' hf hr => ?_) fun f t q' hf hr => ?_)
        · cases key f q' hr; rfl
        · cases key f q' hr; cases hf; exact .scalar _ _ _ rfl trivial
      have hphoto : Supplies exTypes exDom exSem Asks (.optional (.record [("url", .string)]))
          (.mk [.field "url" none none] false) (DV.dict [("url", .str "U")]) := by
        refine .some _ _ _ (.record _ _ _ (fun _ => .str "U") (fun f t q' hf hr => ?_) fun f t q' hf hr => ?_) <;>
          · have hm := dget_mem hf
            simp only [List.mem_singleton, Prod.mk.injEq] at hm
            obtain ⟨rfl, rfl⟩ := hm
            first
              | exact rfl
              | exact .scalar _ _ _ rfl trivial
      have key : ∀ f q', Asks (.mk [.field "name" none none, .link "friends" (.mk [.field "name" none none] false) none none,
          .link "photo" (.mk [.field "url" none none] false) none none] false) f q' →
          f = "name" ∨ (f = "friends" ∧ q' = .mk [.field "name" none none] false) ∨
            (f = "photo" ∧ q' = .mk [.field "url" none none] false) := by
        intro f q' h
        rcases h with ⟨_, _, h, _⟩ | ⟨_, _, h⟩
        · simp [QNode.fields] at h; tauto
        · simp [QNode.fields] at h; tauto
      refine .record _ _ _
        (fun f => if f = "name" then .str "N" else if f = "photo" then .dict [("url", .str "U")] else
          .list [.dict [("name", .str "A")]]) (fun f t q' hf hr => ?_) fun f t q' hf hr => ?_
      · rcases key f q' hr with rfl | ⟨rfl, rfl⟩ | ⟨rfl, rfl⟩ <;> rfl
      · rcases key f q' hr with rfl | ⟨rfl, rfl⟩ | ⟨rfl, rfl⟩
        · cases hf; exact .scalar _ _ _ rfl trivial
        · cases hf
          exact .sequence _ _ _ [.dict [("name", .str "A")]] rfl fun x hx => by
            cases List.mem_singleton.1 hx; exact hfriend
        · cases hf; exact hphoto

/-- a function with an argument of a named type: `(f this)` -/
theorem c38_typeref :
    ∃ e', check [("User", .record [("name", .string)])] 100
        (rootEnv [("f", .callable [.ref "User"]), ("this", .ref "User")])
        (.tup [rawSym "f", rawSym "this"] none) = .ok e' ∧
      extract exHash [("User", .record [("name", .string)])] e' = .ok (.mk [.link "this" (.mk [] false) none none] false) := ⟨_, rfl, rfl⟩

/-- an argument of a recursive named type, like the type of a node with a link to itself, is never accepted: the check ends
with RecursionError, however large the stack is -/
theorem c39_recursive (lim : Nat) :
    checkType [("User", .record [("friend", .ref "User")])] lim (.ref "User") (.ref "User") = .error .recursionError := by
  have h : ∀ lim, checkType [("User", .record [("friend", .ref "User")])] lim (.ref "User") (.ref "User") = .error .recursionError ∧
      checkType [("User", .record [("friend", .ref "User")])] lim (.record [("friend", .ref "User")]) (.ref "User") =
        .error .recursionError := by
    intro lim
    induction lim with
    | zero => exact ⟨rfl, rfl⟩
    | succ n ih =>
      have step : eachM (fun kv : String × Ty =>
              match dget [("friend", Ty.ref "User")] kv.1 with
              | none => .error .typeError
              | some v1 => do
                  let v1 ← getTypeE [("User", .record [("friend", .ref "User")])] v1
                  checkType [("User", .record [("friend", .ref "User")])] n v1 kv.2) [("friend", .ref "User")] =
            .error .recursionError := by
        show (do checkType [("User", .record [("friend", .ref "User")])] n (.record [("friend", .ref "User")]) (.ref "User")
                 Except.ok ()) = _
        rw [ih.2]; rfl
      exact ⟨step, step⟩
  exact (h lim).1

/-- the checker takes names of named types for equal: strings are accepted as integers -/
theorem c39_alias :
    (∃ e', check [("A", .ref "S"), ("B", .ref "I"), ("S", .string), ("I", .integer)] 100
      (rootEnv [("f", .callable [.sequence (.ref "B")]), ("a", .sequence (.ref "A"))]) (.tup [rawSym "f", rawSym "a"] none) = .ok e') ∧
    ∃ er, check [("A", .ref "S"), ("B", .ref "I"), ("S", .string), ("I", .integer)] 100
      (rootEnv [("f", .callable [.sequence (.ref "I")]), ("a", .sequence (.ref "S"))]) (.tup [rawSym "f", rawSym "a"] none) = .error er :=
  ⟨⟨_, rfl⟩, ⟨_, rfl⟩⟩

/-- types of arguments of functions are not compared -/
theorem c39_callable :
    ∃ e', check [] 100 (rootEnv [("f", .callable [.callable [.integer]]), ("g", .callable [.string])])
      (.tup [rawSym "f", rawSym "g"] none) = .ok e' := ⟨_, rfl⟩

end Hiku.Expr
