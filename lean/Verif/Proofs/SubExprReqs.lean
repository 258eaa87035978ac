import Verif.Proofs.SubExprTree

/-! C55: the requirements of expressions are plain queries -/

namespace Hiku.SubExpr

open Hiku.Expr

mutual
theorem typeToQuery_plain : ∀ (t : Ty) q, typeToQuery t = some q → q.Plain
  | .record fs, q, h => by
    simp only [typeToQuery, Option.some.injEq] at h
    subst h
    simp only [QNode.Plain, true_and]
    exact fieldsToQuery_plain fs
  | .sequence t, q, h => by
    simp only [typeToQuery] at h
    exact typeToQuery_plain t q h
  | .optional t, q, h => by
    simp only [typeToQuery] at h
    exact typeToQuery_plain t q h
  | .any, _, h | .boolean, _, h | .string, _, h | .integer, _, h | .float, _, h | .mapping .., _, h | .ref _, _, h
  | .callable _, _, h => by simp [typeToQuery] at h
theorem fieldsToQuery_plain : ∀ (fs : List (String × Ty)), PlainItems (fieldsToQuery fs)
  | [] => trivial
  | (n, t) :: r => by
    simp only [fieldsToQuery, PlainItems]
    refine ⟨?_, fieldsToQuery_plain r⟩
    cases h : typeToQuery t with
    | none => simp [QItem.Plain]
    | some q => simp only [QItem.Plain, true_and]; exact typeToQuery_plain t q h
end

theorem plain_link {n : String} {add : Option QNode} (h : ∀ a, add = some a → a.Plain) :
    (QNode.mk [.link n (add.getD (.mk [] false)) none none] false).Plain := by
  simp only [QNode.Plain, PlainItems, QItem.Plain, true_and, and_true]
  cases add with
  | none => simp [QNode.Plain, PlainItems]
  | some a => exact h a rfl

theorem plain_field (n : String) : (QNode.mk [.field n none none] false).Plain := by
  simp [QNode.Plain, PlainItems, QItem.Plain]

theorem reqStep_plain {types : List (String × Ty)} {name : Option String} {t : Ty} {add res : Option QNode}
    (ha : ∀ a, add = some a → a.Plain) (h : reqStep types name t add = .ok res) : ∀ a, res = some a → a.Plain := by
  unfold reqStep at h
  split at h
  · cases name with
    | none => cases h; exact ha
    | some n => cases h; rintro _ ⟨⟩; exact plain_link ha
  · obtain ⟨it, _, h⟩ := bind_ok_iff.1 h
    split at h
    · cases name with
      | none => cases h
      | some n => cases h; rintro _ ⟨⟩; exact plain_link ha
    · split at h
      · cases h
      · split at h
        · cases h; rintro _ ⟨⟩; exact plain_field _
        · cases h
  · split at h
    · cases h
    · split at h
      · cases h; rintro _ ⟨⟩; exact plain_field _
      · cases h; exact fun _ e => (by cases e)
      · cases h

theorem refToReq_plain {types : List (String × Ty)} : ∀ (r : Ref) (add : Option QNode) q, (∀ a, add = some a → a.Plain) →
    refToReq types r add = .ok q → q.Plain
  | .root n t, add, q, ha, h => by
    simp only [refToReq] at h
    obtain ⟨ty, _, h⟩ := bind_ok_iff.1 h
    obtain ⟨res, h1, h⟩ := bind_ok_iff.1 h
    have := reqStep_plain ha h1
    cases res with
    | none => cases h
    | some x => cases h; exact this _ rfl
  | .named b n t, add, q, ha, h => by
    simp only [refToReq] at h
    obtain ⟨ty, _, h⟩ := bind_ok_iff.1 h
    obtain ⟨res, h1, h⟩ := bind_ok_iff.1 h
    exact refToReq_plain b res q (reqStep_plain ha h1) h
  | .ref b t, add, q, ha, h => by
    simp only [refToReq] at h
    obtain ⟨ty, _, h⟩ := bind_ok_iff.1 h
    obtain ⟨res, h1, h⟩ := bind_ok_iff.1 h
    exact refToReq_plain b res q (reqStep_plain ha h1) h

theorem ownReqs_plain {types : List (String × Ty)} {r : Option Ref} {l : List QNode} (h : ownReqs types r = .ok l) :
    ∀ q ∈ l, q.Plain := by
  cases r with
  | none => cases h; simp
  | some r =>
    simp only [ownReqs] at h
    obtain ⟨q, h1, h⟩ := bind_ok_iff.1 h
    cases h
    intro q' hq'
    simp only [List.mem_singleton] at hq'
    subst hq'
    exact refToReq_plain r none _ (fun _ e => by cases e) h1

mutual
theorem reqsOf_plain {types : List (String × Ty)} : ∀ (e : Ex) l, reqsOf types e = .ok l → ∀ q ∈ l, q.Plain
  | .sym _ r, l, h => by
    simp only [reqsOf] at h
    exact ownReqs_plain h
  | .kw _, l, h => by simp only [reqsOf] at h; cases h; simp
  | .const _, l, h => by simp only [reqsOf] at h; cases h; simp
  | .list xs, l, h => by simp only [reqsOf] at h; exact reqsAll_plain xs l h
  | .dict xs, l, h => by simp only [reqsOf] at h; exact reqsAll_plain xs l h
  | .tup [] r, l, h => by
    simp only [reqsOf] at h
    obtain ⟨own, _, h⟩ := bind_ok_iff.1 h
    cases h
  | .tup (x :: xs) r, l, h => by
    simp only [reqsOf] at h
    obtain ⟨own, h1, h⟩ := bind_ok_iff.1 h
    cases hr : x.ref with
    | none =>
      rw [hr] at h
      obtain ⟨rest, h2, h⟩ := bind_ok_iff.1 h
      cases h
      intro q hq
      rcases List.mem_append.1 hq with hq | hq
      · exact ownReqs_plain h1 q hq
      · exact reqsAll_plain xs rest h2 q hq
    | some r' =>
      rw [hr] at h
      dsimp only at h
      cases ht : r'.to with
      | callable ats =>
        rw [ht] at h
        obtain ⟨rest, h2, h⟩ := bind_ok_iff.1 h
        cases h
        intro q hq
        rcases List.mem_append.1 hq with hq | hq
        · exact ownReqs_plain h1 q hq
        · exact reqsArgs_plain ats xs rest h2 q hq
      | _ => rw [ht] at h; cases h
theorem reqsAll_plain {types : List (String × Ty)} : ∀ (es : List Ex) l, reqsAll types es = .ok l → ∀ q ∈ l, q.Plain
  | [], l, h => by simp only [reqsAll] at h; cases h; simp
  | x :: r, l, h => by
    simp only [reqsAll] at h
    obtain ⟨a, h1, h⟩ := bind_ok_iff.1 h
    obtain ⟨b, h2, h⟩ := bind_ok_iff.1 h
    cases h
    intro q hq
    rcases List.mem_append.1 hq with hq | hq
    · exact reqsOf_plain x a h1 q hq
    · exact reqsAll_plain r b h2 q hq
theorem reqsArgs_plain {types : List (String × Ty)} : ∀ (ats : List Ty) (es : List Ex) l, reqsArgs types ats es = .ok l →
    ∀ q ∈ l, q.Plain
  | t :: ts, x :: r, l, h => by
    simp only [reqsArgs] at h
    cases ht : typeToQuery t with
    | none =>
      rw [ht] at h
      dsimp only at h
      obtain ⟨a, h1, h⟩ := bind_ok_iff.1 h
      obtain ⟨b, h2, h⟩ := bind_ok_iff.1 h
      cases h
      intro q hq
      rcases List.mem_append.1 hq with hq | hq
      · exact reqsOf_plain x a h1 q hq
      · exact reqsArgs_plain ts r b h2 q hq
    | some qt =>
      rw [ht] at h
      dsimp only at h
      cases hr : x.ref with
      | none => rw [hr] at h; cases h
      | some ref =>
        rw [hr] at h
        obtain ⟨q0, h1, h⟩ := bind_ok_iff.1 h
        rw [ok_bind'] at h
        obtain ⟨b, h2, h⟩ := bind_ok_iff.1 h
        cases h
        intro q hq
        rcases List.mem_append.1 hq with hq | hq
        · simp only [List.mem_singleton] at hq
          subst hq
          refine refToReq_plain ref (some qt) _ ?_ h1
          rintro _ ⟨⟩
          exact typeToQuery_plain t qt ht
        · exact reqsArgs_plain ts r b h2 q hq
  | [], _, l, h => by simp only [reqsArgs] at h; cases h; simp
  | _ :: _, [], l, h => by simp only [reqsArgs] at h; cases h; simp
end

/-! ### Merged plain queries -/

/-- nothing is requested twice -/
structure Single (q : QNode) : Prop where
  link : ∀ n a o1 a1 b o2 a2, QItem.link n a o1 a1 ∈ q.fields → QItem.link n b o2 a2 ∈ q.fields → a = b
  refl : Includes q q

theorem merge_single (H : PyHash) {ns : List QNode} (hp : ∀ q ∈ ns, q.Plain) : Single (merge H ns) where
  link n a o1 a1 b o2 a2 h1 h2 := by
    rcases mem_merge hp h1 with ⟨n', e, _⟩ | ⟨n', e, _⟩
    · cases e
    · rcases mem_merge hp h2 with ⟨n'', e', _⟩ | ⟨n'', e', _⟩
      · cases e'
      · cases e; cases e'; rfl
  refl := by
    refine subMerge_induction H (P := fun ns => Includes (merge H ns) (merge H ns)) ?_ ns hp
    intro ns hp ih
    rw [includes_iff]
    intro it hit
    rcases mem_merge hp hit with ⟨n, rfl, _⟩ | ⟨n, rfl, q, hq, q', hm⟩
    · simp only [IncludesItem]; exact ⟨_, _, hit⟩
    · simp only [IncludesItem]
      refine ⟨⟨_, _, _, hit⟩, ?_⟩
      intro q'' o a hm'
      rcases mem_merge hp hm' with ⟨n', e, _⟩ | ⟨n', e, _⟩
      · cases e
      · cases e
        exact ih n ⟨q, hq, q', hm⟩

theorem Single.filter {q : QNode} (h : Single q) (P : QItem → Bool) (hP : ∀ i j : QItem, i.name = j.name → P i = P j) (b : Bool) :
    Single (.mk (q.fields.filter P) b) where
  link n a o1 a1 b' o2 a2 h1 h2 := h.link n a o1 a1 b' o2 a2 (List.mem_of_mem_filter h1) (List.mem_of_mem_filter h2)
  refl := by
    rw [includes_iff]
    intro it hit
    obtain ⟨h1, h2⟩ := List.mem_filter.1 hit
    have := includes_iff.1 h.refl it h1
    cases it with
    | field n o a => simp only [IncludesItem]; exact ⟨_, _, hit⟩
    | link n q' o a =>
      simp only [IncludesItem] at this ⊢
      exact ⟨⟨_, _, _, hit⟩, fun q'' o' a' hm => this.2 q'' o' a' (List.mem_of_mem_filter hm)⟩

theorem Single.sub {q : QNode} (h : Single q) {n : String} {q' : QNode} {o : Opts} {a : Option String}
    (hm : QItem.link n q' o a ∈ q.fields) : Includes q' q' := by
  have := includes_iff.1 h.refl _ hm
  simp only [IncludesItem] at this
  exact this.2 q' o a hm

theorem extract_single {H : PyHash} {types : List (String × Ty)} {e : Ex} {q : QNode} (h : extract H types e = .ok q) :
    q.Plain ∧ Single q := by
  unfold extract at h
  obtain ⟨reqs, h1, h⟩ := bind_ok_iff.1 h
  cases h
  exact ⟨merge_plain (reqsOf_plain e reqs h1), merge_single H (reqsOf_plain e reqs h1)⟩

end Hiku.SubExpr
