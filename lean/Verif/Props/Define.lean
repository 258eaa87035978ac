import Verif.Proofs.Define
import Verif.Props.Simple

/-! C57: functions annotated by the text of a query -/

namespace Hiku.Expr

/-! ### Reading the annotation -/

theorem wants_cons {x : Val} {r : List Val} {p : List String} :
    Wants (.seq .elist (x :: r)) p ↔ Wants (.seq .elist [x]) p ∨ Wants (.seq .elist r) p := by
  constructor
  · intro h
    cases h with
    | field _ n h =>
      rcases List.mem_cons.1 h with rfl | h
      · exact .inl (.field _ _ (by simp))
      · exact .inr (.field _ _ h)
    | link _ kvs n v h h' =>
      rcases List.mem_cons.1 h with rfl | h
      · exact .inl (.link _ kvs _ v (by simp) h')
      · exact .inr (.link _ kvs _ v h h')
    | deeper _ kvs n v p h h' h'' =>
      rcases List.mem_cons.1 h with rfl | h
      · exact .inl (.deeper _ kvs _ v _ (by simp) h' h'')
      · exact .inr (.deeper _ kvs _ v _ h h' h'')
  · rintro (h | h)
    · cases h with
      | field _ n h => exact .field _ _ (by simp at h; simp [h])
      | link _ kvs n v h h' => exact .link _ kvs _ v (by simp at h; simp [h]) h'
      | deeper _ kvs n v p h h' h'' => exact .deeper _ kvs _ v _ (by simp at h; simp [h]) h' h''
    · cases h with
      | field _ n h => exact .field _ _ (List.mem_cons_of_mem _ h)
      | link _ kvs n v h h' => exact .link _ kvs _ v (List.mem_cons_of_mem _ h) h'
      | deeper _ kvs n v p h h' h'' => exact .deeper _ kvs _ v _ (List.mem_cons_of_mem _ h) h' h''

theorem wantsObject_cons {x : Val} {r : List Val} {p : List String} :
    WantsObject (.seq .elist (x :: r)) p ↔ WantsObject (.seq .elist [x]) p ∨ WantsObject (.seq .elist r) p := by
  constructor
  · intro h
    cases h with
    | top => exact .inl (.top _)
    | deeper _ kvs n v p h h' h'' =>
      rcases List.mem_cons.1 h with rfl | h
      · exact .inl (.deeper _ kvs _ v _ (by simp) h' h'')
      · exact .inr (.deeper _ kvs _ v _ h h' h'')
  · rintro (h | h)
    · cases h with
      | top => exact .top _
      | deeper _ kvs n v p h h' h'' => exact .deeper _ kvs _ v _ (by simp at h; simp [h]) h' h''
    · cases h with
      | top => exact .top _
      | deeper _ kvs n v p h h' h'' => exact .deeper _ kvs _ v _ (List.mem_cons_of_mem _ h) h' h''

theorem wants_dict {kv : Val × Val} {r : List (Val × Val)} {p : List String} :
    Wants (.seq .elist [.map .edict (kv :: r)]) p ↔
      Wants (.seq .elist [.map .edict [kv]]) p ∨ Wants (.seq .elist [.map .edict r]) p := by
  constructor
  · intro h
    cases h with
    | field _ n h => simp at h
    | link _ kvs n v h h' =>
      rw [List.mem_singleton] at h
      cases h
      rcases List.mem_cons.1 h' with rfl | h'
      · exact .inl (.link _ _ _ v (List.mem_singleton.2 rfl) (List.mem_singleton.2 rfl))
      · exact .inr (.link _ _ _ v (List.mem_singleton.2 rfl) h')
    | deeper _ kvs n v p h h' h'' =>
      rw [List.mem_singleton] at h
      cases h
      rcases List.mem_cons.1 h' with rfl | h'
      · exact .inl (.deeper _ _ _ v _ (List.mem_singleton.2 rfl) (List.mem_singleton.2 rfl) h'')
      · exact .inr (.deeper _ _ _ v _ (List.mem_singleton.2 rfl) h' h'')
  · rintro (h | h)
    · cases h with
      | field _ n h => simp at h
      | link _ kvs n v h h' =>
        rw [List.mem_singleton] at h
        cases h
        rw [List.mem_singleton] at h'
        exact .link _ _ _ v (List.mem_singleton.2 rfl) (by rw [← h']; simp)
      | deeper _ kvs n v p h h' h'' =>
        rw [List.mem_singleton] at h
        cases h
        rw [List.mem_singleton] at h'
        exact .deeper _ _ _ v _ (List.mem_singleton.2 rfl) (by rw [← h']; simp) h''
    · cases h with
      | field _ n h => simp at h
      | link _ kvs n v h h' =>
        rw [List.mem_singleton] at h
        cases h
        exact .link _ _ _ v (List.mem_singleton.2 rfl) (List.mem_cons_of_mem _ h')
      | deeper _ kvs n v p h h' h'' =>
        rw [List.mem_singleton] at h
        cases h
        exact .deeper _ _ _ v _ (List.mem_singleton.2 rfl) (List.mem_cons_of_mem _ h') h''

theorem wantsObject_dict {kv : Val × Val} {r : List (Val × Val)} {p : List String} :
    WantsObject (.seq .elist [.map .edict (kv :: r)]) p ↔
      WantsObject (.seq .elist [.map .edict [kv]]) p ∨ WantsObject (.seq .elist [.map .edict r]) p := by
  constructor
  · intro h
    cases h with
    | top => exact .inl (.top _)
    | deeper _ kvs n v p h h' h'' =>
      rw [List.mem_singleton] at h
      cases h
      rcases List.mem_cons.1 h' with rfl | h'
      · exact .inl (.deeper _ _ _ v _ (List.mem_singleton.2 rfl) (List.mem_singleton.2 rfl) h'')
      · exact .inr (.deeper _ _ _ v _ (List.mem_singleton.2 rfl) h' h'')
  · rintro (h | h)
    · cases h with
      | top => exact .top _
      | deeper _ kvs n v p h h' h'' =>
        rw [List.mem_singleton] at h
        cases h
        rw [List.mem_singleton] at h'
        exact .deeper _ _ _ v _ (List.mem_singleton.2 rfl) (by rw [← h']; simp) h''
    · cases h with
      | top => exact .top _
      | deeper _ kvs n v p h h' h'' =>
        rw [List.mem_singleton] at h
        cases h
        exact .deeper _ _ _ v _ (List.mem_singleton.2 rfl) (List.mem_cons_of_mem _ h') h''

/-- the items ask for what the annotation wants -/
def Same (items : List QItem) (v : Val) : Prop :=
  ∀ p, (AsksFor (.mk items false) p ↔ Wants v p) ∧ (AsksObject (.mk items false) p ↔ WantsObject v p)

theorem asksFor_append {a b : List QItem} {p : List String} :
    AsksFor (.mk (a ++ b) false) p ↔ AsksFor (.mk a false) p ∨ AsksFor (.mk b false) p := by
  rw [asksFor_iff, asksFor_iff, asksFor_iff]
  simp only [QNode.fields, List.mem_append]
  constructor
  · rintro (⟨i, hi | hi, rfl⟩ | ⟨n, q', o, a, p', h1 | h1, h2, rfl⟩)
    · exact .inl (.inl ⟨i, hi, rfl⟩)
    · exact .inr (.inl ⟨i, hi, rfl⟩)
    · exact .inl (.inr ⟨n, q', o, a, p', h1, h2, rfl⟩)
    · exact .inr (.inr ⟨n, q', o, a, p', h1, h2, rfl⟩)
  · rintro ((⟨i, hi, rfl⟩ | ⟨n, q', o, a, p', h1, h2, rfl⟩) | (⟨i, hi, rfl⟩ | ⟨n, q', o, a, p', h1, h2, rfl⟩))
    · exact .inl ⟨i, .inl hi, rfl⟩
    · exact .inr ⟨n, q', o, a, p', .inl h1, h2, rfl⟩
    · exact .inl ⟨i, .inr hi, rfl⟩
    · exact .inr ⟨n, q', o, a, p', .inr h1, h2, rfl⟩

theorem asksObject_append {a b : List QItem} {p : List String} :
    AsksObject (.mk (a ++ b) false) p ↔ AsksObject (.mk a false) p ∨ AsksObject (.mk b false) p := by
  rw [asksObject_iff, asksObject_iff, asksObject_iff]
  simp only [QNode.fields, List.mem_append]
  constructor
  · rintro (rfl | ⟨n, q', o, a, p', h1 | h1, h2, rfl⟩)
    · exact .inl (.inl rfl)
    · exact .inl (.inr ⟨n, q', o, a, p', h1, h2, rfl⟩)
    · exact .inr (.inr ⟨n, q', o, a, p', h1, h2, rfl⟩)
  · rintro ((rfl | ⟨n, q', o, a, p', h1, h2, rfl⟩) | (rfl | ⟨n, q', o, a, p', h1, h2, rfl⟩))
    · exact .inl rfl
    · exact .inr ⟨n, q', o, a, p', .inl h1, h2, rfl⟩
    · exact .inl rfl
    · exact .inr ⟨n, q', o, a, p', .inr h1, h2, rfl⟩

theorem Same.cons {a b : List QItem} {x : Val} {r : List Val} (h : Same a (.seq .elist [x])) (h' : Same b (.seq .elist r)) :
    Same (a ++ b) (.seq .elist (x :: r)) := fun p =>
  ⟨by rw [asksFor_append, (h p).1, (h' p).1, ← wants_cons], by rw [asksObject_append, (h p).2, (h' p).2, ← wantsObject_cons]⟩

theorem Same.dict {a b : List QItem} {kv : Val × Val} {r : List (Val × Val)} (h : Same a (.seq .elist [.map .edict [kv]]))
    (h' : Same b (.seq .elist [.map .edict r])) : Same (a ++ b) (.seq .elist [.map .edict (kv :: r)]) := fun p =>
  ⟨by rw [asksFor_append, (h p).1, (h' p).1, ← wants_dict], by rw [asksObject_append, (h p).2, (h' p).2, ← wantsObject_dict]⟩

theorem same_nil {v : Val} (hv : v = .seq .elist [] ∨ v = .seq .elist [.map .edict []]) : Same [] v := by
  intro p
  rw [asksFor_iff, asksObject_iff]
  constructor
  · constructor
    · rintro (⟨i, hi, _⟩ | ⟨_, _, _, _, _, h, _⟩)
      · cases hi
      · cases h
    · intro h
      cases h with
      | field _ n h => rcases hv with hv | hv <;> cases hv <;> simp at h
      | link _ kvs n v h h' =>
        rcases hv with hv | hv <;> cases hv
        · cases h
        · rw [List.mem_singleton] at h; cases h; cases h'
      | deeper _ kvs n v p h h' h'' =>
        rcases hv with hv | hv <;> cases hv
        · cases h
        · rw [List.mem_singleton] at h; cases h; cases h'
  · constructor
    · rintro (rfl | ⟨_, _, _, _, _, h, _⟩)
      · rcases hv with rfl | rfl <;> exact .top _
      · cases h
    · intro h
      cases h with
      | top => exact .inl rfl
      | deeper _ kvs n v p h h' h'' =>
        rcases hv with hv | hv <;> cases hv
        · cases h
        · rw [List.mem_singleton] at h; cases h; cases h'

theorem same_field (n : String) : Same [.field n none none] (.seq .elist [.kw n]) := by
  intro p
  rw [asksFor_iff, asksObject_iff]
  constructor
  · constructor
    · rintro (⟨i, hi, rfl⟩ | ⟨_, _, _, _, _, h, _⟩)
      · rw [show QNode.fields _ = [QItem.field n none none] from rfl, List.mem_singleton] at hi
        subst hi
        exact .field _ _ (List.mem_singleton.2 rfl)
      · rw [show QNode.fields _ = [QItem.field n none none] from rfl, List.mem_singleton] at h
        cases h
    · intro h
      cases h with
      | field _ m h =>
        rw [List.mem_singleton] at h
        cases h
        exact .inl ⟨.field n none none, List.mem_singleton.2 rfl, rfl⟩
      | link _ kvs n v h h' => simp at h
      | deeper _ kvs n v p h h' h'' => simp at h
  · constructor
    · rintro (rfl | ⟨_, _, _, _, _, h, _⟩)
      · exact .top _
      · rw [show QNode.fields _ = [QItem.field n none none] from rfl, List.mem_singleton] at h
        cases h
    · intro h
      cases h with
      | top => exact .inl rfl
      | deeper _ kvs n v p h h' h'' => simp at h

theorem same_link {n : String} {q : QNode} {v : Val} (h : ∀ p, (AsksFor q p ↔ Wants v p) ∧ (AsksObject q p ↔ WantsObject v p)) :
    Same [.link n q none none] (.seq .elist [.map .edict [(.kw n, v)]]) := by
  intro p
  rw [asksFor_iff, asksObject_iff]
  constructor
  · constructor
    · rintro (⟨i, hi, rfl⟩ | ⟨_, _, _, _, p', h1, h2, rfl⟩)
      · rw [show QNode.fields _ = [QItem.link n q none none] from rfl, List.mem_singleton] at hi
        subst hi
        exact .link _ _ _ v (List.mem_singleton.2 rfl) (List.mem_singleton.2 rfl)
      · rw [show QNode.fields _ = [QItem.link n q none none] from rfl, List.mem_singleton] at h1
        cases h1
        exact .deeper _ _ _ v _ (List.mem_singleton.2 rfl) (List.mem_singleton.2 rfl) ((h p').1.1 h2)
    · intro h'
      cases h' with
      | field _ m h' => simp at h'
      | link _ kvs m w h1 h2 =>
        rw [List.mem_singleton] at h1
        cases h1
        rw [List.mem_singleton] at h2
        cases h2
        exact .inl ⟨.link n q none none, List.mem_singleton.2 rfl, rfl⟩
      | deeper _ kvs m w p h1 h2 h3 =>
        rw [List.mem_singleton] at h1
        cases h1
        rw [List.mem_singleton] at h2
        cases h2
        exact .inr ⟨n, q, none, none, p, List.mem_singleton.2 rfl, (h p).1.2 h3, rfl⟩
  · constructor
    · rintro (rfl | ⟨_, _, _, _, p', h1, h2, rfl⟩)
      · exact .top _
      · rw [show QNode.fields _ = [QItem.link n q none none] from rfl, List.mem_singleton] at h1
        cases h1
        exact .deeper _ _ _ v _ (List.mem_singleton.2 rfl) (List.mem_singleton.2 rfl) ((h p').2.1 h2)
    · intro h'
      cases h' with
      | top => exact .inl rfl
      | deeper _ kvs m w p h1 h2 h3 =>
        rw [List.mem_singleton] at h1
        cases h1
        rw [List.mem_singleton] at h2
        cases h2
        exact .inr ⟨n, q, none, none, p, List.mem_singleton.2 rfl, (h p).2.2 h3, rfl⟩

mutual
theorem annotation_ok (H : PyHash) : ∀ v : Val, Annotation v → ∃ q, simpleTransform H v = .ok q ∧ q.Plain ∧ Settled q ∧
    ∀ p, (AsksFor q p ↔ Wants v p) ∧ (AsksObject q p ↔ WantsObject v p)
  | .seq .elist xs, h => by
    simp only [Annotation] at h
    obtain ⟨r, h1, h2, h3⟩ := items_ok H xs h
    have hp : ∀ q ∈ [QNode.mk r false], q.Plain := by
      intro q hq
      rw [List.mem_singleton] at hq
      subst hq
      exact QNode.plain_iff.2 ⟨rfl, h2⟩
    refine ⟨merge H [.mk r false], by simp only [simpleTransform, h1, ok_bind'], merge_plain hp, merge_settled H hp, fun p => ?_⟩
    rw [asks_merge H hp, asksObject_merge H hp (by simp)]
    simp only [List.mem_singleton, exists_eq_left]
    exact h3 p
  | .atom _, h | .map _ _, h | .tagged _ _, h | .ref _ _, h | .seq .list _, h | .seq .tup _, h | .seq .etup _, h
  | .seq .set _, h | .seq .eset _, h => by simp [Annotation] at h
theorem items_ok (H : PyHash) : ∀ xs : List Val, AnnotationItems xs → ∃ r, simpleExtract H xs = .ok r ∧ (∀ i ∈ r, i.Plain) ∧
    Same r (.seq .elist xs)
  | [], _ => ⟨[], by simp only [simpleExtract], by simp, same_nil (.inl rfl)⟩
  | x :: xs, h => by
    unfold AnnotationItems at h
    split at h
    · rename_i h'; cases h'
    · rename_i n r h'
      cases h'
      obtain ⟨b, h1, h2, h3⟩ := items_ok H _ h
      refine ⟨.field n none none :: b, by simp only [simpleExtract, h1, ok_bind'], ?_, (same_field n).cons h3⟩
      rintro i (_ | ⟨_, hi⟩)
      · simp [QItem.Plain]
      · exact h2 i hi
    · rename_i kvs r h'
      cases h'
      obtain ⟨a, h1, h2, h3⟩ := links_ok H _ h.1
      obtain ⟨b, h4, h5, h6⟩ := items_ok H _ h.2
      refine ⟨a ++ b, by simp only [simpleExtract, h1, h4, ok_bind'], ?_, h3.cons h6⟩
      intro i hi
      rcases List.mem_append.1 hi with hi | hi
      · exact h2 i hi
      · exact h5 i hi
    · cases h
theorem links_ok (H : PyHash) : ∀ kvs : List (Val × Val), AnnotationLinks kvs → ∃ r, simpleLinks H kvs = .ok r ∧
    (∀ i ∈ r, i.Plain) ∧ Same r (.seq .elist [.map .edict kvs])
  | [], _ => ⟨[], by simp only [simpleLinks], by simp, same_nil (.inr rfl)⟩
  | (k, v) :: r, h => by
    unfold AnnotationLinks at h
    split at h
    · rename_i h'; cases h'
    · rename_i n w r' h'
      cases h'
      obtain ⟨q, h1, h2, _, h3⟩ := annotation_ok H _ h.1
      obtain ⟨b, h4, h5, h6⟩ := links_ok H _ h.2
      refine ⟨.link n q none none :: b, by simp only [simpleLinks, h1, h4, ok_bind'], ?_, (same_link h3).dict h6⟩
      rintro i (_ | ⟨_, hi⟩)
      · simp [QItem.Plain, h2]
      · exact h5 i hi
    · cases h
end

end Hiku.Expr
