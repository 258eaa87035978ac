import Verif.Props.Define2
import Verif.Props.QueryText

/-! # C57: which texts are annotations of functions -/

namespace Hiku.Expr

/-- the annotations of arguments in what was read: items of a vector, of a list or of a set, keys of a map; nothing in
an empty string -/
inductive Lists : Val → List Val → Prop
  | seq (k xs) : Lists (.seq k xs) xs
  | map (k kvs) : Lists (.map k kvs) (kvs.map (·.1))
  | str : Lists (.str "") []
  | kw : Lists (.kw "") []
  | sym : Lists (.sym "") []

/-- an annotation of an argument: `nil` or a query (C61) -/
def ArgOk (v : Val) : Prop := v = .none ∨ ∃ q, QueryText.Node v q

theorem argTypes_cases (H : PyHash) (vs : List Val) :
    ((∀ v ∈ vs, ArgOk v) ∧ ∃ ats, argTypes H vs = .ok ats ∧ ats.length = vs.length) ∨
    ((¬ ∀ v ∈ vs, ArgOk v) ∧ argTypes H vs = .error .typeError) := by
  induction vs with
  | nil => exact .inl ⟨by simp, [], by simp only [argTypes], rfl⟩
  | cons v r ih =>
    by_cases hn : v = .none
    · subst hn
      rcases ih with ⟨h1, ats, h2, h3⟩ | ⟨h1, h2⟩
      · refine .inl ⟨?_, .any :: ats, by simp only [argTypes, h2, ok_bind'], by simp [h3]⟩
        intro v hv
        rcases List.mem_cons.1 hv with rfl | hv
        · exact .inl rfl
        · exact h1 v hv
      · exact .inr ⟨fun h => h1 fun v hv => h v (List.mem_cons_of_mem _ hv), by simp only [argTypes, h2, error_bind']⟩
    · rcases QueryText.reads_node (H := H) v with ⟨q, hq⟩ | ⟨he, hno⟩
      · have hr := QueryText.node_reads (H := H) hq
        rcases ih with ⟨h1, ats, h2, h3⟩ | ⟨h1, h2⟩
        · refine .inl ⟨?_, queryToTypes (merge H [q]) :: ats, ?_, by simp [h3]⟩
          · intro w hv
            rcases List.mem_cons.1 hv with rfl | hv
            · exact .inr ⟨q, hq⟩
            · exact h1 w hv
          · rw [argTypes]
            · simp only [hr, h2, ok_bind']
            · exact hn
        · refine .inr ⟨fun h => h1 fun v hv => h v (List.mem_cons_of_mem _ hv), ?_⟩
          rw [argTypes]
          · simp only [hr, h2, ok_bind', error_bind']
          · exact hn
      · refine .inr ⟨fun h => ?_, ?_⟩
        · rcases h v (by simp) with h | ⟨q, hq⟩
          · exact hn h
          · exact hno q hq
        · rw [argTypes]
          · simp only [he, error_bind']
          · exact hn

theorem chars_cases (s : String) : (s = "" ∧ (s.toList.map fun c => (.str (String.ofList [c]) : Val)) = []) ∨
    (s ≠ "" ∧ ¬ ∀ v ∈ (s.toList.map fun c => (.str (String.ofList [c]) : Val)), ArgOk v) := by
  by_cases hs : s = ""
  · subst hs; exact .inl ⟨rfl, rfl⟩
  · refine .inr ⟨hs, fun h => ?_⟩
    cases hl : s.toList with
    | nil => exact hs (by rw [← String.ofList_toList (s := s), hl])
    | cons c r =>
      have := h (.str (String.ofList [c])) (by rw [hl]; exact List.mem_cons_self)
      rcases this with h | ⟨q, hq⟩
      · cases h
      · cases hq

/-- C57.  A text annotates a function if and only if it is read as a collection of `nil`s and queries; there is one
argument for each of them.  All other texts which can be read raise TypeError. -/
theorem c57_exact (P : PyText) (th : String → Option (Val → Except Err Val)) (H : PyHash) (text : List Char) (v : Val)
    (hl : loads P th text = .ok v) :
    (∃ vs ats, Lists v vs ∧ (∀ x ∈ vs, ArgOk x) ∧ defineTypes P th H text = .ok (.callable ats) ∧ ats.length = vs.length) ∨
    ((¬ ∃ vs, Lists v vs ∧ ∀ x ∈ vs, ArgOk x) ∧ defineTypes P th H text = .error .typeError) := by
  have fin : ∀ vs, iterValue v = .ok vs → Lists v vs → (∀ us, Lists v us → us = vs) →
      (∃ vs ats, Lists v vs ∧ (∀ x ∈ vs, ArgOk x) ∧ defineTypes P th H text = .ok (.callable ats) ∧ ats.length = vs.length) ∨
      ((¬ ∃ vs, Lists v vs ∧ ∀ x ∈ vs, ArgOk x) ∧ defineTypes P th H text = .error .typeError) := by
    intro vs h1 h2 h3
    rcases argTypes_cases H vs with ⟨h4, ats, h5, h6⟩ | ⟨h4, h5⟩
    · exact .inl ⟨vs, ats, h2, h4, by simp only [defineTypes, hl, h1, h5, ok_bind'], h6⟩
    · refine .inr ⟨?_, by simp only [defineTypes, hl, h1, h5, ok_bind', error_bind']⟩
      rintro ⟨us, h6, h7⟩
      rw [h3 us h6] at h7
      exact h4 h7
  have bad : ∀ s : String, s ≠ "" → (¬ ∃ vs, Lists v vs ∧ ∀ x ∈ vs, ArgOk x) →
      iterValue v = .ok (s.toList.map fun c => (.str (String.ofList [c]) : Val)) →
      (¬ ∃ vs, Lists v vs ∧ ∀ x ∈ vs, ArgOk x) ∧ defineTypes P th H text = .error .typeError := by
    intro s hs hno h1
    refine ⟨hno, ?_⟩
    rcases chars_cases s with ⟨h, _⟩ | ⟨_, h⟩
    · exact absurd h hs
    · rcases argTypes_cases H (s.toList.map fun c => (.str (String.ofList [c]) : Val)) with ⟨h4, _⟩ | ⟨_, h5⟩
      · exact absurd h4 h
      · simp only [defineTypes, hl, h1, h5, ok_bind', error_bind']
  have none : iterValue v = .error .typeError → (¬ ∃ vs, Lists v vs ∧ ∀ x ∈ vs, ArgOk x) →
      (¬ ∃ vs, Lists v vs ∧ ∀ x ∈ vs, ArgOk x) ∧ defineTypes P th H text = .error .typeError := fun h1 hno =>
    ⟨hno, by simp only [defineTypes, hl, h1, ok_bind', error_bind']⟩
  match v with
  | .seq k xs => exact fin xs rfl (.seq _ _) fun us h => by cases h; rfl
  | .map k kvs => exact fin _ rfl (.map _ _) fun us h => by cases h; rfl
  | .str s =>
    by_cases hs : s = ""
    · subst hs; exact fin [] rfl .str fun us h => by cases h; rfl
    · exact .inr (bad s hs (by rintro ⟨vs, h, _⟩; cases h; exact hs rfl) rfl)
  | .kw s =>
    by_cases hs : s = ""
    · subst hs; exact fin [] rfl .kw fun us h => by cases h; rfl
    · exact .inr (bad s hs (by rintro ⟨vs, h, _⟩; cases h; exact hs rfl) rfl)
  | .sym s =>
    by_cases hs : s = ""
    · subst hs; exact fin [] rfl .sym fun us h => by cases h; rfl
    · exact .inr (bad s hs (by rintro ⟨vs, h, _⟩; cases h; exact hs rfl) rfl)
  | .none => exact .inr (none rfl (by rintro ⟨vs, h, _⟩; cases h))
  | .nothing => exact .inr (none rfl (by rintro ⟨vs, h, _⟩; cases h))
  | .bool _ => exact .inr (none rfl (by rintro ⟨vs, h, _⟩; cases h))
  | .int _ => exact .inr (none rfl (by rintro ⟨vs, h, _⟩; cases h))
  | .float _ => exact .inr (none rfl (by rintro ⟨vs, h, _⟩; cases h))
  | .tagged _ _ => exact .inr (none rfl (by rintro ⟨vs, h, _⟩; cases h))
  | .ref _ _ => exact .inr (none rfl (by rintro ⟨vs, h, _⟩; cases h))

end Hiku.Expr
