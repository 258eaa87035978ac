import Verif.Props.Define

/-! C57: what is accepted as an argument of an annotated function, and what is required from it -/

namespace Hiku.Expr

variable {types : List (String × Ty)}

theorem checkType_record (hg : NoAlias types) {lim : Nat} {a : Ty} {gs : List (String × Ty)} :
    checkType types (lim + 1) a (.record gs) = .ok () ↔ ∃ fs, Resolves types a (.record fs) ∧
      ∀ kv ∈ gs, ∃ t t', dget fs kv.1 = some t ∧ Resolves types t t' ∧ checkType types lim t' kv.2 = .ok () := by
  simp only [checkType]
  constructor
  · intro h
    obtain ⟨a', ha, h⟩ := bind_ok_iff.1 h
    obtain ⟨b', hb, h⟩ := bind_ok_iff.1 h
    rw [show getTypeE types (.record gs) = .ok (.record gs) from rfl] at hb
    cases hb
    rw [resolves_iff] at ha
    cases a' with
    | record fs =>
      refine ⟨fs, ha, fun kv hkv => ?_⟩
      have := eachM_ok.1 h kv hkv
      cases hd : dget fs kv.1 with
      | none => rw [hd] at this; cases this
      | some t =>
        rw [hd] at this
        obtain ⟨t', h1, h2⟩ := bind_ok_iff.1 this
        rw [resolves_iff] at h1
        exact ⟨t, t', rfl, h1, h2⟩
    | _ => cases h
  · rintro ⟨fs, ha, h⟩
    rw [← resolves_iff] at ha
    rw [ha, ok_bind', show getTypeE types (.record gs) = .ok (.record gs) from rfl, ok_bind']
    refine eachM_ok.2 fun kv hkv => ?_
    obtain ⟨t, t', h1, h2, h3⟩ := h kv hkv
    rw [← resolves_iff] at h2
    simp only [h1, h2, ok_bind', h3]

theorem Leads.resolve (hg : NoAlias types) {P : Ty → Prop} {t t' : Ty} {p : List String} (h : Resolves types t t')
    (hl : Leads types P t' p) : Leads types P t p := by
  have hs := hg.self h
  cases hl with
  | here _ t'' h1 h2 =>
    rw [hs.det h1] at h
    exact .here _ _ h h2
  | step _ fs n t'' p h1 h2 h3 =>
    rw [hs.det h1] at h
    exact .step _ fs n t'' p h h2 h3

theorem Leads.unresolve (hg : NoAlias types) {P : Ty → Prop} {t t' : Ty} {p : List String} (h : Resolves types t t')
    (hl : Leads types P t p) : Leads types P t' p := by
  have hs := hg.self h
  cases hl with
  | here _ t'' h1 h2 =>
    have := h.det h1
    subst this
    exact .here _ _ hs h2
  | step _ fs n t'' p h1 h2 h3 =>
    have := h.det h1
    subst this
    exact .step _ fs n t'' p hs h2 h3

theorem accepts_leads (hg : NoAlias types) : ∀ (q : QNode), Settled q → ∀ (lim : Nat) (a : Ty),
    checkType types lim a (queryToTypes q) = .ok () →
      (∀ p, AsksFor q p → Leads types anyTy a p) ∧ ∀ p, AsksObject q p → Leads types objTy a p := by
  intro q
  induction q using QNode.ind with
  | h items ord ih =>
    intro hs lim a h
    obtain ⟨_, _, hl, hsub⟩ := hs
    cases lim with
    | zero => cases h
    | succ lim =>
      simp only [queryToTypes] at h
      obtain ⟨fs, ha, h⟩ := (checkType_record hg).1 h
      constructor
      · intro p hp
        rw [asksFor_iff] at hp
        rcases hp with ⟨i, hi, rfl⟩ | ⟨n, q', o, a', p', h1, h2, rfl⟩
        · have : i.name ∈ (dmk (itemsToTypes items)).map (·.1) := (types_names _ _).2 ⟨i, hi, rfl⟩
          rw [List.mem_map] at this
          obtain ⟨kv, hkv, he⟩ := this
          obtain ⟨t, t', h1, h2, h3⟩ := h kv hkv
          rw [he] at h1
          exact .step _ fs _ t _ ha h1 (.here _ t' h2 trivial)
        · have hd := types_link hl h1
          obtain ⟨t, t', h3, h4, h5⟩ := h _ (dget_mem hd)
          exact .step _ fs _ t _ ha h3 (Leads.resolve hg h4 ((ih _ _ _ _ h1 (hsub _ _ _ _ h1) lim t' h5).1 p' h2))
      · intro p hp
        rw [asksObject_iff] at hp
        rcases hp with rfl | ⟨n, q', o, a', p', h1, h2, rfl⟩
        · exact .here _ _ ha ⟨fs, rfl⟩
        · have hd := types_link hl h1
          obtain ⟨t, t', h3, h4, h5⟩ := h _ (dget_mem hd)
          exact .step _ fs _ t _ ha h3 (Leads.resolve hg h4 ((ih _ _ _ _ h1 (hsub _ _ _ _ h1) lim t' h5).2 p' h2))

theorem uniform {α : Type} {P : α → Nat → Prop} : ∀ {l : List α}, (∀ x ∈ l, ∃ k, ∀ n, k ≤ n → P x n) →
    ∃ k, ∀ x ∈ l, ∀ n, k ≤ n → P x n
  | [], _ => ⟨0, by simp⟩
  | x :: r, h => by
    obtain ⟨k1, h1⟩ := h x (by simp)
    obtain ⟨k2, h2⟩ := uniform (l := r) fun y hy => h y (List.mem_cons_of_mem _ hy)
    refine ⟨max k1 k2, fun y hy n hn => ?_⟩
    rcases List.mem_cons.1 hy with rfl | hy
    · exact h1 n (by omega)
    · exact h2 y hy n (by omega)

theorem leads_accepts (hg : NoAlias types) : ∀ (q : QNode), Settled q → ∀ (a : Ty),
    (∀ p, AsksFor q p → Leads types anyTy a p) → (∀ p, AsksObject q p → Leads types objTy a p) →
    ∃ k, ∀ lim, k ≤ lim → checkType types lim a (queryToTypes q) = .ok () := by
  intro q
  induction q using QNode.ind with
  | h items ord ih =>
    intro hs a h1 h2
    obtain ⟨_, _, hl, hsub⟩ := hs
    have h0 := h2 [] (.top _)
    cases h0 with
    | here _ t' ha hfs =>
      obtain ⟨fs, rfl⟩ := hfs
      have : ∃ k, ∀ kv ∈ dmk (itemsToTypes items), ∀ n, k ≤ n →
          ∃ t t', dget fs kv.1 = some t ∧ Resolves types t t' ∧ checkType types n t' kv.2 = .ok () := by
        refine uniform fun kv hkv => ?_
        have hd := dget_of_mem_nodup (nodup_dmk _) (show (kv.1, kv.2) ∈ _ from hkv)
        have hn : kv.1 ∈ (dmk (itemsToTypes items)).map (·.1) := List.mem_map_of_mem hkv
        obtain ⟨i, hi, he⟩ := (types_names _ _).1 hn
        have hlead := h1 _ (AsksFor.item (.mk items ord) i hi)
        rw [he] at hlead
        cases hlead with
        | step _ fs' _ t p hr hdt hlt =>
          have := ha.det hr
          cases this
          cases hlt with
          | here _ t' hrt _ =>
            rcases types_field hd with hany | ⟨q', o, a', hm, hq⟩
            · refine ⟨1, fun n hn => ⟨t, t', hdt, hrt, ?_⟩⟩
              obtain ⟨m, rfl⟩ : ∃ m, n = m + 1 := ⟨n - 1, by omega⟩
              rw [hany]
              simp only [checkType, resolves_iff.2 (hg.self hrt), ok_bind',
                show getTypeE types .any = .ok .any from rfl]
            · have sub : ∀ (P : Ty → Prop) p, Leads types P a (kv.1 :: p) → Leads types P t' p := by
                intro P p h
                cases h with
                | step _ fs'' _ t'' p hr' hdt' hlt' =>
                  have := ha.det hr'
                  cases this
                  rw [hdt] at hdt'
                  cases hdt'
                  exact Leads.unresolve hg hrt hlt'
              obtain ⟨k, hk⟩ := ih _ _ _ _ hm (hsub _ _ _ _ hm) t'
                (fun p hp => sub _ p (h1 _ (.deeper _ _ _ _ _ p hm hp)))
                (fun p hp => sub _ p (h2 _ (.deeper _ _ _ _ _ p hm hp)))
              refine ⟨k, fun n hn => ⟨t, t', hdt, hrt, ?_⟩⟩
              rw [hq]
              exact hk n hn
      obtain ⟨k, hk⟩ := this
      refine ⟨k + 1, fun lim hlim => ?_⟩
      obtain ⟨m, rfl⟩ : ∃ m, lim = m + 1 := ⟨lim - 1, by omega⟩
      simp only [queryToTypes]
      exact (checkType_record hg).2 ⟨fs, ha, fun kv hkv => hk kv hkv m (by omega)⟩

/-- what the annotation of one argument means: `nil` accepts everything and requires nothing; a query requires exactly
its paths, and accepts exactly the types in which they exist -/
inductive Means : Val → Ty → Prop
  | free : Means .none .any
  | query (v t q) : Annotation v → typeToQuery t = some q → q.Plain →
      (∀ p, AsksFor q p ↔ Wants v p) → (∀ p, AsksObject q p ↔ WantsObject v p) →
      (∀ types, NoAlias types → ∀ a lim, checkType types lim a t = .ok () →
        (∀ p, Wants v p → Leads types anyTy a p) ∧ ∀ p, WantsObject v p → Leads types objTy a p) →
      (∀ types, NoAlias types → ∀ a, (∀ p, Wants v p → Leads types anyTy a p) → (∀ p, WantsObject v p → Leads types objTy a p) →
        ∃ k, ∀ lim, k ≤ lim → checkType types lim a t = .ok ()) →
      Means v t

/-- C57.  A text which is read as `[annotation ...]`, where annotations are `nil` and queries without options, is the
annotation of a function; it has as many arguments, and they mean what is written. -/
theorem c57_define (P : PyText) (th : String → Option (Val → Except Err Val)) (H : PyHash) (text : List Char) (vs : List Val)
    (hl : loads P th text = .ok (.seq .elist vs)) (hv : ∀ v ∈ vs, v = .none ∨ Annotation v) :
    ∃ ats, defineTypes P th H text = .ok (.callable ats) ∧ List.Forall₂ Means vs ats := by
  have key : ∀ vs : List Val, (∀ v ∈ vs, v = .none ∨ Annotation v) → ∃ ats, argTypes H vs = .ok ats ∧ List.Forall₂ Means vs ats := by
    intro vs
    induction vs with
    | nil => intro _; exact ⟨[], by simp only [argTypes], .nil⟩
    | cons v r ih =>
      intro hv
      obtain ⟨ats, h1, h2⟩ := ih fun w hw => hv w (List.mem_cons_of_mem _ hw)
      rcases hv v (by simp) with rfl | ha
      · exact ⟨.any :: ats, by simp only [argTypes, h1, ok_bind'], .cons .free h2⟩
      · obtain ⟨q, h3, h4, h5, h6⟩ := annotation_ok H v ha
        have hne : v ≠ .none := by rintro rfl; simp [Annotation] at ha
        obtain ⟨items, ord⟩ := q
        refine ⟨queryToTypes (.mk items ord) :: ats, ?_, .cons ?_ h2⟩
        · rw [argTypes]
          · simp only [h3, h1, ok_bind']
          · exact hne
        · refine .query _ _ _ ha (back_eq items ord) (back_plain _ _ (back_eq items ord)) ?_ ?_ ?_ ?_
          · intro p; rw [(back_asks _ h5 _ (back_eq items ord) p).1, (h6 p).1]
          · intro p; rw [(back_asks _ h5 _ (back_eq items ord) p).2, (h6 p).2]
          · intro types hg a lim h
            obtain ⟨h7, h8⟩ := accepts_leads hg _ h5 lim a h
            exact ⟨fun p hp => h7 p ((h6 p).1.2 hp), fun p hp => h8 p ((h6 p).2.2 hp)⟩
          · intro types hg a h7 h8
            exact leads_accepts hg _ h5 a (fun p hp => h7 p ((h6 p).1.1 hp)) (fun p hp => h8 p ((h6 p).2.1 hp))
  obtain ⟨ats, h1, h2⟩ := key vs hv
  exact ⟨ats, by simp only [defineTypes, hl, ok_bind', iterValue, h1], h2⟩

end Hiku.Expr
