import Verif.Proofs.LatencySched

/-! The times of the parts of a node are within the time of the node. -/

namespace Hiku
namespace Lat

section
variable {gn : GNode} {g : Graph} {wt : PFunc → Nat} {subt : Nat → List QNode → Nat}

theorem loader_field {n : String} {o : Opts} {a : Option String} {gi : GItem} (h : gn.get n = some gi) :
    loader gn (.field n o a) = some gi.funcKey := by
  simp only [loader, QItem.name, h]

theorem loader_link {q : QItem} {n : String} {qn : QNode} {o : Opts} {a : Option String} {gl : GLink}
    (hq : q = .link n qn o a) (h : gn.get n = some (.link gl)) : loader gn q = none := by
  subst hq
  simp only [loader, QItem.name, h]

theorem splitField_loader {n : String} {o : Opts} {a : Option String} {x : FKey × GItem × QItem}
    (h : splitField gn n (.field n o a) = .ok x) :
    loader gn (.field n o a) = some x.1 ∧ x.2.2 = .field n o a := by
  obtain ⟨h1, h2, h3⟩ := splitField_plan h
  exact ⟨by rw [loader_field h1, h2], h3⟩

/-! ### unordered nodes -/

theorem splitItems_loads {l : List QItem} {fs : List (FKey × GItem × QItem)} {ls : List (GLink × QItem)}
    (h : splitItems gn l = .ok (fs, ls)) :
    fs.map (·.2.2) = (expand gn l).filter (fun q => (loader gn q).isSome) ∧
    (∀ f ∈ fs, loader gn f.2.2 = some f.1) ∧ ∀ x ∈ ls, x.2 ∈ l := by
  induction l generalizing fs ls with
  | nil => simp [splitItems] at h; obtain ⟨rfl, rfl⟩ := h; simp [expand]
  | cons i r ih =>
    cases i with
    | field nm o al =>
      simp only [splitItems, bind_ok_iff] at h
      obtain ⟨f, hf, ⟨fs', ls'⟩, hr, h⟩ := h
      simp at h; obtain ⟨rfl, rfl⟩ := h
      obtain ⟨h1, h2, h3⟩ := ih hr
      obtain ⟨e1, e2⟩ := splitField_loader hf
      refine ⟨by simp [expand, h1, e1, e2], ?_, fun x hx => by simp [h3 x hx]⟩
      intro f' hf'
      rcases List.mem_cons.1 hf' with rfl | hf'
      · rw [e2]; exact e1
      · exact h2 f' hf'
    | link nm q o al =>
      simp only [splitItems] at h
      split at h
      · simp at h
      · rename_i gl hg
        simp only [bind_ok_iff] at h
        obtain ⟨pre, hpre, ⟨fs', ls'⟩, hr, h⟩ := h
        simp at h; obtain ⟨rfl, rfl⟩ := h
        obtain ⟨h1, h2, h3⟩ := ih hr
        have hll : loader gn (.link nm q o al) = none := loader_link rfl hg
        have h3' : ∀ x ∈ (gl, QItem.link nm q o al) :: ls', x.2 ∈ QItem.link nm q o al :: r := by
          intro x hx
          rcases List.mem_cons.1 hx with rfl | hx
          · simp
          · simp [h3 x hx]
        split at hpre
        · rename_i hrt
          simp only [bind_ok_iff] at hpre
          obtain ⟨f, hf, hp⟩ := hpre
          simp at hp; subst hp
          obtain ⟨e1, e2⟩ := splitField_loader hf
          refine ⟨by simp [expand, hg, hrt, h1, e1, e2, hll], ?_, h3'⟩
          intro f' hf'
          simp at hf'
          rcases hf' with rfl | hf'
          · rw [e2]; exact e1
          · exact h2 f' hf'
        · rename_i hrt
          simp at hpre; subst hpre
          exact ⟨by simp [expand, hg, hrt, h1, hll], by simpa using h2, h3'⟩
      · rename_i gf hg
        simp only [bind_ok_iff] at h
        obtain ⟨⟨fs', ls'⟩, hr, h⟩ := h
        simp at h; obtain ⟨rfl, rfl⟩ := h
        obtain ⟨h1, h2, h3⟩ := ih hr
        have hll : loader gn (.link nm q o al) = some gf.func.key := by
          simp only [loader, QItem.name, hg, GItem.funcKey]
        refine ⟨by simp [expand, hg, h1, hll], ?_, fun x hx => by simp [h3 x hx]⟩
        intro f' hf'
        rcases List.mem_cons.1 hf' with rfl | hf'
        · exact hll
        · exact h2 f' hf'

/-- the items of a group, in terms of the query -/
theorem group_items {l : List QItem} {fs : List (FKey × GItem × QItem)} {ls : List (GLink × QItem)}
    (h : splitItems gn l = .ok (fs, ls)) {p : FKey × List (GItem × QItem)} (hp : p ∈ groupByFunc fs) :
    p.2.map (·.2) = (expand gn l).filter (fun q => loader gn q = some p.1) := by
  obtain ⟨h1, h2, _⟩ := splitItems_loads h
  rw [(groupByFunc_exact fs).1 p hp]
  have e1 : ((expand gn l).filter fun q => loader gn q = some p.1) =
      ((expand gn l).filter (fun q => (loader gn q).isSome)).filter fun q => loader gn q = some p.1 := by
    rw [List.filter_filter]
    apply List.filter_congr
    intro q _
    by_cases h : loader gn q = some p.1 <;> simp [h]
  rw [e1, ← h1, List.filter_map, List.map_map]
  congr 1
  apply List.filter_congr
  intro f hm
  simp [h2 f hm]

theorem group_time {l : List QItem} {fs : List (FKey × GItem × QItem)} {ls : List (GLink × QItem)}
    (h : splitItems gn l = .ok (fs, ls)) {p : FKey × List (GItem × QItem)} (hp : p ∈ groupByFunc fs) {q : QItem}
    (hq : loader gn q = some p.1) : groupTime wt subt gn p.1 p.2 = batchTime wt subt gn l q := by
  simp only [groupTime, batchTime, hq, group_items h hp]

theorem group_le {l : List QItem} {fs : List (FKey × GItem × QItem)} {ls : List (GLink × QItem)}
    (h : splitItems gn l = .ok (fs, ls)) {p : FKey × List (GItem × QItem)} (hp : p ∈ groupByFunc fs) :
    groupTime wt subt gn p.1 p.2 ≤ fieldsTime wt subt gn false l := by
  obtain ⟨h1, h2, _⟩ := splitItems_loads h
  obtain ⟨y, hy⟩ := List.exists_mem_of_ne_nil _ ((groupByFunc_spec fs).ne p hp)
  have hm := (groupByFunc_spec fs).mem p.1 p.2 hp y hy
  have hl := h2 _ hm
  rw [group_time h hp hl]
  have hme : y.2 ∈ expand gn l := by
    have : y.2 ∈ fs.map (·.2.2) := List.mem_map.2 ⟨_, hm, rfl⟩
    rw [h1] at this
    exact (List.mem_filter.1 this).1
  simp only [fieldsTime]
  exact le_maxOf (List.mem_map.2 ⟨y.2, hme, rfl⟩)

theorem linkTime_eq {ordered : Bool} {items before : List QItem} {n : String} {q : QNode} {o : Opts}
    {a : Option String} {gl : GLink} (h : gn.get n = some (.link gl)) :
    linkTime wt subt g gn ordered items before (.link n q o a) =
      linkStart wt subt gn ordered items before gl + wt gl.func + childTime wt subt g gl (.link n q o a) := by
  simp only [linkTime, h, childTime]
  cases hh : g.node gl.node <;> simp [hh]

theorem linkTime_unordered {items before before' : List QItem} {i : QItem} :
    linkTime wt subt g gn false items before i = linkTime wt subt g gn false items before' i := by
  cases i with
  | field n o a => simp only [linkTime]
  | link n q o a =>
    simp only [linkTime]
    cases hg : gn.get n with
    | none => rfl
    | some gi => cases gi <;> simp [linkStart]

theorem le_linksTime {ordered : Bool} {items before pre post : List QItem} {i : QItem} :
    linkTime wt subt g gn ordered items (before ++ pre) i ≤
      linksTime wt subt g gn ordered items before (pre ++ i :: post) := by
  induction pre generalizing before with
  | nil => simp [linksTime]; omega
  | cons x r ih =>
    have := ih (before := before ++ [x])
    simp only [List.cons_append, linksTime]
    simp only [List.append_assoc, List.singleton_append] at this
    omega

theorem le_linksTime_unordered {items before before' l : List QItem} {i : QItem} (h : i ∈ l) :
    linkTime wt subt g gn false items before i ≤ linksTime wt subt g gn false items before' l := by
  obtain ⟨pre, post, rfl⟩ := List.append_of_mem h
  rw [linkTime_unordered (before' := before' ++ pre)]
  exact le_linksTime

/-! ### ordered nodes -/

/-- steps of a node: fields with one function, or a link -/
def StepL (gn : GNode) : Step → Prop
  | .fields k items => items ≠ [] ∧ ∀ x ∈ items, loader gn x.2 = some k
  | .link gl ql => ∃ n q o a, ql = .link n q o a ∧ gn.get n = some (.link gl)

def IsFieldItem (q : QItem) : Prop := ∃ n o a, q = .field n o a

theorem groupField_items {steps : List Step} {cur : Option FKey} {k : FKey} {gi : GItem} {q : QItem}
    (h : ∀ k its, Step.fields k its ∈ steps → ∀ x ∈ its, IsFieldItem x.2) (hq : IsFieldItem q) :
    ∀ k' its, Step.fields k' its ∈ groupField steps cur k gi q → ∀ x ∈ its, IsFieldItem x.2 := by
  intro k' its hm x hx
  unfold groupField at hm
  have hnew : Step.fields k' its ∈ steps ++ [Step.fields k [(gi, q)]] → IsFieldItem x.2 := by
    intro hm
    rcases List.mem_append.1 hm with hm | hm
    · exact h k' its hm x hx
    · simp at hm; obtain ⟨rfl, rfl⟩ := hm; simp at hx; subst hx; exact hq
  split at hm
  · split at hm
    · rename_i k0 its0 hl
      rcases List.mem_append.1 hm with hm | hm
      · exact h k' its (List.dropLast_subset _ hm) x hx
      · simp at hm; obtain ⟨rfl, rfl⟩ := hm
        rcases List.mem_append.1 hx with hx | hx
        · exact h k' its0 (List.mem_of_getLast? hl) x hx
        · simp at hx; subst hx; exact hq
    · exact hnew hm
  · exact hnew hm

theorem groupItems_items {l : List QItem} {steps steps' : List Step} {cur : Option FKey}
    (h : ∀ k its, Step.fields k its ∈ steps → ∀ x ∈ its, IsFieldItem x.2)
    (he : groupItems gn steps cur l = .ok steps') :
    ∀ k its, Step.fields k its ∈ steps' → ∀ x ∈ its, IsFieldItem x.2 := by
  induction l generalizing steps cur with
  | nil => simp [groupItems] at he; subst he; exact h
  | cons i r ih =>
    cases i with
    | field n o a =>
      simp only [groupItems, bind_ok_iff] at he
      obtain ⟨⟨k, gi, q⟩, hf, he⟩ := he
      obtain ⟨_, _, h3⟩ := splitField_plan hf
      simp only at h3; subst h3
      exact ih (groupField_items h ⟨n, o, a, rfl⟩) he
    | link n q o a =>
      simp only [groupItems] at he
      split at he
      · simp at he
      · simp at he
      · rename_i gl hg
        simp only [bind_ok_iff] at he
        obtain ⟨steps1, hs1, he⟩ := he
        refine ih (steps := steps1 ++ [.link gl (.link n q o a)]) ?_ he
        have key : ∀ k its, Step.fields k its ∈ steps1 → ∀ x ∈ its, IsFieldItem x.2 := by
          split at hs1
          · simp only [bind_ok_iff] at hs1
            obtain ⟨⟨k, gi, f⟩, hf, hp⟩ := hs1
            simp at hp; subst hp
            obtain ⟨_, _, h3⟩ := splitField_plan hf
            simp only at h3; subst h3
            exact groupField_items h ⟨_, _, _, rfl⟩
          · simp at hs1; subst hs1; exact h
        intro k its hm
        rcases List.mem_append.1 hm with hm | hm
        · exact key k its hm
        · simp at hm

theorem groupItems_stepL {l : List QItem} {steps : List Step} (he : groupItems gn [] none l = .ok steps) :
    ∀ s ∈ steps, StepL gn s := by
  have h1 := groupItems_items (by simp) he
  have h2 := (groupItems_plan he).fields
  have h3 := (groupItems_ok (a := 0) (b := 0) (sc := fun _ _ => 0) (g := ⟨[], []⟩) (by simp) (by simp) he).1
  intro s hs
  cases s with
  | fields k its =>
    refine ⟨(h2 k its hs).1, ?_⟩
    intro x hx
    obtain ⟨n, o, a, hq⟩ := h1 k its hs x hx
    obtain ⟨gi, hg, hk⟩ := (h2 k its hs).2 x hx
    rw [hq] at hg ⊢
    simp only [QItem.name] at hg
    rw [loader_field hg, hk]
  | link gl ql =>
    obtain ⟨n, q, o, a, e1, e2⟩ := h3 _ hs
    exact ⟨n, q, o, a, e1, e2⟩

theorem StepL.dep {s : Step} (h : StepL gn s) : stepTime wt subt gn s.queryItems = stepDep wt subt gn s := by
  cases s with
  | fields k items =>
    obtain ⟨hne, hk⟩ := h
    cases items with
    | nil => exact absurd rfl hne
    | cons x r =>
      have := hk x (by simp)
      simp only [Step.queryItems, List.map_cons, stepTime, this, stepDep, groupTime]
  | link gl ql =>
    obtain ⟨n, q, o, a, e1, e2⟩ := h
    have := loader_link e1 e2
    subst e1
    simp only [Step.queryItems, stepTime, this, QItem.name, e2, stepDep]

/-- the steps are the runs of neighbours with one function -/
theorem splitBy_steps {steps : List Step} (hgood : ∀ s ∈ steps, StepL gn s) (ha : Adj steps) :
    (steps.flatMap Step.queryItems).splitBy
      (fun a b => decide ((loader gn a).isSome ∧ loader gn a = loader gn b)) = steps.map Step.queryItems := by
  rw [List.splitBy_eq_iff]
  have hff : ∀ k items, Step.fields k items ∈ steps → ∀ q ∈ items.map (·.2), loader gn q = some k := by
    intro k items hm q hq
    obtain ⟨x, hx, rfl⟩ := List.mem_map.1 hq
    exact (hgood _ hm).2 x hx
  have hlf : ∀ gl ql, Step.link gl ql ∈ steps → loader gn ql = none := by
    intro gl ql hm
    obtain ⟨n, q, o, a, e1, e2⟩ := hgood _ hm
    exact loader_link e1 e2
  have hne : ∀ s ∈ steps, s.queryItems ≠ [] := by
    intro s hs
    cases s with
    | fields k items => simpa [Step.queryItems] using (hgood _ hs).1
    | link gl ql => simp [Step.queryItems]
  refine ⟨?_, ?_, ?_, ?_⟩
  · rw [List.flatMap_def]
  · intro hm
    obtain ⟨s, hs, e⟩ := List.mem_map.1 hm
    exact hne s hs e
  · intro m hm
    obtain ⟨s, hs, rfl⟩ := List.mem_map.1 hm
    cases s with
    | link gl ql => simp [Step.queryItems]
    | fields k items =>
      refine List.Pairwise.isChain (List.pairwise_of_forall_mem_list ?_)
      intro a ha b hb
      simp [hff k items hs a ha, hff k items hs b hb]
  · have hadj : ∀ {ss : List Step}, (∀ s ∈ ss, s ∈ steps) → Adj ss → (ss.map Step.queryItems).IsChain
        fun a b => ∃ ha hb, (decide ((loader gn (a.getLast ha)).isSome ∧
          loader gn (a.getLast ha) = loader gn (b.head hb))) = false := by
      intro ss
      induction ss with
      | nil => intro _ _; simp
      | cons s r ih =>
        intro hs ha
        cases r with
        | nil => simp
        | cons s' r =>
          simp only [List.map_cons, List.isChain_cons_cons]
          refine ⟨⟨hne s (hs s (by simp)), hne s' (hs s' (by simp)), ?_⟩, ?_⟩
          · refine decide_eq_false ?_
            rintro ⟨hsm, heq⟩
            cases s with
            | link gl ql =>
              have := hlf gl ql (hs _ (by simp))
              simp [Step.queryItems, this] at hsm
            | fields k items =>
              have h1 := hff k items (hs _ (by simp)) _ (List.getLast_mem (hne _ (hs (.fields k items) (by simp))))
              have heq := h1.symm.trans heq
              cases s' with
              | link gl ql =>
                have := hlf gl ql (hs _ (by simp))
                simp [Step.queryItems, this] at heq
              | fields k' items' =>
                have h2 := hff k' items' (hs _ (by simp)) _ (List.head_mem (hne _ (hs (.fields k' items') (by simp))))
                have heq := heq.trans h2
                exact ha [] k items k' items' r rfl (by simpa using heq)
          · exact ih (fun x hx => hs x (by simp [hx])) (by
              intro pre k a k' b post e
              exact ha (s :: pre) k a k' b post (by rw [e]; rfl))
    exact hadj (fun _ h => h) ha

theorem elapsed_steps {steps : List Step} (hgood : ∀ s ∈ steps, StepL gn s) (ha : Adj steps) :
    elapsed wt subt gn (steps.flatMap Step.queryItems) = (steps.map (stepDep wt subt gn)).sum := by
  rw [elapsed, splitBy_steps hgood ha, List.map_map]
  congr 1
  apply List.map_congr_left
  intro s hs
  exact (hgood s hs).dep

theorem stepsTime_le {steps : List Step} {c X : Nat} (h1 : c + (steps.map (stepDep wt subt gn)).sum ≤ X)
    (h2 : ∀ pre gl ql post, steps = pre ++ .link gl ql :: post →
      c + (pre.map (stepDep wt subt gn)).sum + (wt gl.func + childTime wt subt g gl ql) ≤ X) :
    c + stepsTime wt subt g gn steps ≤ X := by
  induction steps generalizing c with
  | nil => simpa [stepsTime] using h1
  | cons s r ih =>
    simp only [List.map_cons, List.sum_cons] at h1
    have hr := ih (c := c + stepDep wt subt gn s) (by omega) (by
      intro pre gl ql post e
      have := h2 (s :: pre) gl ql post (by rw [e]; rfl)
      simp only [List.map_cons, List.sum_cons] at this
      omega)
    have ho : c + stepOwn wt subt g gn s ≤ X := by
      cases s with
      | fields k items => simp only [stepOwn]; simp only [stepDep] at h1; omega
      | link gl ql =>
        have := h2 [] gl ql r rfl
        simp at this
        simp only [stepOwn]; omega
    simp only [stepsTime]
    omega

/-- a link in the expanded list comes from the query, and its required field is right before it -/
theorem expand_link {l A B : List QItem} {n : String} {q : QNode} {o : Opts} {a : Option String} {gl : GLink}
    (hg : gn.get n = some (.link gl)) (h : expand gn l = A ++ .link n q o a :: B) :
    ∃ before after, l = before ++ .link n q o a :: after ∧ A = expand gn before ++ required gl := by
  induction l generalizing A with
  | nil => simp [expand] at h
  | cons i r ih =>
    cases i with
    | field nm op al =>
      simp only [expand] at h
      cases A with
      | nil => simp at h
      | cons x A' =>
        simp at h
        obtain ⟨rfl, h⟩ := h
        obtain ⟨b, c, h1, h2⟩ := ih h
        exact ⟨.field nm op al :: b, c, by rw [h1]; rfl, by rw [h2]; simp [expand]⟩
    | link nm qn op al =>
      have hcase : (∃ gl', gn.get nm = some (.link gl') ∧ gl'.reqTruthy = true) ∨
          (expand gn (.link nm qn op al :: r) = .link nm qn op al :: expand gn r ∧
            ∀ gl', gn.get nm = some (.link gl') → gl'.reqTruthy = false) := by
        simp only [expand]
        cases hh : gn.get nm with
        | none => simp
        | some gi =>
          cases gi with
          | field gf => simp
          | link gl' =>
            cases hr : gl'.reqTruthy with
            | true => exact .inl ⟨gl', rfl, hr⟩
            | false => simp [hr]
      rcases hcase with ⟨gl', hg', hr'⟩ | ⟨he, hnr⟩
      · simp only [expand, hg', hr', if_true] at h
        have he : ∀ b, expand gn (.link nm qn op al :: b) =
            .field (gl'.requires.getD "") none none :: .link nm qn op al :: expand gn b := by
          intro b; simp only [expand, hg', hr', if_true]
        cases A with
        | nil => simp at h
        | cons x A' =>
          simp only [List.cons_append, List.cons.injEq] at h
          obtain ⟨rfl, h⟩ := h
          cases A' with
          | nil =>
            simp only [List.nil_append, List.cons.injEq] at h
            obtain ⟨h1, h2⟩ := h
            injection h1 with e1 e2 e3 e4
            subst e1 e2 e3 e4
            rw [hg] at hg'
            cases hg'
            exact ⟨[], r, rfl, by simp [expand, required, hr']⟩
          | cons y A'' =>
            simp only [List.cons_append, List.cons.injEq] at h
            obtain ⟨rfl, h⟩ := h
            obtain ⟨b, c, h1, h2⟩ := ih h
            exact ⟨.link nm qn op al :: b, c, by rw [h1]; rfl, by rw [h2, he]; simp⟩
      · rw [he] at h
        have he' : ∀ b, expand gn (.link nm qn op al :: b) = .link nm qn op al :: expand gn b := by
          intro b
          simp only [expand]
          cases hh : gn.get nm with
          | none => simp
          | some gi =>
            cases gi with
            | field gf => simp
            | link gl' => simp [hnr gl' hh]
        cases A with
        | nil =>
          simp only [List.nil_append, List.cons.injEq] at h
          obtain ⟨h1, h2⟩ := h
          injection h1 with e1 e2 e3 e4
          subst e1 e2 e3 e4
          exact ⟨[], r, rfl, by simp [expand, required, hnr gl hg]⟩
        | cons x A' =>
          simp only [List.cons_append, List.cons.injEq] at h
          obtain ⟨rfl, h⟩ := h
          obtain ⟨b, c, h1, h2⟩ := ih h
          exact ⟨.link nm qn op al :: b, c, by rw [h1]; rfl, by rw [h2, he']; simp⟩

theorem ordered_le {l : List QItem} {steps : List Step} (he : groupItems gn [] none l = .ok steps) :
    stepsTime wt subt g gn steps ≤ nodeTime wt subt g gn (.mk l true) := by
  have hgood := groupItems_stepL he
  have hp := groupItems_plan he
  have hadj : Adj steps := hp.adjacent
  have := stepsTime_le (g := g) (c := 0) (X := nodeTime wt subt g gn (.mk l true)) (steps := steps)
    (gn := gn) (wt := wt) (subt := subt) ?_ ?_
  · simpa using this
  · have h1 := elapsed_steps (wt := wt) (subt := subt) hgood hadj
    rw [hp.order] at h1
    simp only [nodeTime, fieldsTime, if_true]
    omega
  · intro pre gl ql post e
    obtain ⟨n, q, o, a, e1, e2⟩ := hgood (.link gl ql) (by rw [e]; simp)
    subst e1
    have hord := hp.order
    rw [e] at hord
    simp only [List.flatMap_append, List.flatMap_cons, Step.queryItems, List.cons_append, List.nil_append] at hord
    obtain ⟨before, after, h1, h2⟩ := expand_link e2 hord.symm
    have h3 := elapsed_steps (wt := wt) (subt := subt) (steps := pre) (fun s hs => hgood s (by rw [e]; simp [hs]))
      (by
        intro p k x k' b y hq
        exact hadj p k x k' b (y ++ .link gl (.link n q o a) :: post) (by rw [e, hq]; simp))
    rw [h2] at h3
    have h4 := le_linksTime (wt := wt) (subt := subt) (g := g) (gn := gn) (ordered := true) (items := l) (before := [])
      (pre := before) (i := .link n q o a) (post := after)
    rw [linkTime_eq e2, ← h1] at h4
    simp only [linkStart, if_true, List.nil_append] at h4
    simp only [nodeTime]
    omega

end

end Lat
end Hiku
