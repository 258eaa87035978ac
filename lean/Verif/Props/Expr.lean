import Verif.Spec.Expr
import Verif.Proofs.Basic
import Verif.Proofs.Dict

/-! C37: compiled expressions mean what the expressions mean -/

namespace Hiku.Expr

/-- the compiled code does not see variables of the counter which are not in `N` -/
def Pre (N : List String) (c : Counter) (F : List String) : Prop :=
  (∀ x, dhas c x = true → x ∈ N) ∧ ∀ x ∈ F, dhas c x = true ∨ x ∉ N

def Post (N : List String) (c c' : Counter) : Prop :=
  (∀ x, cnt c' x = cnt c x) ∧ (∀ x, dhas c x = true → dhas c' x = true) ∧ ∀ x, dhas c' x = true → x ∈ N

def Rel {V : Type} (env ctx : V) (c : Counter) (ρ σ : List (String × V)) (F : List String) : Prop :=
  (∀ x ∈ F, (dhas c x = true → ∃ v, dget ρ x = some v ∧ dget σ (genName x (cnt c x)) = some v) ∧
    (dhas c x = false → dget ρ x = none)) ∧
  dget σ "env" = some env ∧ dget σ "ctx" = some ctx ∧ dhas σ "next" = false

theorem Pre.mono {N : List String} {c : Counter} {F F' : List String} (h : Pre N c F) (hs : ∀ x ∈ F', x ∈ F) : Pre N c F' :=
  ⟨h.1, fun x hx => h.2 x (hs x hx)⟩

theorem Pre.post {N : List String} {c c' : Counter} {F : List String} (h : Pre N c F) (hp : Post N c c') : Pre N c' F :=
  ⟨hp.2.2, fun x hx => (h.2 x hx).imp (hp.2.1 x) id⟩

theorem Post.refl {N : List String} {c : Counter} {F : List String} (h : Pre N c F) : Post N c c :=
  ⟨fun _ => rfl, fun _ h => h, h.1⟩

theorem Post.trans {N : List String} {c c' c'' : Counter} (h : Post N c c') (h' : Post N c' c'') : Post N c c'' :=
  ⟨fun x => (h'.1 x).trans (h.1 x), fun x hx => h'.2.1 x (h.2.1 x hx), h'.2.2⟩

theorem Rel.mono {V : Type} {env ctx : V} {c : Counter} {ρ σ : List (String × V)} {F F' : List String}
    (h : Rel env ctx c ρ σ F) (hs : ∀ x ∈ F', x ∈ F) : Rel env ctx c ρ σ F' :=
  ⟨fun x hx => h.1 x (hs x hx), h.2⟩

theorem Rel.post {V : Type} {env ctx : V} {N : List String} {c c' : Counter} {ρ σ : List (String × V)} {F : List String}
    (h : Rel env ctx c ρ σ F) (hpre : Pre N c F) (hp : Post N c c') : Rel env ctx c' ρ σ F := by
  refine ⟨fun x hx => ?_, h.2⟩
  rcases hpre.2 x hx with h1 | h1
  · refine ⟨fun _ => ?_, fun h2 => ?_⟩
    · rw [hp.1]; exact (h.1 x hx).1 h1
    · rw [hp.2.1 x h1] at h2; cases h2
  · refine ⟨fun h2 => absurd (hp.2.2 x h2) h1, fun _ => ?_⟩
    refine (h.1 x hx).2 ?_
    cases h2 : dhas c x with
    | false => rfl
    | true => exact absurd (hpre.1 x h2) h1

theorem dhas_dset' {β : Type} (l : List (String × β)) (k k' : String) (v : β) :
    dhas (dset l k v) k' = (decide (k = k') || dhas l k') := by
  unfold dhas
  rw [dget_dset]
  by_cases h : k = k'
  · simp [h]
  · simp [h]

theorem cnt_push (c : Counter) (x y : String) : cnt (push c x) y = if x = y then cnt c x + 1 else cnt c y := by
  unfold cnt push
  rw [dget_dset]
  by_cases h : x = y
  · simp [h, cnt]
  · simp [h]

theorem cnt_pop (c : Counter) (x y : String) : cnt (pop c x) y = if x = y then cnt c x - 1 else cnt c y := by
  unfold cnt pop
  rw [dget_dset]
  by_cases h : x = y
  · simp [h, cnt]
  · simp [h]

theorem dhas_push (c : Counter) (x y : String) : dhas (push c x) y = (decide (x = y) || dhas c y) := dhas_dset' _ _ _ _
theorem dhas_pop (c : Counter) (x y : String) : dhas (pop c x) y = (decide (x = y) || dhas c y) := dhas_dset' _ _ _ _

theorem Pre.push {N : List String} {c : Counter} {F F' : List String} {x : String} (h : Pre N c F) (hx : x ∈ N)
    (hs : ∀ y ∈ F', y ≠ x → y ∈ F) : Pre N (push c x) F' := by
  refine ⟨fun y hy => ?_, fun y hy => ?_⟩
  · rw [dhas_push] at hy
    by_cases h1 : x = y
    · exact h1 ▸ hx
    · simp [h1] at hy; exact h.1 y hy
  · rw [dhas_push]
    by_cases h1 : x = y
    · simp [h1]
    · simp only [h1, decide_false, Bool.false_or]
      exact h.2 y (hs y hy fun h => h1 h.symm)

theorem Post.pop {N : List String} {c c' : Counter} {x : String} (hx : x ∈ N) (h : Post N (push c x) c') :
    Post N c (pop c' x) := by
  refine ⟨fun y => ?_, fun y hy => ?_, fun y hy => ?_⟩
  · rw [cnt_pop]
    by_cases h1 : x = y
    · subst h1; rw [if_pos rfl, h.1, cnt_push, if_pos rfl]; rfl
    · rw [if_neg h1, h.1, cnt_push, if_neg h1]
  · rw [dhas_pop, h.2.1 y (by rw [dhas_push, hy, Bool.or_true]), Bool.or_true]
  · rw [dhas_pop] at hy
    by_cases h1 : x = y
    · exact h1 ▸ hx
    · simp [h1] at hy; exact h.2.2 y hy

theorem Rel.notin {V : Type} {env ctx : V} {c : Counter} {ρ σ : List (String × V)} {F : List String} {x : String}
    (h : Rel env ctx c ρ σ F) (hx : x ∉ F) : Rel env ctx (Hiku.Expr.push c x) ρ σ F := by
  refine ⟨fun y hy => ?_, h.2⟩
  have h1 : x ≠ y := fun e => hx (e ▸ hy)
  rw [dhas_push, cnt_push, if_neg h1]
  simp only [h1, decide_false, Bool.false_or]
  exact h.1 y hy

theorem Rel.bind {V : Type} {env ctx : V} {N : List String} {c : Counter} {ρ σ : List (String × V)} {F : List String}
    {x : String} (v : V) (hN : Clean N) (hx : x ∈ N) (hpre : Pre N c F) (h : Rel env ctx c ρ σ F) (i : Nat) :
    Rel env ctx c ρ ((genName x i, v) :: σ) (F.filter (· ≠ x)) := by
  refine ⟨fun y hy => ?_, ?_, ?_, ?_⟩
  · rw [List.mem_filter] at hy
    have hne : y ≠ x := by simpa using hy.2
    refine ⟨fun hd => ?_, (h.1 y hy.1).2⟩
    obtain ⟨w, h1, h2⟩ := (h.1 y hy.1).1 hd
    refine ⟨w, h1, ?_⟩
    rw [dget_cons, if_neg, h2]
    intro he
    exact hne (hN.1 x hx y (hpre.1 y hd) _ _ he).symm
  · rw [dget_cons, if_neg, h.2.1]
    intro he
    have := hN.2 x hx i
    rw [he] at this; simp at this
  · rw [dget_cons, if_neg, h.2.2.1]
    intro he
    have := hN.2 x hx i
    rw [he] at this; simp at this
  · unfold dhas
    rw [dget_cons, if_neg]
    · exact h.2.2.2
    · intro he
      have := hN.2 x hx i
      rw [he] at this; simp at this

/-- entering the scope of `x` -/
theorem Rel.enter {V : Type} {env ctx : V} {N : List String} {c : Counter} {ρ σ : List (String × V)} {F G : List String}
    {x : String} (v : V) (hN : Clean N) (hx : x ∈ N) (hpre : Pre N c F) (h : Rel env ctx c ρ σ F)
    (hs : ∀ y ∈ G, y ≠ x → y ∈ F) :
    Rel env ctx (Hiku.Expr.push c x) ((x, v) :: ρ) ((genName x (cnt c x + 1), v) :: σ) G := by
  have hb := h.bind v hN hx hpre (cnt c x + 1)
  refine ⟨fun y hy => ?_, hb.2⟩
  by_cases h1 : x = y
  · subst h1
    rw [dhas_push, cnt_push, if_pos rfl]
    refine ⟨fun _ => ⟨v, by rw [dget_cons, if_pos rfl], by rw [dget_cons, if_pos rfl]⟩, fun h => ?_⟩
    simp at h
  · have hne : y ≠ x := fun e => h1 e.symm
    have := hb.1 y (by rw [List.mem_filter]; exact ⟨hs y hy hne, by simpa using hne⟩)
    rw [dhas_push, cnt_push, if_neg h1, dget_cons, if_neg h1]
    simp only [h1, decide_false, Bool.false_or]
    exact this

/-- the result of the compilation of an expression -/
def Sound (N : List String) (c : Counter) (F : List String) (r : Except Err (Py × Counter)) (t : Term) : Prop :=
  ∃ p c', r = .ok (p, c') ∧ Post N c c' ∧
    ∀ (M : Type → Type) [Monad M] [LawfulMonad M] (D : PyDom M) (env ctx : D.V) (ρ σ : List (String × D.V)),
      Rel env ctx c ρ σ F → eval D σ p = denote D env ctx ρ t

def Sounds (N : List String) (c : Counter) (F : List String) (r : Except Err (List Py × Counter)) (ts : List Term) : Prop :=
  ∃ p c', r = .ok (p, c') ∧ Post N c c' ∧
    ∀ (M : Type → Type) [Monad M] [LawfulMonad M] (D : PyDom M) (env ctx : D.V) (ρ σ : List (String × D.V)),
      Rel env ctx c ρ σ F → evals D σ p = denotes D env ctx ρ ts

def SoundKvs (N : List String) (c : Counter) (F : List String) (r : Except Err (List (String × Py) × Counter))
    (ts : List (String × Term)) : Prop :=
  ∃ p c', r = .ok (p, c') ∧ Post N c c' ∧
    ∀ (M : Type → Type) [Monad M] [LawfulMonad M] (D : PyDom M) (env ctx : D.V) (ρ σ : List (String × D.V)),
      Rel env ctx c ρ σ F → evalKvs D σ p = denoteKvs D env ctx ρ ts

theorem sym_sound {N : List String} {c : Counter} {n : String} {r : Ref} {F : List String}
    (hp : Pre N c F) (hn : n ∈ F) : Sound N c F (compile (.sym n (some r)) c) (.var n (isCallable r.to)) := by
  simp only [compile, compileSym]
  cases hd : dhas c n with
  | true =>
    refine ⟨.name (genName n (cnt c n)), c, rfl, Post.refl hp, ?_⟩
    intro M _ _ D env ctx ρ σ hr
    obtain ⟨v, h1, h2⟩ := (hr.1 n hn).1 hd
    simp only [eval, denote, PyDom.lookup, h1, h2]
  | false =>
    cases hc : isCallable r.to with
    | true =>
      refine ⟨.sub (.name "env") n, c, by simp, Post.refl hp, ?_⟩
      intro M _ _ D env ctx ρ σ hr
      simp only [eval, denote, PyDom.lookup, (hr.1 n hn).2 hd, hr.2.1, pure_bind, if_true]
    | false =>
      refine ⟨.sub (.name "ctx") n, c, by simp, Post.refl hp, ?_⟩
      intro M _ _ D env ctx ρ σ hr
      simp only [eval, denote, PyDom.lookup, (hr.1 n hn).2 hd, hr.2.2.1, pure_bind]
      simp

theorem parseKvs_even : ∀ (xs : List Ex) (ts : List (String × Term)), parseKvs xs = some ts →
    xs.length % 2 = 0 ∧ (evens xs).all Ex.isKw = true
  | [], _, _ => ⟨rfl, rfl⟩
  | .kw k :: x :: r, ts, h => by
      simp only [parseKvs, Option.bind_eq_bind, Option.bind_eq_some_iff] at h
      obtain ⟨a, _, b, hb, _⟩ := h
      obtain ⟨h1, h2⟩ := parseKvs_even r b hb
      refine ⟨?_, ?_⟩
      · simp only [List.length_cons]; omega
      · simp only [evens, List.all_cons, Ex.isKw, h2, Bool.and_self]
  | [.kw _], _, h => by simp [parseKvs] at h
  | .sym .. :: _, _, h => by simp [parseKvs] at h
  | .tup .. :: _, _, h => by simp [parseKvs] at h
  | .list _ :: _, _, h => by simp [parseKvs] at h
  | .dict _ :: _, _, h => by simp [parseKvs] at h
  | .const _ :: _, _, h => by simp [parseKvs] at h

/-- the statement for expressions up to the size `n` -/
def AllSound (N : List String) (n : Nat) : Prop :=
  (∀ e : Ex, sizeOf e ≤ n → ∀ (t : Term) (c : Counter), parse e = some t → (∀ x ∈ binders t, x ∈ N) → SomeFresh t →
    Pre N c (free t) → Sound N c (free t) (compile e c) t) ∧
  (∀ es : List Ex, sizeOf es ≤ n → ∀ (ts : List Term) (c : Counter), parseAll es = some ts →
    (∀ x ∈ bindersAll ts, x ∈ N) → SomeFreshAll ts → Pre N c (freeAll ts) → Sounds N c (freeAll ts) (compiles es c) ts) ∧
  (∀ es : List Ex, sizeOf es ≤ n → ∀ (ts : List (String × Term)) (c : Counter), parseKvs es = some ts →
    (∀ x ∈ bindersKvs ts, x ∈ N) → SomeFreshKvs ts → Pre N c (freeKvs ts) →
      SoundKvs N c (freeKvs ts) (compileKvs es c) ts)

theorem Sound.weaken {N : List String} {c : Counter} {F F' : List String} {r : Except Err (Py × Counter)} {t : Term}
    (h : Sound N c F r t) (hs : ∀ x ∈ F, x ∈ F') : Sound N c F' r t := by
  obtain ⟨p, c', h1, h2, h3⟩ := h
  exact ⟨p, c', h1, h2, fun M _ _ D env ctx ρ σ hr => h3 M D env ctx ρ σ (hr.mono hs)⟩

theorem get_sound {N : List String} {c : Counter} {obj : Ex} {field : String} {hr fr r : Option Ref} {t : Term}
    (ho : Sound N c (free t) (compile obj c) t) :
    Sound N c (free t) (compile (.tup [.sym "get" hr, obj, .sym field fr] r) c) (.get t field) := by
  obtain ⟨p, c', h1, h2, h3⟩ := ho
  refine ⟨.sub p field, c', ?_, h2, ?_⟩
  · simp [compile, Ex.name, h1, bind, Except.bind]
  · intro M _ _ D env ctx ρ σ hr
    simp only [eval, denote, h3 M D env ctx ρ σ hr]

/-- an expression is compiled correctly, whatever was compiled before it -/
def SoundAt (N : List String) (e : Ex) (t : Term) : Prop :=
  ∀ c, Pre N c (free t) → Sound N c (free t) (compile e c) t

theorem ite_sound {N : List String} {x y z : Ex} {r hr : Option Ref} {tx ty tz : Term}
    (hx : SoundAt N x tx) (hy : SoundAt N y ty) (hz : SoundAt N z tz) :
    SoundAt N (.tup [.sym "if" hr, x, y, z] r) (.ite tx ty tz) := by
  intro c hpre
  have e1 : ∀ w ∈ free tx, w ∈ free (.ite tx ty tz) := by intro w hw; simp only [free, List.mem_append]; tauto
  have e2 : ∀ w ∈ free ty, w ∈ free (.ite tx ty tz) := by intro w hw; simp only [free, List.mem_append]; tauto
  have e3 : ∀ w ∈ free tz, w ∈ free (.ite tx ty tz) := by intro w hw; simp only [free, List.mem_append]; tauto
  obtain ⟨p1, c1, a1, b1, d1⟩ := hx c (hpre.mono e1)
  have hpre1 := hpre.post b1
  obtain ⟨p2, c2, a2, b2, d2⟩ := hy c1 (hpre1.mono e2)
  have hpre2 := hpre1.post b2
  obtain ⟨p3, c3, a3, b3, d3⟩ := hz c2 (hpre2.mono e3)
  refine ⟨.ifexp p1 p2 p3, c3, ?_, (b1.trans b2).trans b3, ?_⟩
  · unfold compile; simp [compiles, Ex.name, a1, a2, a3, bind, Except.bind]
  · intro M _ _ D env ctx ρ σ h
    have h1 := h.post hpre b1
    have h2 := h1.post hpre1 b2
    simp only [eval, denote, d1 M D env ctx ρ σ (h.mono e1), d2 M D env ctx ρ σ (h1.mono e2),
      d3 M D env ctx ρ σ (h2.mono e3)]

theorem ifSome_sound {N : List String} (hN : Clean N) {e a b : Ex} {r hr xr : Option Ref} {x : String} {te ta tb : Term}
    (hxN : x ∈ N) (hxe : x ∉ free te) (hxb : x ∉ free tb)
    (he : SoundAt N e te) (ha : SoundAt N a ta) (hb : SoundAt N b tb) :
    SoundAt N (.tup [.sym "if_some" hr, .list [.sym x xr, e], a, b] r) (.ifSome x te ta tb) := by
  intro c hpre
  have e1 : ∀ w ∈ free te, w ∈ free (.ifSome x te ta tb) := by intro w hw; simp only [free, List.mem_append]; tauto
  have e2 : ∀ w ∈ free ta, w ≠ x → w ∈ free (.ifSome x te ta tb) := by
    intro w hw hne
    simp only [free, List.mem_append, List.mem_filter]
    exact .inl (.inr ⟨hw, by simpa using hne⟩)
  have e3 : ∀ w ∈ free tb, w ∈ free (.ifSome x te ta tb) := by intro w hw; simp only [free, List.mem_append]; tauto
  have hpe : Pre N (push c x) (free te) := hpre.push hxN fun w hw _ => e1 w hw
  have hpa : Pre N (push c x) (free ta) := hpre.push hxN e2
  have hpb : Pre N (push c x) (free tb) := hpre.push hxN fun w hw _ => e3 w hw
  obtain ⟨p1, c1, a1, b1, d1⟩ := he (push c x) hpe
  obtain ⟨p2, c2, a2, b2, d2⟩ := ha c1 (hpa.post b1)
  obtain ⟨p3, c3, a3, b3, d3⟩ := hb c2 (hpb.post (b1.trans b2))
  refine ⟨.nextSome (genName x (cnt (push c x) x)) p1 p2 p3, pop c3 x, ?_, Post.pop hxN ((b1.trans b2).trans b3), ?_⟩
  · simp [compile, Ex.name, a1, a2, a3, bind, Except.bind]
  · intro M _ _ D env ctx ρ σ h
    have hc : cnt (push c x) x = cnt c x + 1 := by rw [cnt_push, if_pos rfl]
    simp only [eval, denote, h.2.2.2, Bool.false_eq_true, if_false, hc,
      d1 M D env ctx ρ σ ((h.mono e1).notin hxe)]
    congr 1
    funext v
    congr 1
    · refine d3 M D env ctx ρ _ ((Rel.notin (c := c) ?_ hxb).post hpb (b1.trans b2))
      refine (h.bind v hN hxN hpre _).mono fun w hw => ?_
      rw [List.mem_filter]
      exact ⟨e3 w hw, by simpa using fun (e : w = x) => hxb (e ▸ hw)⟩
    · exact d2 M D env ctx _ _ ((h.enter v hN hxN hpre e2).post hpa b1)

theorem each_sound {N : List String} (hN : Clean N) {col body : Ex} {r hr xr : Option Ref} {x : String} {tc tb : Term}
    (hxN : x ∈ N) (hcol : SoundAt N col tc) (hb : SoundAt N body tb) :
    SoundAt N (.tup [.sym "each" hr, .sym x xr, col, body] r) (.each x tc tb) := by
  intro c hpre
  have e1 : ∀ w ∈ free tc, w ∈ free (.each x tc tb) := by intro w hw; simp only [free, List.mem_append]; tauto
  have e2 : ∀ w ∈ free tb, w ≠ x → w ∈ free (.each x tc tb) := by
    intro w hw hne
    simp only [free, List.mem_append, List.mem_filter]
    exact .inr ⟨hw, by simpa using hne⟩
  obtain ⟨p1, c1, a1, b1, d1⟩ := hcol c (hpre.mono e1)
  have hpre1 := hpre.post b1
  have hpb : Pre N (push c1 x) (free tb) := hpre1.push hxN e2
  obtain ⟨p2, c2, a2, b2, d2⟩ := hb (push c1 x) hpb
  refine ⟨.listComp (genName x (cnt (push c1 x) x)) p1 p2, pop c2 x, ?_, b1.trans (Post.pop hxN b2), ?_⟩
  · simp [compile, Ex.name, a1, a2, bind, Except.bind]
  · intro M _ _ D env ctx ρ σ h
    have hc : cnt (push c1 x) x = cnt c1 x + 1 := by rw [cnt_push, if_pos rfl]
    simp only [eval, denote, hc, d1 M D env ctx ρ σ (h.mono e1)]
    congr 1
    funext v
    congr 1
    funext xs
    have : (fun y => eval D ((genName x (cnt c1 x + 1), y) :: σ) p2) =
        fun y => denote D env ctx ((x, y) :: ρ) tb := by
      funext y
      exact d2 M D env ctx _ _ ((h.post hpre b1).enter y hN hxN hpre1 e2)
    rw [this]

theorem call_sound {N : List String} {nm : String} {args : List Ex} {r : Option Ref} {hr : Ref} {ts : List Term}
    (h1 : nm ≠ "get") (h2 : nm ≠ "if") (h3 : nm ≠ "if_some") (h4 : nm ≠ "each")
    (ha : ∀ c, Pre N c (freeAll ts) → Sounds N c (freeAll ts) (compiles args c) ts) :
    SoundAt N (.tup (.sym nm (some hr) :: args) r) (.call (.var nm (isCallable hr.to)) ts) := by
  intro c hpre
  have e1 : ∀ w ∈ [nm], w ∈ free (.call (.var nm (isCallable hr.to)) ts) := by
    intro w hw; simp only [free, List.mem_append]; exact .inl hw
  have e2 : ∀ w ∈ freeAll ts, w ∈ free (.call (.var nm (isCallable hr.to)) ts) := by
    intro w hw; simp only [free, List.mem_append]; exact .inr hw
  obtain ⟨p1, c1, a1, b1, d1⟩ := sym_sound (r := hr) (hpre.mono e1) (List.mem_singleton.2 rfl)
  obtain ⟨p2, c2, a2, b2, d2⟩ := ha c1 ((hpre.post b1).mono e2)
  refine ⟨.call p1 p2, c2, ?_, b1.trans b2, ?_⟩
  · unfold compile
    simp only [Ex.name, if_neg h1, if_neg h2, if_neg h3, if_neg h4, a1, a2, bind, Except.bind]
  · intro M _ _ D env ctx ρ σ h
    rw [eval, denote, d1 M D env ctx ρ σ (h.mono e1), d2 M D env ctx ρ σ ((h.post hpre b1).mono e2)]

theorem compile_all (N : List String) (hN : Clean N) : ∀ n, AllSound N n := by
  intro n
  induction n with
  | zero =>
    refine ⟨fun e he => ?_, fun es he => ?_, fun es he => ?_⟩
    · cases e <;> simp at he
    · cases es <;> simp at he
    · cases es <;> simp at he
  | succ n ih =>
    obtain ⟨ih1, ih2, ih3⟩ := ih
    refine ⟨fun e he t c hp hb hf hpre => ?_, fun es he ts c hp hb hf hpre => ?_, fun es he ts c hp hb hf hpre => ?_⟩
    · cases e with
      | sym x r =>
        cases r with
        | none => simp [parse] at hp
        | some r =>
          simp only [parse, Option.some.injEq] at hp
          subst hp
          exact sym_sound hpre (by simp [free])
      | kw => simp [parse] at hp
      | const v =>
        simp only [parse] at hp
        by_cases hv : plain v = true
        · rw [if_pos hv, Option.some.injEq] at hp
          subst hp
          have : compile (.const v) c = .ok (.const v, c) := by
            cases v with
            | atom a => cases a <;> first | rfl | simp [plain] at hv
            | _ => simp [plain] at hv
          exact ⟨.const v, c, this, Post.refl hpre, fun M _ _ D env ctx ρ σ _ => by simp only [eval, denote]⟩
        · rw [if_neg hv] at hp; cases hp
      | list xs =>
        simp only [parse, Option.map_eq_some_iff] at hp
        obtain ⟨ts, h1, rfl⟩ := hp
        obtain ⟨p, c', h2, h3, h4⟩ := ih2 xs (by simp at he; omega) ts c h1 hb hf hpre
        refine ⟨.list p, c', by simp only [compile, h2]; rfl, h3, ?_⟩
        intro M _ _ D env ctx ρ σ hr
        simp only [eval, denote, h4 M D env ctx ρ σ hr]
      | dict xs =>
        simp only [parse, Option.map_eq_some_iff] at hp
        obtain ⟨ts, h1, rfl⟩ := hp
        obtain ⟨p, c', h2, h3, h4⟩ := ih3 xs (by simp at he; omega) ts c h1 hb hf hpre
        obtain ⟨h5, h6⟩ := parseKvs_even xs ts h1
        refine ⟨.dict p, c', ?_, h3, ?_⟩
        · simp only [compile, h2, h6, if_true]
          rw [if_neg (by omega)]; rfl
        · intro M _ _ D env ctx ρ σ hr
          simp only [eval, denote, h4 M D env ctx ρ σ hr]
      | tup xs r =>
        cases xs with
        | nil => simp [parse] at hp
        | cons h args =>
          cases h with
          | kw => simp [parse] at hp
          | const => simp [parse] at hp
          | list => simp [parse] at hp
          | dict => simp [parse] at hp
          | tup => simp [parse] at hp
          | sym nm hr =>
            unfold parse at hp
            by_cases hget : nm = "get"
            · subst hget
              rw [if_pos rfl] at hp
              split at hp
              · rename_i obj field fr
                simp only [Option.map_eq_some_iff] at hp
                obtain ⟨t, h1, rfl⟩ := hp
                exact get_sound (ih1 obj (by simp at he; omega) t c h1 hb hf hpre)
              · cases hp
            · rw [if_neg hget] at hp
              by_cases hif : nm = "if"
              · subst hif
                rw [if_pos rfl] at hp
                split at hp
                · rename_i x y z
                  simp only [Option.bind_eq_bind, Option.bind_eq_some_iff, Option.some.injEq] at hp
                  obtain ⟨tx, h1, ty, h2, tz, h3, rfl⟩ := hp
                  simp only [binders, List.mem_append] at hb
                  simp only [SomeFresh] at hf
                  exact ite_sound
                    (fun c hc => ih1 x (by simp at he; omega) tx c h1 (fun w hw => hb w (by tauto)) hf.1 hc)
                    (fun c hc => ih1 y (by simp at he; omega) ty c h2 (fun w hw => hb w (by tauto)) hf.2.1 hc)
                    (fun c hc => ih1 z (by simp at he; omega) tz c h3 (fun w hw => hb w (by tauto)) hf.2.2 hc) c hpre
                · cases hp
              · rw [if_neg hif] at hp
                by_cases hsome : nm = "if_some"
                · subst hsome
                  rw [if_pos rfl] at hp
                  split at hp
                  · rename_i x xr e a b
                    simp only [Option.bind_eq_bind, Option.bind_eq_some_iff, Option.some.injEq] at hp
                    obtain ⟨te, h1, ta, h2, tb, h3, rfl⟩ := hp
                    simp only [binders, List.mem_append, List.mem_cons] at hb
                    simp only [SomeFresh] at hf
                    exact ifSome_sound hN (hb x (.inl rfl)) hf.1 hf.2.1
                      (fun c hc => ih1 e (by simp at he; omega) te c h1 (fun w hw => hb w (by tauto)) hf.2.2.1 hc)
                      (fun c hc => ih1 a (by simp at he; omega) ta c h2 (fun w hw => hb w (by tauto)) hf.2.2.2.1 hc)
                      (fun c hc => ih1 b (by simp at he; omega) tb c h3 (fun w hw => hb w (by tauto)) hf.2.2.2.2 hc) c hpre
                  · cases hp
                · rw [if_neg hsome] at hp
                  by_cases heach : nm = "each"
                  · subst heach
                    rw [if_pos rfl] at hp
                    split at hp
                    · rename_i x xr col body
                      simp only [Option.bind_eq_bind, Option.bind_eq_some_iff, Option.some.injEq] at hp
                      obtain ⟨tc, h1, tb, h2, rfl⟩ := hp
                      simp only [binders, List.mem_append, List.mem_cons] at hb
                      simp only [SomeFresh] at hf
                      exact each_sound hN (hb x (.inl rfl))
                        (fun c hc => ih1 col (by simp at he; omega) tc c h1 (fun w hw => hb w (by tauto)) hf.1 hc)
                        (fun c hc => ih1 body (by simp at he; omega) tb c h2 (fun w hw => hb w (by tauto)) hf.2 hc) c hpre
                    · cases hp
                  · rw [if_neg heach] at hp
                    cases hr with
                    | none => cases hp
                    | some hr =>
                      simp only [Option.map_eq_some_iff] at hp
                      obtain ⟨ts, h1, rfl⟩ := hp
                      simp only [binders, List.nil_append] at hb
                      simp only [SomeFresh, true_and] at hf
                      exact call_sound hget hif hsome heach
                        (fun c hc => ih2 args (by simp at he; omega) ts c h1 hb hf hc) c hpre
    · cases es with
      | nil =>
        simp only [parseAll, Option.some.injEq] at hp
        subst hp
        exact ⟨[], c, rfl, Post.refl hpre, fun M _ _ D env ctx ρ σ _ => by simp only [evals, denotes]⟩
      | cons x xs =>
        simp only [parseAll, Option.bind_eq_bind, Option.bind_eq_some_iff, Option.some.injEq] at hp
        obtain ⟨t, h1, ts, h2, rfl⟩ := hp
        simp only [bindersAll, List.mem_append] at hb
        simp only [SomeFreshAll] at hf
        have e1 : ∀ w ∈ free t, w ∈ freeAll (t :: ts) := by intro w hw; simp only [freeAll, List.mem_append]; tauto
        have e2 : ∀ w ∈ freeAll ts, w ∈ freeAll (t :: ts) := by intro w hw; simp only [freeAll, List.mem_append]; tauto
        obtain ⟨p1, c1, a1, b1, d1⟩ := ih1 x (by simp at he; omega) t c h1 (fun w hw => hb w (.inl hw)) hf.1 (hpre.mono e1)
        obtain ⟨p2, c2, a2, b2, d2⟩ := ih2 xs (by simp at he; omega) ts c1 h2 (fun w hw => hb w (.inr hw)) hf.2
          ((hpre.post b1).mono e2)
        refine ⟨p1 :: p2, c2, by simp [compiles, a1, a2, bind, Except.bind], b1.trans b2, ?_⟩
        intro M _ _ D env ctx ρ σ h
        rw [evals, denotes, d1 M D env ctx ρ σ (h.mono e1), d2 M D env ctx ρ σ ((h.post hpre b1).mono e2)]
    · cases es with
      | nil =>
        simp only [parseKvs, Option.some.injEq] at hp
        subst hp
        exact ⟨[], c, rfl, Post.refl hpre, fun M _ _ D env ctx ρ σ _ => by simp only [evalKvs, denoteKvs]⟩
      | cons k xs =>
        cases k with
        | kw k =>
          cases xs with
          | nil => simp [parseKvs] at hp
          | cons x xs =>
            simp only [parseKvs, Option.bind_eq_bind, Option.bind_eq_some_iff, Option.some.injEq] at hp
            obtain ⟨t, h1, ts, h2, rfl⟩ := hp
            simp only [bindersKvs, List.mem_append] at hb
            simp only [SomeFreshKvs] at hf
            have e1 : ∀ w ∈ free t, w ∈ freeKvs ((k, t) :: ts) := by
              intro w hw; simp only [freeKvs, List.mem_append]; tauto
            have e2 : ∀ w ∈ freeKvs ts, w ∈ freeKvs ((k, t) :: ts) := by
              intro w hw; simp only [freeKvs, List.mem_append]; tauto
            obtain ⟨p1, c1, a1, b1, d1⟩ :=
              ih1 x (by simp at he; omega) t c h1 (fun w hw => hb w (.inl hw)) hf.1 (hpre.mono e1)
            obtain ⟨p2, c2, a2, b2, d2⟩ := ih3 xs (by simp at he; omega) ts c1 h2 (fun w hw => hb w (.inr hw)) hf.2
              ((hpre.post b1).mono e2)
            refine ⟨(k, p1) :: p2, c2, by simp [compileKvs, a1, a2, bind, Except.bind], b1.trans b2, ?_⟩
            intro M _ _ D env ctx ρ σ h
            rw [evalKvs, denoteKvs, d1 M D env ctx ρ σ (h.mono e1), d2 M D env ctx ρ σ ((h.post hpre b1).mono e2)]
        | _ => simp [parseKvs] at hp

theorem foldl_push (xs : List String) (c : Counter) (hn : xs.Nodup) (hc : ∀ x ∈ xs, dhas c x = false) :
    (∀ x, dhas (xs.foldl push c) x = true ↔ dhas c x = true ∨ x ∈ xs) ∧
    (∀ x, cnt (xs.foldl push c) x = if x ∈ xs then 1 else cnt c x) := by
  induction xs generalizing c with
  | nil => simp
  | cons a xs ih =>
    have ha : dhas c a = false := hc a List.mem_cons_self
    rw [List.nodup_cons] at hn
    have h0 : cnt c a = 0 := by
      unfold cnt
      unfold dhas at ha
      cases h : dget c a with
      | none => rfl
      | some _ => rw [h] at ha; cases ha
    obtain ⟨h1, h2⟩ := ih (push c a) hn.2 (by
      intro x hx
      rw [dhas_push, hc x (List.mem_cons_of_mem _ hx)]
      simpa using fun (e : a = x) => hn.1 (e ▸ hx))
    refine ⟨fun x => ?_, fun x => ?_⟩
    · rw [List.foldl_cons, h1, dhas_push, List.mem_cons]
      by_cases e : a = x
      · simp [e]
      · have e' : x ≠ a := fun h => e h.symm
        simp [e, e']
    · rw [List.foldl_cons, h2, cnt_push]
      by_cases hx : x ∈ xs
      · rw [if_pos hx, if_pos (List.mem_cons_of_mem _ hx)]
      · rw [if_neg hx]
        by_cases e : a = x
        · subst e; rw [if_pos rfl, if_pos List.mem_cons_self, h0]
        · rw [if_neg e, if_neg]
          rw [List.mem_cons]
          rintro (h | h)
          · exact e h.symm
          · exact hx h

/-- C37.  An expression which is well-formed, and whose variables obey `Hygienic`, is compiled, and the compiled
procedure, called with the values of its options, does what the expression means: in any domain of values and with any
effects.  (Without `Hygienic` it is false, see below.) -/
theorem c37_compiled_meaning_partial (e : Ex) (t : Term) (params : List String) (hp : parse e = some t)
    (hh : Hygienic params t) :
    ∃ p, compileLambda e params = .ok p ∧
      ∀ (M : Type → Type) [Monad M] [LawfulMonad M] (D : PyDom M) (env this ctx : D.V) (args : List (String × D.V)),
        args.map (·.1) = params →
        runLambda D p env this ctx args = denote D env ctx (("this", this) :: args) t := by
  let N := "this" :: params ++ binders t
  obtain ⟨h1, h2⟩ := foldl_push ("this" :: params) [] hh.distinct (by intro x _; rfl)
  have hpre : Pre N (("this" :: params).foldl push []) (free t) := by
    refine ⟨fun x hx => ?_, fun x hx => ?_⟩
    · rcases (h1 x).1 hx with h | h
      · cases h
      · exact List.mem_append_left _ h
    · by_cases hm : x ∈ "this" :: params
      · exact .inl ((h1 x).2 (.inr hm))
      · refine .inr fun h => ?_
        rcases List.mem_append.1 h with h | h
        · exact hm h
        · exact hh.globals x hx hm h
  obtain ⟨p, c', a, _, d⟩ := (compile_all N hh.clean (sizeOf e)).1 e (Nat.le_refl _) t _ hp
    (fun x hx => List.mem_append_right _ hx) hh.fresh hpre
  refine ⟨p, by simp only [compileLambda, a]; rfl, ?_⟩
  intro M _ _ D env this ctx args hargs
  refine d M D env ctx _ _ ⟨fun x _ => ⟨fun hd => ?_, fun hd => ?_⟩, ?_, ?_, ?_⟩
  · have hm : x ∈ "this" :: params := by
      rcases (h1 x).1 hd with h | h
      · cases h
      · exact h
    have hc := hh.clean.2 x (List.mem_append_left _ hm) 1
    rw [h2, if_pos hm]
    have hg : genName x 1 = x := rfl
    rw [hg] at hc ⊢
    simp only [List.mem_cons, List.not_mem_nil, or_false, not_or] at hc
    have hsome : (dget (("this", this) :: args) x).isSome = true := by
      rw [dget_isSome_iff, List.map_cons, hargs]
      exact hm
    obtain ⟨v, hv⟩ := Option.isSome_iff_exists.1 hsome
    refine ⟨v, hv, ?_⟩
    rw [dget_cons, if_neg (fun h => hc.1 h.symm), dget_cons]
    rw [dget_cons] at hv
    by_cases ht : "this" = x
    · rw [if_pos ht] at hv ⊢; exact hv
    · rw [if_neg ht] at hv ⊢
      rw [dget_cons, if_neg (fun h => hc.2.1 h.symm), hv]
  · rw [dget_eq_none_iff, List.map_cons, hargs]
    intro hm
    have := (h1 x).2 (.inr hm)
    rw [this] at hd
    cases hd
  · rfl
  · rfl
  · have hc := fun x hm => hh.clean.2 x (List.mem_append_left _ hm) 1
    have hn : "next" ∉ "this" :: params := by
      intro hm
      have := hc "next" hm
      simp [genName] at this
    unfold dhas
    have : dget args "next" = none := by
      rw [dget_eq_none_iff, hargs]
      exact fun h => hn (List.mem_cons_of_mem _ h)
    simp [dget, this]

/-! ### Hygiene -/

/-- names which the compiler cannot confuse: without underscores and not one of its own names -/
def SimpleName (x : String) : Prop := '_' ∉ x.toList ∧ x ∉ ["env", "ctx", "next"]

theorem append_mid_inj {α : Type} [DecidableEq α] {a : α} : ∀ {x y u v : List α}, a ∉ x → a ∉ y →
    x ++ a :: u = y ++ a :: v → x = y
  | [], [], _, _, _, _, _ => rfl
  | [], b :: y, _, _, _, hy, h => by
      simp only [List.nil_append, List.cons_append, List.cons.injEq] at h
      exact absurd (h.1 ▸ List.mem_cons_self) hy
  | b :: x, [], _, _, hx, _, h => by
      simp only [List.nil_append, List.cons_append, List.cons.injEq] at h
      exact absurd (h.1.symm ▸ List.mem_cons_self) hx
  | b :: x, d :: y, _, _, hx, hy, h => by
      simp only [List.cons_append, List.cons.injEq] at h
      rw [h.1, append_mid_inj (fun h => hx (List.mem_cons_of_mem _ h)) (fun h => hy (List.mem_cons_of_mem _ h)) h.2]

theorem genName_toList (x : String) (i : Nat) :
    (genName x i).toList = x.toList ∨ ∃ s, (genName x i).toList = x.toList ++ '_' :: s := by
  unfold genName
  by_cases h : 1 < i
  · rw [if_pos h]
    refine .inr ⟨(toString i).toList, ?_⟩
    rw [String.toList_append, String.toList_append]
    simp
  · rw [if_neg h]; exact .inl rfl

/-- simple names are enough for `Clean` -/
theorem clean_of_simple {names : List String} (h : ∀ x ∈ names, SimpleName x) : Clean names := by
  refine ⟨fun x hx y hy i j he => ?_, fun x hx i he => ?_⟩
  · have h1 := (h x hx).1
    have h2 := (h y hy).1
    have he : (genName x i).toList = (genName y j).toList := by rw [he]
    rw [← String.toList_inj]
    rcases genName_toList x i with a | ⟨s, a⟩ <;> rcases genName_toList y j with b | ⟨s', b⟩ <;> rw [a, b] at he
    · exact he
    · exact absurd (he ▸ by simp) h1
    · exact absurd (he ▸ by simp) h2
    · exact append_mid_inj h1 h2 he
  · have h1 := h x hx
    rcases genName_toList x i with a | ⟨s, a⟩
    · rw [String.toList_inj] at a
      rw [a] at he
      exact h1.2 he
    · simp only [List.mem_cons, List.not_mem_nil, or_false] at he
      rcases he with he | he | he <;> rw [he] at a
      · have : '_' ∈ "env".toList := by rw [a]; simp
        revert this; decide
      · have : '_' ∈ "ctx".toList := by rw [a]; simp
        revert this; decide
      · have : '_' ∈ "next".toList := by rw [a]; simp
        revert this; decide

/-! ### Examples -/

/-- a small domain of values -/
inductive DV where
  | none
  | str (s : String)
  | list (xs : List DV)
  | dict (kvs : List (String × DV))
  deriving Repr

def DV.ofVal : Val → DV
  | .str s => .str s
  | _ => .none

/-- functions are their names, a call makes a list of the function and its arguments -/
def exDom : PyDom (Except Err) where
  V := DV
  const := DV.ofVal
  list := .list
  dict := .dict
  isNone := fun v => match v with | .none => true | _ => false
  truthy := fun v => match v with | .none => .ok false | _ => .ok true
  get := fun v k => match v with
    | .dict kvs => match dget kvs k with | some v => .ok v | _ => .error .keyError
    | _ => .error .typeError
  iter := fun v => match v with | .list xs => .ok xs | _ => .error .typeError
  call := fun f args => .ok (.list (f :: args))
  nameError := fun _ => .error .exception

/-- a value -/
def exSym (n : String) : Ex := .sym n (some (.root n .any))
/-- a function -/
def exFn (n : String) : Ex := .sym n (some (.root n (.callable [.any])))

/-- `[(f (get this "a")), (each x xs (each x (get x "ys") [x p])), (if_some [y p] y q)]` in a field with the option `p` -/
def exBody : Ex :=
  .list [.tup [exFn "f", .tup [.sym "get" none, exSym "this", .sym "a" none] none] none,
    .tup [.sym "each" none, exSym "x", exSym "xs",
      .tup [.sym "each" none, exSym "x", .tup [.sym "get" none, exSym "x", .sym "ys" none] none,
        .list [exSym "x", exSym "p"]] none] none,
    .tup [.sym "if_some" none, .list [exSym "y", exSym "p"], exSym "y", exSym "q"] none]

def exBodyTerm : Term :=
  .list [.call (.var "f" true) [.get (.var "this" false) "a"],
    .each "x" (.var "xs" false) (.each "x" (.get (.var "x" false) "ys") (.list [.var "x" false, .var "p" false])),
    .ifSome "y" (.var "p" false) (.var "y" false) (.var "q" false)]

theorem exBody_parse : parse exBody = some exBodyTerm := by rfl

/-- the hypotheses of C37 are met by an expression with all the forms, nested scopes and a shadowed variable -/
theorem exBody_hygienic : Hygienic ["p"] exBodyTerm where
  clean := clean_of_simple (by
    intro x hx
    simp only [exBodyTerm, binders, bindersAll, List.append_nil, List.nil_append, List.cons_append, List.mem_cons,
      List.not_mem_nil, or_false] at hx
    rcases hx with rfl | rfl | rfl | rfl | rfl <;> exact ⟨by decide, by decide⟩)
  distinct := by decide
  globals := by
    intro x hx
    simp only [exBodyTerm, free, freeAll, List.append_nil, List.nil_append, List.cons_append, List.mem_cons,
      List.mem_append, List.not_mem_nil, or_false, List.mem_filter] at hx
    simp only [exBodyTerm, binders, bindersAll, List.append_nil, List.nil_append, List.cons_append, List.mem_cons,
      List.not_mem_nil, or_false]
    rintro h1 (rfl | rfl | rfl) <;> simp at hx
  fresh := by
    simp [exBodyTerm, SomeFresh, SomeFreshAll, free]

def exEnv : DV := .dict [("f", .str "f")]
def exThis : DV := .dict [("a", .str "A")]
def exCtx : DV := .dict [("xs", .list [.dict [("ys", .list [.str "1", .str "2"])], .dict [("ys", .list [])]]), ("q", .str "Q")]

/-- its value -/
theorem exBody_value : ∃ p, compileLambda exBody ["p"] = .ok p ∧
    runLambda exDom p exEnv exThis exCtx [("p", DV.none)] = .ok (DV.list [
      .list [.str "f", .str "A"],
      .list [.list [.list [.str "1", .none], .list [.str "2", .none]], .list []],
      .str "Q"]) := ⟨_, rfl, rfl⟩

/-- what goes wrong for an expression: it means `v` and the compiled procedure does something else -/
def Wrong (e : Ex) (env this ctx : DV) (args : List (String × DV)) (v : DV) (r : Except Err DV) : Prop :=
  (parse e).map (denote exDom env ctx (("this", this) :: args)) = some (.ok v) ∧
  (∃ p, compileLambda e (args.map (·.1)) = .ok p ∧ runLambda exDom p env this ctx args = r) ∧ r ≠ .ok v

/-- `[(each x xs x) x]`: the variable is taken for a local one after its scope was closed -/
theorem c37_closed_scope : Wrong (.list [.tup [.sym "each" none, exSym "x", exSym "xs", exSym "x"] none, exSym "x"])
    exEnv exThis (.dict [("xs", .list []), ("x", .str "X")]) [] (.list [.list [], .str "X"]) (.error .exception) :=
  ⟨rfl, ⟨_, rfl, rfl⟩, by simp⟩

/-- `(if_some [x x] x x)`: the expression is compiled inside of the scope of its variable -/
theorem c37_if_some_self : Wrong (.tup [.sym "if_some" none, .list [exSym "x", exSym "x"], exSym "x", exSym "x"] none)
    exEnv exThis exCtx [("x", .str "X")] (.str "X") (.error .exception) :=
  ⟨rfl, ⟨_, rfl, rfl⟩, by simp⟩

/-- `(if_some [x y] x x)`: the second branch is compiled inside of the scope, and is `None` -/
theorem c37_if_some_else : Wrong (.tup [.sym "if_some" none, .list [exSym "x", exSym "y"], exSym "x", exSym "x"] none)
    exEnv exThis exCtx [("x", .str "X"), ("y", .none)] (.str "X") (.ok .none) :=
  ⟨rfl, ⟨_, rfl, rfl⟩, by simp⟩

/-- `(each x x x_2)`: a generated name captures an option -/
theorem c37_capture : Wrong (.tup [.sym "each" none, exSym "x", exSym "x", exSym "x_2"] none)
    exEnv exThis exCtx [("x", .list [.str "1"]), ("x_2", .str "X")] (.list [.str "X"]) (.ok (.list [.str "1"])) :=
  ⟨rfl, ⟨_, rfl, rfl⟩, by simp⟩

/-- `(each ctx xs q)`: a variable with a name which the generated code uses -/
theorem c37_reserved : Wrong (.tup [.sym "each" none, exSym "ctx", exSym "xs", exSym "q"] none)
    exEnv exThis (.dict [("xs", .list [.dict [("q", .str "1")]]), ("q", .str "Q")]) [] (.list [.str "Q"])
    (.ok (.list [.str "1"])) :=
  ⟨rfl, ⟨_, rfl, rfl⟩, by simp⟩

end Hiku.Expr
