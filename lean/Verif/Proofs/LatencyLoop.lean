import Verif.Proofs.LatencyStatic

/-! Deadlines hold while the executor loop runs. -/

namespace Hiku
namespace Lat

section
variable {env : Env} {wt : PFunc → Nat} {now : Nat} {Lim due : Nat → Nat} {st st' : St}
variable {w tw : Nat} {wf : Wf} {g : Graph} {gn : GNode} {sub : SubCall} {n : Nat}

theorem LI.processNode (hsd : SubsDecrease env) (hsub : SubFrame env 0 0 n sub) (hsl : SubL env wt n sub)
    {q : QNode} {ids : Option (List Val)} (hL : LI env wt now Lim due st)
    (hi : st.q.Inv st.results.length) (hw : st.wfs[w]? = some wf) (ht : wf.ts = tw)
    (hl : (dget st.q.futures tw).isSome) (hg : env.sys.graphs[wf.graph]? = some g)
    (hgn : wf.graph ≤ n) (hn : IsNode g gn)
    (hb : now + nodeTime wt (subTime env.sys env.H wt wf.graph) g gn q ≤ Lim tw)
    (h : processNode env sub w gn q ids st = .ok st') :
    ∃ Lim' due', Ext st Lim due Lim' due' ∧ LI env wt now Lim' due' st' := by
  obtain ⟨fs, ord⟩ := q
  unfold Hiku.processNode at h
  simp only [QNode.ordered, QNode.fields] at h
  cases ord with
  | true =>
    simp only [if_true, bind_ok_iff] at h
    obtain ⟨steps, hs, h⟩ := h
    obtain ⟨h1, _⟩ := groupItems_ok (a := 0) (b := 0) (sc := fun _ _ => 0) (g := g) (by simp) (by simp) hs
    have h2 := ordered_le (wt := wt) (subt := subTime env.sys env.H wt wf.graph) (g := g) hs
    exact hL.runSteps hsd hsub hsl hi hw ht hl hg hgn hn h1 (by omega) h
  | false =>
    simp only [Bool.false_eq_true, if_false, bind_ok_iff] at h
    obtain ⟨⟨fields, links⟩, hs, ⟨st1, toDep⟩, hgr, h⟩ := h
    obtain ⟨h1, h2, _⟩ := splitItems_ok (a := 0) (b := 0) (sc := fun _ _ => 0) (g := g) hs
    obtain ⟨_, _, h3⟩ := splitItems_loads hs
    obtain ⟨g1, _⟩ := groupByFunc_ok (a := 0) (b := 0) (sc := fun _ _ => 0) h1
    have htw : tw < st.q.nextTs := ht ▸ hL.wfs _ _ hw
    simp only [nodeTime] at hb
    obtain ⟨⟨n1, f1⟩, hd⟩ := frame_scheduleGroups (nf0 := 0) (nt0 := 0) hsd hsub hi hw ht hl hg hgn hn g1
      (Nat.zero_le _) (Nat.zero_le _) hgr
    obtain ⟨L1, d1, x1, l1, hd1⟩ := hL.scheduleGroups hsd hsub hsl hi hw ht hl hg hgn hn g1 (by
      intro x hx
      have := group_le (wt := wt) (subt := subTime env.sys env.H wt wf.graph) hs hx
      omega) hgr
    obtain ⟨wf', hw', e1, e2, e3⟩ := f1.wfAt hw
    have hlink : ∀ x ∈ links, linkStart wt (subTime env.sys env.H wt wf.graph) gn false fs [] x.1 +
        wt x.1.func + childTime wt (subTime env.sys env.H wt wf.graph) g x.1 x.2 ≤
        linksTime wt (subTime env.sys env.H wt wf.graph) g gn false fs [] fs := by
      intro x hx
      obtain ⟨nm, q, o, al, ex, eg⟩ := h2 x hx
      have hm := h3 x hx
      have := le_linksTime_unordered (wt := wt) (subt := subTime env.sys env.H wt wf.graph) (g := g) (gn := gn)
        (items := fs) (before := []) (before' := []) hm
      rw [ex, linkTime_eq eg] at this
      rw [ex]
      exact this
    obtain ⟨L2, d2, x2, l2⟩ := l1.scheduleLinks (wf := wf') f1.inv hw' (by rw [e3]; exact ht)
      (by rw [e1]; exact hg)
      (fun x hx => ⟨(hd x hx).2, (hd1 x hx).1, by
        obtain ⟨_, items, _, he⟩ := hd1 x hx
        rw [he]; exact Nat.le_add_right _ _⟩)
      (by
        intro x hx
        have hlx := hlink x hx
        rw [e1, x1.ts tw htw]
        split
        · rename_i hrt
          intro k o hk ho
          obtain ⟨_, items, hm, he⟩ := hd1 _ (dget_mem ho)
          simp only at hm he
          rw [he]
          -- the field which the link requires is loaded by `k`
          rw [dget_dmk] at hk
          have hmem := List.mem_reverse.1 (dget_mem hk)
          obtain ⟨f, hf, hfe⟩ := List.mem_map.1 hmem
          simp only [Prod.mk.injEq] at hfe
          obtain ⟨fe1, fe2⟩ := hfe
          obtain ⟨hfg, hfk⟩ := h1 f hf
          have hnm := GNode.get_name hfg
          rw [hnm] at fe1
          rw [fe1] at hfg
          have hld : loader gn (.field (x.1.requires.getD "") none none) = some k := by
            rw [loader_field hfg, ← fe2, ← hfk]
            cases f.2.1 <;> rfl
          have hgt := group_time (wt := wt) (subt := subTime env.sys env.H wt wf.graph) hs hm hld
          simp only at hgt
          have hst : linkStart wt (subTime env.sys env.H wt wf.graph) gn false fs [] x.1 =
              groupTime wt (subTime env.sys env.H wt wf.graph) gn k items := by
            simp [linkStart, required, hrt, maxOf, hgt]
          rw [hst] at hlx
          omega
        · omega) h
    exact ⟨L2, d2, x1.trans x2 f1.results_le f1.nts, l2⟩

theorem LI.processLink (hsd : SubsDecrease env) (hsub : SubFrame env 0 0 n sub) (hsl : SubL env wt n sub)
    {gl : GLink} {ql : QItem} {ids : Option (List Val)} {result : Val} (hL : LI env wt now Lim due st)
    (hi : st.q.Inv st.results.length) (hw : st.wfs[w]? = some wf) (ht : wf.ts = tw)
    (hl : (dget st.q.futures tw).isSome) (hg : env.sys.graphs[wf.graph]? = some g)
    (hgn : wf.graph ≤ n)
    (hb : now + childTime wt (subTime env.sys env.H wt wf.graph) g gl ql ≤ Lim tw)
    (h : processLink env sub w gn gl ql ids result st = .ok st') :
    ∃ Lim' due', Ext st Lim due Lim' due' ∧ LI env wt now Lim' due' st' := by
  simp only [Hiku.processLink, hw, bind_ok_iff] at h
  obtain ⟨idx, hidx, toIds, _, h⟩ := h
  have f1 := frame_setIndex (env := env) (a := 0) (b := 0) (tw := tw) (nf0 := 0) (nt0 := 0)
    (idx := idx) hi hw (fun c hc => storeLinks_mono hidx hc)
  have l1 := hL.setIndex (w := w) (idx := idx)
  split at h
  · simp at h; subst h
    exact ⟨Lim, due, .refl, l1⟩
  · rw [hg] at h
    simp only at h
    split at h
    · simp at h
    · simp at h
    · rename_i t q hgt
      obtain ⟨wf', hw', e1, e2, e3⟩ := f1.wfAt hw
      obtain ⟨L2, d2, x2, l2⟩ := l1.processNode hsd hsub hsl f1.inv hw' (by rw [e3]; exact ht) (f1.isLive hl)
        (by rw [e1]; exact hg) (by omega) (isNode_of_node hgt) (by
          simp only [childTime, hgt] at hb
          rw [e1]; exact hb) h
      exact ⟨L2, d2, ⟨x2.ts, x2.fut, x2.le⟩, l2⟩

theorem checked_reqs {items : List (GItem × QItem)} {ch : List (QNode × Nat)}
    (h : items.mapM (fun f => checkedOf f.1) = .ok ch) (hg : ∀ x ∈ items, gn.get x.2.name = some x.1) :
    ch.map (·.1) = (items.map (·.2)).filterMap (requirements gn) := by
  rw [mapM_ok_iff] at h
  induction h with
  | nil => rfl
  | @cons x y l l' hxy _ ih =>
    have ih := ih fun z hz => hg z (by simp [hz])
    have hx := hg x (by simp)
    have : requirements gn x.2 = some y.1 := by
      simp only [requirements, hx]
      cases hx1 : x.1 with
      | link gl => simp [checkedOf, hx1] at hxy
      | field gf =>
        obtain ⟨nm, ty, fn, op, ds⟩ := gf
        cases fn with
        | plain f => simp [checkedOf, hx1] at hxy
        | checked sg reqs proc => simp [checkedOf, hx1] at hxy; subst hxy; rfl
    simp [this, ih]

theorem subL_subGraphCall (hsd : SubsDecrease env) {n : Nat} {inner : SubCall}
    (hin : SubFrame env 0 0 n inner) (hil : SubL env wt n inner) : SubL env wt (n + 1) (subGraphCall env inner) := by
  intro sg s hs hlt gn items ids dep st st' src now Lim due hi hl hL hget hb h
  simp only [subGraphCall, hs] at h
  split at h
  · simp at h
  · rename_i g hg
    simp only [bind_ok_iff] at h
    obtain ⟨ch, hch, opts, hop, h⟩ := h
    split at h
    · simp at h
    · rename_i thisQ hthis
      simp only [bind_ok_iff] at h
      obtain ⟨st1, h1, st2, h2, h⟩ := h
      simp at h
      obtain ⟨rfl, rfl⟩ := h
      have hdl : dep < st.q.nextTs := by
        obtain ⟨x, hx⟩ := Option.isSome_iff_exists.1 hl
        exact hi.lt _ _ hx
      rw [← checked_reqs hch hget] at hb
      simp only [reqsTime, hg, hthis] at hb
      have f0 := frame_pushWf (env := env) (a := 0) (b := 0) (tw := dep) (nf0 := 0) (nt0 := 0)
        (wf := { graph := s.graph, query := merge env.H (ch.map (·.1)), ts := dep }) hi
      have l0 := hL.pushWf (wf := { graph := s.graph, query := merge env.H (ch.map (·.1)), ts := dep }) hdl
      have hw0 : (st.wfs ++ [({ graph := s.graph, query := merge env.H (ch.map (·.1)), ts := dep } : Wf)])[st.wfs.length]? =
          some { graph := s.graph, query := merge env.H (ch.map (·.1)), ts := dep } := by simp
      obtain ⟨n1, f1⟩ := frame_processLink (tw := dep) (a := 0) (b := 0) (nf0 := 0) (nt0 := 0)
        hsd hin f0.inv hw0 rfl hl hg (by simp; omega) (Nat.zero_le _) (Nat.zero_le _) h1
      obtain ⟨L1, d1, x1, l1⟩ := l0.processLink hsd hin hil f0.inv hw0 rfl hl hg (by simp; omega) (by
        simp only [childTime]
        cases thisQ with
        | field => simp only; omega
        | link nm q o a =>
          simp only [thisLink] at hb ⊢
          cases hh : g.node s.node with
          | none => simp only [hh] at hb ⊢; omega
          | some t => simp only [hh] at hb ⊢; omega) h1
      obtain ⟨wf1, hw1, e1, e2, e3⟩ := f1.wfAt hw0
      obtain ⟨L2, d2, x2, l2⟩ := l1.processNode hsd hin hil f1.inv hw1 e3 (f1.isLive hl) (by rw [e1]; exact hg)
        (by rw [e1]; simp; omega) (.inl rfl) (by
          rw [e1, x1.ts dep hdl]
          simp only
          omega) h2
      have x1' : Ext st Lim due L1 d1 := ⟨x1.ts, x1.fut, x1.le⟩
      exact ⟨L2, d2, x1'.trans x2 f1.results_le f1.nts, l2⟩

theorem subL_subCall (hsd : SubsDecrease env) : ∀ n, SubL env wt n (subCall env n)
  | 0 => fun sg s _ h => by omega
  | n + 1 => subL_subGraphCall hsd (subFrame_subCall hsd n) (subL_subCall hsd n)

theorem LI.runCB (hsd : SubsDecrease env) {cb : CB} (hL : LI env wt now Lim due st)
    (hi : st.q.Inv st.results.length) (hw : st.wfs[cb.wf]? = some wf) (ht : wf.ts = tw)
    (hl : (dget st.q.futures tw).isSome) (hsc : Scoped env wf.graph cb)
    (hb : now + cbTimeG env wt wf.graph cb ≤ Lim tw)
    (h : runCB env cb st = .ok st') :
    ∃ Lim' due', Ext st Lim due Lim' due' ∧ LI env wt now Lim' due' st' := by
  have hlev : ∀ g, env.sys.graphs[wf.graph]? = some g → wf.graph ≤ env.levels := by
    intro g hg
    have := (List.getElem?_eq_some_iff.1 hg).1
    simp only [Env.levels]; omega
  cases cb with
  | store w gn qfs ids src =>
    simp only [Hiku.runCB, bind_ok_iff] at h
    obtain ⟨result, _, h⟩ := h
    have hw' : st.wfs[w]? = some wf := hw
    simp only [hw', bind_ok_iff] at h
    obtain ⟨idx, hidx, h⟩ := h
    simp at h; subst h
    exact ⟨Lim, due, .refl, hL.setIndex⟩
  | schedLink w gn gl ql ids =>
    simp only [Hiku.runCB, bind_ok_iff] at h
    obtain ⟨⟨st1, o⟩, hs, h⟩ := h
    simp at h; subst h
    obtain ⟨g, hg, _⟩ := hsc
    simp only [cbTimeG, hg] at hb
    obtain ⟨L1, d1, x1, l1, _⟩ := hL.scheduleLink hi hw ht hg hb hs
    exact ⟨L1, d1, x1, l1⟩
  | procLink w gn gl ql ids fut =>
    simp only [Hiku.runCB, bind_ok_iff] at h
    obtain ⟨result, _, h⟩ := h
    obtain ⟨g, hg, _⟩ := hsc
    simp only [cbTimeG, hg] at hb
    exact hL.processLink hsd (subFrame_subCall hsd env.levels) (subL_subCall hsd env.levels) hi hw ht hl hg (hlev g hg) hb h
  | procSteps w gn ids steps =>
    simp only [Hiku.runCB] at h
    obtain ⟨g, hg, hn, hst⟩ := hsc
    simp only [cbTimeG, hg] at hb
    exact hL.runSteps hsd (subFrame_subCall hsd env.levels) (subL_subCall hsd env.levels) hi hw ht hl hg (hlev g hg) hn hst hb h

end

end Lat
end Hiku
