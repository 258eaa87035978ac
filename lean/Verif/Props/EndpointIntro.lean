import Verif.Props.EndpointData

/-! # C45: endpoints as their constructor makes them, with introspection -/

namespace Hiku.Endpoint
open Hiku.Intro

variable {base : Nat} {dumps : Val → Except Err String} {env env' : Env} {D : Data} {U : String → Opts → Prop}

/-- the schema which the endpoint reports -/
def schemaOf (env : Env) (q : Nat) (m : Option Nat) : Schema where
  query := (env.sys.graphs[q]?).getD { items := [], dataTypes := [] }
  mutation := m.bind fun m => env.sys.graphs[m]?

/-- the data of the program of the endpoint: those of the original program and those of the schema -/
def endpointData (base : Nat) (dumps : Val → Except Err String) (env : Env) (q : Nat) (m : Option Nat) (D : Data) : Data :=
  match m with
  | none => introData dumps (schemaOf env q m) base q D
  | some i => introData dumps (schemaOf env q m) (base2 base (schemaOf env q m).query) i
      (introData dumps (schemaOf env q m) base q D)

theorem idxOf_lt (k : IFun) : table.idxOf k < table.length := by
  apply List.idxOf_lt_length_of_mem
  cases k <;> simp [table]

theorem introItems_below {n : GNode} (h : n ∈ introItems base) :
    (∀ gf, .field gf ∈ n.fields → ∀ f, gf.func = .plain f → f.id < base + table.length) ∧
    (∀ l, .link l ∈ n.fields → l.func.id < base + table.length) := by
  have hf : ∀ x t k gf, GItem.field gf = iField base x t k → ∀ f, gf.func = .plain f → f.id < base + table.length := by
    intro x t k gf e f hf
    simp only [iField] at e
    cases e
    cases hf
    simp only [IFun.func]
    have := idxOf_lt k
    omega
  have hl : ∀ x te nd k rq os l, GItem.link l = iLink base x te nd k rq os → l.func.id < base + table.length := by
    intro x te nd k rq os l e
    simp only [iLink] at e
    cases e
    simp only [IFun.func]
    have := idxOf_lt k
    omega
  have key : ∀ i ∈ n.fields, (∃ x t k, i = iField base x t k) ∨ ∃ x te nd k rq os, i = iLink base x te nd k rq os := by
    simp only [introItems, List.mem_cons, List.not_mem_nil, or_false] at h
    rcases h with rfl | rfl | rfl | rfl | rfl | rfl | rfl <;> intro i hi <;>
      simp only [typeNode, fieldNode, inputNode, directiveNode, enumNode, schemaNode, introRoot, List.mem_cons,
        List.not_mem_nil, or_false] at hi <;>
      rcases hi with rfl | rfl | rfl | rfl | rfl | rfl | rfl | rfl | rfl | rfl <;>
      first
        | exact .inl ⟨_, _, _, rfl⟩
        | exact .inr ⟨_, _, _, _, _, _, rfl⟩
  constructor
  · intro gf hgf
    rcases key _ hgf with ⟨x, t, k, e⟩ | ⟨x, te, nd, k, rq, os, e⟩
    · exact hf x t k gf e
    · simp [iLink] at e
  · intro l hgl
    rcases key _ hgl with ⟨x, t, k, e⟩ | ⟨x, te, nd, k, rq, os, e⟩
    · simp [iField] at e
    · exact hl x te nd k rq os l e

theorem intro_below {q : Nat} {s : Schema} {gq gq' : Graph} (hb : Telemetry.Below env.sys base)
    (hg : env.sys.graphs[q]? = some gq) (hi : introspect base gq = .ok gq') :
    Telemetry.Below (introEnv base dumps s env q gq gq').sys (base2 base gq) := by
  have hi := introspected hi
  have key : ∀ g ∈ (introEnv base dumps s env q gq gq').sys.graphs, ∀ n ∈ g.items,
      (∀ gf, .field gf ∈ n.fields → ∀ f, gf.func = .plain f → f.id < base2 base gq) ∧
      (∀ l, .link l ∈ n.fields → l.func.id < base2 base gq) := by
    intro g hg' n hn
    have hbase : base ≤ base2 base gq := by unfold base2; omega
    rcases List.mem_or_eq_of_mem_set hg' with h | rfl
    · exact ⟨fun gf h1 f h2 => Nat.lt_of_lt_of_le (hb.fields g h n hn gf h1 f h2) hbase,
        fun l h1 => Nat.lt_of_lt_of_le (hb.links g h n hn l h1) hbase⟩
    · rw [hi.eq] at hn
      rcases List.mem_append.1 hn with hn | hn
      · obtain ⟨n0, hn0, rfl⟩ := List.mem_map.1 hn
        have hmem := List.mem_of_getElem? hg
        constructor
        · intro gf hgf f hf
          rcases List.mem_append.1 hgf with h | h
          · exact Nat.lt_of_lt_of_le (hb.fields gq hmem n0 hn0 gf h f hf) hbase
          · rw [List.mem_singleton] at h
            simp only [typenameField] at h
            cases h
            cases hf
            simp only [typenameFunc, base2]
            have : (gq.items.map GNode.name).idxOf n0.name < (gq.items.map GNode.name).length :=
              List.idxOf_lt_length_of_mem (List.mem_map_of_mem hn0)
            rw [List.length_map] at this
            omega
        · intro l hl
          rcases List.mem_append.1 hl with h | h
          · exact Nat.lt_of_lt_of_le (hb.links gq hmem n0 hn0 l h) hbase
          · rw [List.mem_singleton] at h
            simp [typenameField] at h
      · have := introItems_below hn
        have hle : base + table.length ≤ base2 base gq := by unfold base2; omega
        exact ⟨fun gf h1 f h2 => Nat.lt_of_lt_of_le (this.1 gf h1 f h2) hle, fun l h1 => Nat.lt_of_lt_of_le (this.2 l h1) hle⟩
  exact ⟨fun g hg n hn => (key g hg n hn).1, fun g hg n hn => (key g hg n hn).2⟩

/-- the constructor makes a program which follows the loading protocol, for the data of the program and of the schema -/
theorem initEnv_conforms (hgood : GoodSys U env.sys) (hH : Faithful env.H D U) (hconf : Conforms env D U)
    (hb : Telemetry.Below env.sys base) (hU : IntroNames U) {q : Nat} {m : Option Nat}
    (hs : GoodSchema dumps (schemaOf env q m)) (hd : TypesDict (schemaOf env q m))
    (hsub : ∀ x ∈ env.sys.subs, x.graph ≠ q ∧ m ≠ some x.graph) (hqm : m ≠ some q)
    (hi : initEnv base dumps env q m = .ok env') :
    env'.H = env.H ∧ GoodSys U env'.sys ∧ Faithful env'.H (endpointData base dumps env q m D) U ∧
      Conforms env' (endpointData base dumps env q m D) U := by
  unfold initEnv at hi
  cases hq : env.sys.graphs[q]? with
  | none => rw [hq] at hi; cases hi
  | some gq =>
    rw [hq] at hi
    cases m with
    | none =>
      have hsc : schemaOf env q none = { query := gq } := by simp [schemaOf, hq]
      rw [hsc] at hs hd
      simp only [bind_ok_iff] at hi
      obtain ⟨gq', h1, h2⟩ := hi
      cases h2
      refine ⟨rfl, intro_goodSys hgood hU hq (introspected h1), ?_, ?_⟩
      · exact intro_faithful hH
      · simp only [endpointData, hsc]
        exact intro_conforms hgood hU hconf hb (fun x hx => (hsub x hx).1) hs hd hq (introspected h1)
    | some m =>
      simp only at hi
      cases hm : env.sys.graphs[m]? with
      | none => rw [hm] at hi; cases hi
      | some gm =>
        rw [hm] at hi
        have hsc : schemaOf env q (some m) = { query := gq, mutation := some gm } := by simp [schemaOf, hq, hm]
        rw [hsc] at hs hd
        simp only [bind_ok_iff] at hi
        obtain ⟨gq', h1, gm', h2, h3⟩ := hi
        cases h3
        have hne : m ≠ q := fun e => hqm (by rw [e])
        have hm1 : (introEnv base dumps { query := gq, mutation := some gm } env q gq gq').sys.graphs[m]? = some gm := by
          rw [introEnv_other hne]; exact hm
        have hg1 : GoodSys U (introEnv base dumps { query := gq, mutation := some gm } env q gq gq').sys :=
          intro_goodSys hgood hU hq (introspected h1)
        have hc1 := intro_conforms hgood hU hconf hb (fun x hx => (hsub x hx).1) hs hd hq (introspected h1)
        refine ⟨rfl, intro_goodSys hg1 hU hm1 (introspected h2), ?_, ?_⟩
        · exact intro_faithful (intro_faithful hH)
        · simp only [endpointData, hsc]
          refine intro_conforms hg1 hU hc1 (intro_below hb hq h1) ?_ hs hd hm1 (introspected h2)
          intro x hx e
          exact (hsub x hx).2 (by rw [e])

/-- C45 for endpoints with introspection: a valid query is answered with data, those of the program and those of the
schema (`endpointData`), with type names.  The functions of the program and the schedule may differ between
requests: `env` and `choose` are those of this request. -/
theorem c45_endpoint_partial (hgood : GoodSys U env.sys) (hH : Faithful env.H D U) (hconf : Conforms env D U)
    (hb : Telemetry.Below env.sys base) (hU : IntroNames U) {q : Nat} {m : Option Nat}
    (hs : GoodSchema dumps (schemaOf env q m)) (hd : TypesDict (schemaOf env q m))
    (hsub : ∀ x ∈ env.sys.subs, x.graph ≠ q ∧ m ≠ some x.graph) (hqm : m ≠ some q)
    {envs : List Run → Env} {choose : List Run → Nat → List Nat → List Nat} {inner fuel lim : Nat} {log : List Run}
    {parse : String → Except Err (List Defn)}
    (hi : initEnv base dumps env q m = .ok (envs log)) (hch : ValidChoice (choose log))
    {ep : Endpoint} (hep : ep = build parse lim (envs log).H (envs log).sys envs choose inner fuel q m)
    {r : Request} {op : Operation} {gi : Nat} {g : Graph} (h : Asks ep r op gi g)
    (hv : validate g lim (stripNode op.query) = .ok [])
    (hu : UniqueKeys op.query) (hsel : Selects g g.root op.query) :
    ∃ q', initOptions g (stripNode op.query) = .ok q' ∧
      ((∀ p node i, ItemAt g g.root q' p node i → U i.name i.options) →
        costQuery (envs log).sys 1 0 gi (stripNode op.query) < fuel →
        1 + costQuery (envs log).sys 0 1 gi (stripNode op.query) < inner →
        ∃ v, dispatch ep r log = (.ok (.data v), log ++ [⟨gi, stripNode op.query⟩]) ∧
          Completes g (rootType op.kind) op.query
            (semQuery (envs log).sys (endpointData base dumps env q m D) gi q') v) := by
  subst hep
  obtain ⟨h1, h2, h3, h4⟩ := initEnv_conforms hgood hH hconf hb hU hs hd hsub hqm hi
  exact c45_data_partial h2 h3 h4 hch rfl rfl (fun _ _ => rfl) h hv hu hsel

end Hiku.Endpoint
