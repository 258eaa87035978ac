import Verif.Props.Semantics

/-! # C59: the calls of data functions are the plan of the query, whatever the schedule -/

namespace Hiku

variable {env : Env} {D : Data} {U : String → Opts → Prop}

/-- C59: for every order in which tasks finish, the calls of data functions which a finished execution has
made are, up to the order, the calls which `planQuery` computes from the query and the data: none is
missing, none is superfluous, none is made twice. -/
theorem c59_calls (hgood : GoodSys U env.sys) (hH : Faithful env.H D U) (hconf : Conforms env D U)
    {choose : Nat → List Nat → List Nat} (hch : ValidChoice choose)
    {gi : Nat} {g : Graph} {q q' : QNode} (hg : env.sys.graphs[gi]? = some g)
    (hi : initOptions g q = .ok q') (hq : NodeOk U g g.root q') {fuel inner : Nat}
    (hf : costQuery env.sys 1 0 gi q < fuel) (hin : 1 + costQuery env.sys 0 1 gi q < inner) :
    ∃ st st', startQuery env gi q = .ok st ∧ execLoop env choose inner fuel 0 st = .ok st' ∧
      (callsOf st'.log).Perm (planQuery env.sys env.H D gi q') := by
  have C : Setup env D U := ⟨hgood, hH, hconf⟩
  obtain ⟨st, n, st', wf, h1, h2, h3, _, _, h6, _⟩ := finish C hch hg hi hq
  refine ⟨st, st', h1, h3 fuel inner hf hin, ?_⟩
  have hp := h6.plan
  obtain ⟨_, hcb, _⟩ := c18_queue_empty C.good.subsDecrease hch h1 h2
  have hr : st'.q.regs.flatMap (fun p => cbPlan env D st'.wfs p.2) = [] := by
    rw [List.flatMap_eq_nil_iff]
    rintro ⟨o, cb⟩ hm
    have := (Queue.mem_regs h6.ok.inv.cnd).1 hm
    rw [hcb] at this; simp at this
  simpa [planOf, hr] using hp

/-- C59: and at every moment between the rounds of the executor the calls made so far are among the calls
of the plan, each of them as many times at most. -/
theorem c59_so_far (hgood : GoodSys U env.sys) (hH : Faithful env.H D U) (hconf : Conforms env D U)
    {choose : Nat → List Nat → List Nat} (hch : ValidChoice choose)
    {gi round : Nat} {g : Graph} {q q' : QNode} (hg : env.sys.graphs[gi]? = some g)
    (hi : initOptions g q = .ok q') (hq : NodeOk U g g.root q') {st st' : St}
    (hst : startQuery env gi q = .ok st) (hb : Between env choose 0 st round st') :
    ∃ rest, (callsOf st'.log ++ rest).Perm (planQuery env.sys env.H D gi q') := by
  have C : Setup env D U := ⟨hgood, hH, hconf⟩
  obtain ⟨st0, h1, h2⟩ := start_sinv C hg hi hq
  rw [hst] at h1; cases h1
  have := (h2.between C hch hb (start_einv C.good.subsDecrease hst).1).plan
  simp only [List.flatMap_nil, List.append_nil, planOf] at this
  exact ⟨_, this⟩

/-- C59: two executors, with two schedules, and even two implementations of the data functions which follow
the protocol for the same data, make the same calls up to the order. -/
theorem c59_schedule_independent {env' : Env} (hsys : env'.sys = env.sys) (hHH : env'.H = env.H)
    (hgood : GoodSys U env.sys) (hH : Faithful env.H D U) (hconf : Conforms env D U)
    (hconf' : Conforms env' D U)
    {choose choose' : Nat → List Nat → List Nat} (hch : ValidChoice choose) (hch' : ValidChoice choose')
    {gi : Nat} {g : Graph} {q q' : QNode} (hg : env.sys.graphs[gi]? = some g)
    (hi : initOptions g q = .ok q') (hq : NodeOk U g g.root q') {fuel inner : Nat}
    (hf : costQuery env.sys 1 0 gi q < fuel) (hin : 1 + costQuery env.sys 0 1 gi q < inner) :
    ∃ st st1 st' st1', startQuery env gi q = .ok st ∧ execLoop env choose inner fuel 0 st = .ok st1 ∧
      startQuery env' gi q = .ok st' ∧ execLoop env' choose' inner fuel 0 st' = .ok st1' ∧
      (callsOf st1.log).Perm (callsOf st1'.log) := by
  obtain ⟨st, st1, h1, h2, h3⟩ := c59_calls hgood hH hconf hch hg hi hq hf hin
  obtain ⟨st', st1', h1', h2', h3'⟩ := c59_calls (env := env') (by rw [hsys]; exact hgood) (by rw [hHH]; exact hH)
    hconf' hch' (by rw [hsys]; exact hg) hi hq (by rw [hsys]; exact hf) (by rw [hsys]; exact hin)
  rw [hsys, hHH] at h3'
  exact ⟨st, st1, st', st1', h1, h2, h1', h2', h3.trans h3'.symm⟩

/-! ### The hypotheses are met: the example system -/

/-- the plan of the example: the tracks; their titles through the sub-graph; the required album numbers;
the albums of both tracks in one call; the names of both albums in one call -/
example : planQuery exEnv.sys exEnv.H exData 1 exQuery =
    [({ id := 2 }, []),
     ({ id := 1 }, [.fields [.field "title" none none], .ids [.int 10, .int 20]]),
     ({ id := 5 }, [.fields [.field "albumId" none none], .ids [.int 10, .int 20]]),
     ({ id := 3 }, [.val (.list [.tup [.str "albumId", .int 10], .tup [.str "albumId", .int 20]])]),
     ({ id := 4, passCtx := true }, [.ctx, .fields [.field "name" none none],
       .ids [.tup [.str "albumId", .int 10], .tup [.str "albumId", .int 20]]])] := by
  have h1 : ∀ (sub : SubSem) (subp : SubPlan), planNode exData sub subp exHigh exHigh.root none exQuery =
      ({ id := 2 }, []) :: (((subp 0 [exReqs] [.int 10, .int 20] ++
        [({ id := 5 }, [.fields [.field "albumId" none none], .ids [.int 10, .int 20]])]) ++
       [({ id := 3 }, [.val (.list [.tup [.str "albumId", .int 10], .tup [.str "albumId", .int 20]])]),
        ({ id := 4, passCtx := true }, [.ctx, .fields [.field "name" none none],
          .ids [.tup [.str "albumId", .int 10], .tup [.str "albumId", .int 20]]])]) ++ []) := by
    intro sub subp
    rfl
  have h2 : planSub exEnv.sys exEnv.H exData 1 0 [exReqs] [.int 10, .int 20] =
      [({ id := 1 }, [.fields [.field "title" none none], .ids [.int 10, .int 20]])] := by
    rw [planSub]
    rfl
  show planNode _ _ _ exHigh _ _ _ = _
  rw [h1, h2]
  rfl

/-- fields with one function which do not follow each other: loaded together unless the node is ordered -/
example : together exHighTrack false [.field "label" none none, .field "albumId" none none, .field "label" none (some "l")] =
      [[.field "albumId" none none], [.field "label" none none, .field "label" none (some "l")]] ∧
    together exHighTrack true [.field "label" none none, .field "albumId" none none, .field "label" none (some "l")] =
      [[.field "label" none none], [.field "albumId" none none], [.field "label" none (some "l")]] :=
  ⟨rfl, rfl⟩

/-- and the execution makes these calls, one future finished per round -/
example : ∃ st st', startQuery exEnv 1 exQuery = .ok st ∧ execLoop exEnv (fun _ l => l.take 1) 3 6 0 st = .ok st' ∧
    (callsOf st'.log).Perm (planQuery exEnv.sys exEnv.H exData 1 exQuery) :=
  c59_calls exGood exFaithful exConforms validChoice_first (g := exHigh) rfl rfl exQuery_ok
    (by rw [exCost]; omega) (by rw [exForks]; omega)

end Hiku
