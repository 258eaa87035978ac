import Verif.Proofs.Frame
import Verif.Spec.Runs

/-! A small system used to show that the hypotheses of the engine theorems can be met: a low-level
graph with tracks and a high-level graph whose `Track.label` is computed by a sub-graph from
`Track.title` of the low-level graph. -/

namespace Hiku

/-- fields and links -/
def exTitle : GField := { name := "title", ty := none, func := .plain { id := 1 } }
def exLowAlbum : GField := { name := "album", ty := none, func := .plain { id := 1 } }
def exName : GField := { name := "name", ty := none, func := .plain { id := 4, passCtx := true } }
def exReqs : QNode := .mk [.link "this" (.mk [.field "title" none none] false) none none] false
def exLabel : GField := { name := "label", ty := none, func := .checked 0 exReqs 0 }
def exAlbumId : GField := { name := "albumId", ty := none, func := .plain { id := 5 } }
def exAlbumLink : GLink :=
  { name := "album", typeEnum := .one, node := "Album", func := { id := 3 }, requires := some "albumId" }
def exTracks : GLink :=
  { name := "tracks", typeEnum := .many, node := "Track", func := { id := 2 }, requires := none }

/-- nodes -/
def exLowTrack : GNode := { name := some "Track", fields := [.field exTitle, .field exLowAlbum] }
def exAlbum : GNode := { name := some "Album", fields := [.field exName] }
def exHighTrack : GNode :=
  { name := some "Track", fields := [.field exLabel, .field exAlbumId, .link exAlbumLink] }

/-- low-level graph -/
def exLow : Graph where
  items := [exLowTrack]

/-- high-level graph -/
def exHigh : Graph where
  items := [exAlbum, exHighTrack, { name := none, fields := [.link exTracks] }]

/-- the n-th row of a table -/
def exRows (f : QItem → Val → Val) (args : List Arg) : Except Err Val :=
  match args with
  | [.fields fs, .ids ids] => .ok (.list (ids.map fun i => .list (fs.map fun q => f q i)))
  | [.ctx, .fields fs, .ids ids] => .ok (.list (ids.map fun i => .list (fs.map fun q => f q i)))
  | _ => .error .typeError

def exWorld : World where
  call := fun _ f args =>
    match f with
    | 2 => .ok (.list [.int 10, .int 20])
    | 3 => match args with
        | [.val (.seq .list vs)] => .ok (.list vs)
        | _ => .error .typeError
    | _ => exRows (fun q i => .tup [.str q.name, i]) args
  proc := fun _ this _ _ =>
    match this with
    | .map .dict kvs =>
        match dget kvs (.str "title") with
        | some v => .ok (.tup [v])
        | none => .error .keyError
    | _ => .error .typeError

def exEnv : Env where
  sys := { graphs := [exLow, exHigh], subs := [{ graph := 0, node := "Track" }] }
  world := exWorld
  H := { atom := fun _ => 0, pairs := fun _ => 0, ints := fun _ => 0 }

def exQuery : QNode :=
  .mk [.link "tracks" (.mk [.field "label" none none,
        .link "album" (.mk [.field "name" none none] false) none none] false) none none] false

theorem exGraphs {gi : Nat} {g : Graph} (hg : exEnv.sys.graphs[gi]? = some g) :
    gi = 0 ∧ g = exLow ∨ gi = 1 ∧ g = exHigh := by
  match gi, hg with
  | 0, hg => simp [exEnv] at hg; exact .inl ⟨rfl, hg.symm⟩
  | 1, hg => simp [exEnv] at hg; exact .inr ⟨rfl, hg.symm⟩
  | n + 2, hg => simp [exEnv] at hg

/-- the fields and links of the example -/
theorem exItems {gi : Nat} {g : Graph} {gn : GNode} {n : String} {it : GItem}
    (hg : exEnv.sys.graphs[gi]? = some g) (hn : IsNode g gn) (h : gn.get n = some it) :
    (gi = 0 ∧ g = exLow ∧ gn = exLowTrack ∧ n = "title" ∧ it = .field exTitle) ∨
    (gi = 0 ∧ g = exLow ∧ gn = exLowTrack ∧ n = "album" ∧ it = .field exLowAlbum) ∨
    (gi = 1 ∧ g = exHigh ∧ gn = exAlbum ∧ n = "name" ∧ it = .field exName) ∨
    (gi = 1 ∧ g = exHigh ∧ gn = exHighTrack ∧ n = "label" ∧ it = .field exLabel) ∨
    (gi = 1 ∧ g = exHigh ∧ gn = exHighTrack ∧ n = "albumId" ∧ it = .field exAlbumId) ∨
    (gi = 1 ∧ g = exHigh ∧ gn = exHighTrack ∧ n = "album" ∧ it = .link exAlbumLink) ∨
    (gi = 1 ∧ g = exHigh ∧ gn = exHigh.root ∧ n = "tracks" ∧ it = .link exTracks) := by
  have hmem : (n, it) ∈ gn.fieldsMap := dget_mem h
  rcases exGraphs hg with ⟨rfl, rfl⟩ | ⟨rfl, rfl⟩
  · rcases hn with rfl | ⟨t, ht⟩
    · simp [exLow, Graph.root, exLowTrack, GNode.fieldsMap, dmk, dupdate] at hmem
    · have ht' := dget_mem ht
      have e : gn = exLowTrack := by
        simp [exLow, exLowTrack, Graph.nodesMap, dmk, dupdate, dset] at ht'
        obtain ⟨_, rfl⟩ := ht'
        rfl
      subst e
      simp [exLowTrack, GNode.fieldsMap, dmk, dupdate, dset, GItem.name, exTitle, exLowAlbum] at hmem
      rcases hmem with ⟨rfl, rfl⟩ | ⟨rfl, rfl⟩ <;> simp [exTitle, exLowAlbum]
  · rcases hn with rfl | ⟨t, ht⟩
    · simp [exHigh, exAlbum, exHighTrack, Graph.root, GNode.fieldsMap, dmk, dupdate, dset, GItem.name, exTracks] at hmem
      obtain ⟨rfl, rfl⟩ := hmem
      simp [exTracks]
    · have ht' := dget_mem ht
      have e : gn = exAlbum ∨ gn = exHighTrack := by
        simp [exHigh, exAlbum, exHighTrack, Graph.nodesMap, dmk, dupdate, dset] at ht'
        rcases ht' with ⟨_, rfl⟩ | ⟨_, rfl⟩ <;> simp [exAlbum, exHighTrack]
      rcases e with rfl | rfl
      · simp [exAlbum, GNode.fieldsMap, dmk, dupdate, dset, GItem.name, exName] at hmem
        obtain ⟨rfl, rfl⟩ := hmem
        simp [exName]
      · simp [exHighTrack, GNode.fieldsMap, dmk, dupdate, dset, GItem.name, exLabel, exAlbumId, exAlbumLink] at hmem
        rcases hmem with ⟨rfl, rfl⟩ | ⟨rfl, rfl⟩ | ⟨rfl, rfl⟩ <;> simp [exLabel, exAlbumId, exAlbumLink]

/-- any sub-graph field of the example uses the sub-graph number 0 on the graph number 0 -/
theorem exEnv_subsDecrease : SubsDecrease exEnv := by
  intro gi g hg gn hn n gf hget sg reqs proc hf
  rcases exItems hg hn hget with ⟨rfl, rfl, rfl, rfl, h⟩ | ⟨rfl, rfl, rfl, rfl, h⟩ | ⟨rfl, rfl, rfl, rfl, h⟩ |
    ⟨rfl, rfl, rfl, rfl, h⟩ | ⟨rfl, rfl, rfl, rfl, h⟩ | ⟨rfl, rfl, rfl, rfl, h⟩ | ⟨rfl, rfl, rfl, rfl, h⟩ <;>
    cases h <;> simp [exTitle, exLowAlbum, exName, exLabel, exAlbumId] at hf
  obtain ⟨rfl, _⟩ := hf
  exact ⟨{ graph := 0, node := "Track" }, rfl, by simp⟩

/-- wait for the first outstanding future only -/
theorem validChoice_first : ValidChoice fun _ l => l.take 1 := by
  intro _ out h
  cases out with
  | nil => exact absurd rfl h
  | cons x r => simp

/-- wait for all outstanding futures -/
theorem validChoice_all : ValidChoice fun _ l => l :=
  fun _ _ h => ⟨h, fun _ h => h⟩

theorem exStart : ∃ st, startQuery exEnv 1 exQuery = .ok st := ⟨_, rfl⟩

/-- the whole execution, with the high-level field computed through the sub-graph -/
example : ∃ idx q, execute exEnv (fun _ l => l.take 1) 20 20 1 exQuery = .ok (idx, q) ∧
    dget idx ("Track", .int 20, "label") = some (.tup [.tup [.str "title", .int 20]]) :=
  ⟨_, _, rfl, rfl⟩

theorem exCost : costQuery exEnv.sys 1 0 1 exQuery = 5 := by
  simp [costQuery, exEnv, exTitle, exLowAlbum, exName, exReqs, exLabel, exAlbumId, exAlbumLink, exTracks,
    exLowTrack, exAlbum, exHighTrack, exHigh, exLow, exQuery, costNode, costItems, costItem, Graph.root, Graph.node,
    GNode.get, GNode.fieldsMap, Graph.nodesMap, dmk, dupdate, dset, dget, GItem.name, costReq, costName,
    GLink.reqTruthy, costGItem, costField, costSub, costThis, THIS, QNode.fields]

theorem exForks : costQuery exEnv.sys 0 1 1 exQuery = 1 := by
  simp [costQuery, exEnv, exTitle, exLowAlbum, exName, exReqs, exLabel, exAlbumId, exAlbumLink, exTracks,
    exLowTrack, exAlbum, exHighTrack, exHigh, exLow, exQuery, costNode, costItems, costItem, Graph.root, Graph.node,
    GNode.get, GNode.fieldsMap, Graph.nodesMap, dmk, dupdate, dset, dget, GItem.name, costReq, costName,
    GLink.reqTruthy, costGItem, costField, costSub, costThis, THIS, QNode.fields]

end Hiku
