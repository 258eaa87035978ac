import Verif.Props.Example
import Verif.Model.StoreFx
import Verif.Model.Denormalize
import Verif.Model.Validate

/-! Concrete cases for the findings of DESIGN.md which are not covered by the properties -/

namespace Hiku

/-- every outstanding task is done in the next round -/
def allDone : Nat → List Nat → List Nat := fun _ l => l

/-- a graph with the link `a` to objects with the fields `x` and `y` -/
def fdX : GField := { name := "x", ty := none, func := .plain { id := 1 } }
def fdY : GField := { name := "y", ty := none, func := .plain { id := 1 } }
def fdA : GLink := { name := "a", typeEnum := .one, node := "N", func := { id := 2 }, requires := none }
def fdGraph : Graph where
  items := [{ name := some "N", fields := [.field fdX, .field fdY] }, { name := none, fields := [.link fdA] }]
def fdEnv : Env where
  sys := { graphs := [fdGraph], subs := [] }
  world := {
    call := fun _ f args =>
      match f with
      | 2 => .ok (.int 1)
      | _ => exRows (fun q _ => .str q.name) args
    proc := fun _ _ _ _ => .error .typeError }
  H := exEnv.H

def fdQuery : QNode :=
  .mk [.link "a" (.mk [.field "x" none none] false) none none, .link "a" (.mk [.field "y" none none] false) none (some "a")] false

/-- Finding 3: `{ a { x } a: a { y } }` is not changed by `merge`, is valid and is executed, but the result can not be
denormalized: both items are found under the key `a`, the second replaces the first. -/
theorem finding_same_key : merge fdEnv.H [fdQuery] = fdQuery ∧ validate fdGraph 100 fdQuery = .ok [] ∧
    ∃ idx, execute fdEnv allDone 5 5 0 fdQuery = .ok (idx, fdQuery) ∧
      denormalize fdEnv.H idx fdGraph fdQuery = .error .keyError := by
  refine ⟨rfl, rfl, [((rootName, rootIdent, "a"), .ref "N" (.int 1)), (("N", .int 1, "x"), .str "x"), (("N", .int 1, "y"), .str "y")],
    ?_, rfl⟩
  rfl

/-- the root field `r` of a record type, loaded by a function which gives what is selected -/
def fdR : GField := { name := "r", ty := some (.ref "R"), func := .plain { id := 1 } }
def fdRecord : Graph where
  items := [{ name := none, fields := [.field fdR] }]
  dataTypes := [("R", .record [("x", .string), ("y", .string)])]
def fdSelected : QItem → Val
  | .link _ q _ _ => .map .dict (q.fields.map fun i => (.str i.name, .str i.name))
  | .field .. => .none
def fdRecEnv : Env where
  sys := { graphs := [fdRecord], subs := [] }
  world := {
    call := fun _ _ args =>
      match args with
      | [.fields fs] => .ok (.list (fs.map fdSelected))
      | _ => .error .typeError
    proc := fun _ _ _ _ => .error .typeError }
  H := exEnv.H

def fdRecQuery : QNode :=
  .mk [.link "r" (.mk [.field "x" none none] false) none (some "a"), .link "r" (.mk [.field "y" none none] false) none (some "b")]
    false

/-- Finding 6: `{ a: r { x } b: r { y } }` for a field `r` with records is valid, both items are stored in one place: the second
value replaces the first, which is lost. -/
theorem finding_record_slot : validate fdRecord 100 fdRecQuery = .ok [] ∧
    ∃ idx, execute fdRecEnv allDone 5 5 0 fdRecQuery = .ok (idx, fdRecQuery) ∧
      idx = [((rootName, rootIdent, "r"), .map .dict [(.str "y", .str "y")])] ∧
      denormalize fdRecEnv.H idx fdRecord fdRecQuery = .error .keyError := by
  refine ⟨rfl, _, rfl, rfl, rfl⟩

/-- a link which requires a field with the option `size`, 10 by default -/
def fdIds : GField := { name := "ids", ty := none, func := .plain { id := 1 }, options := [{ name := "size", ty := none, dflt := .int 10 }] }
def fdItems : GLink := { name := "items", typeEnum := .many, node := "N", func := { id := 2 }, requires := some "ids" }
def fdRequires : Graph where
  items := [{ name := some "N", fields := [.field fdX] }, { name := none, fields := [.field fdIds, .link fdItems] }]

/-- Finding 11: the field requested by itself has the default value of the option; requested by a link it has no options. -/
theorem finding_requires_options :
    initOptions fdRequires (.mk [.field "ids" none none, .link "items" (.mk [] false) none none] false) =
      .ok (.mk [.field "ids" (some [("size", .int 10)]) none, .link "items" (.mk [] false) none none] false) ∧
    splitItems fdRequires.root [.link "items" (.mk [] false) none none] =
      .ok ([(fdIds.func.key, .field fdIds, .field "ids" none none)], [(fdItems, .link "items" (.mk [] false) none none)]) := by
  exact ⟨rfl, rfl⟩

/-- Finding 22: a callback added to a finished task stays in the queue, the loop has nothing to wait for. -/
theorem finding_late_callback (run : String → Queue String → Except Err (Queue String)) :
    let L : QLens (Queue String) String := { get := id, put := fun _ q => q }
    let q : Queue String := { futures := [(0, [5, 6])], forks := [(0, [])], nextTs := 1 }
    progress L run 10 [6] ((q.dropDone [5]).addCallback (.fut 5) "late") =
      .ok { callbacks := [(.fut 5, ["late"])], nextTs := 1 } := by
  rfl

/-- Finding 20: options which are not declared stay on a field and are dropped from a link. -/
theorem finding_unknown_options :
    let o : Opts := some [("x", .int 1)]
    initOptions exHigh (.mk [.link "tracks" (.mk [.field "albumId" o none] false) o none] false) =
      .ok (.mk [.link "tracks" (.mk [.field "albumId" o none] false) none none] false) := by
  rfl

/-- Finding 24: a single link which returns `Nothing` for the second object has written the first one. -/
theorem finding_partial_write :
    storeLinksFx exEnv.H [] exHighTrack exAlbumLink (.link "album" (.mk [] false) none none) (some [.int 1, .int 2])
        (.list [.int 7, .nothing]) =
      ([(("Track", .int 1, "album"), .ref "Album" (.int 7))], .error .assertionError) := by
  rfl

/-- Finding 23: the task set of an empty query stays in the queue: there is nothing to wait for. -/
theorem finding_empty_query : ∃ st, startQuery exEnv 1 (.mk [] false) = .ok st ∧ st.q.futures = [(0, [])] ∧
    st.q.outstanding = [] ∧ execLoop exEnv allDone 20 20 0 st = .ok st := by
  refine ⟨_, rfl, rfl, rfl, rfl⟩

end Hiku
