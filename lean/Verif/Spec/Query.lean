import Verif.Model.Query

/-! # Specification of "what a query requests" (independent of `merge`) -/

namespace Hiku

/-- The identity of a requested item: its name, the hash of its options and its alias. -/
abbrev ItemKey := String × Option Int × Option String

def itemKey (H : PyHash) : QItem → ItemKey
  | .field n o a => (n, optionsHash H o, a)
  | .link n _ o a => (n, optionsHash H o, a)

/-- `Requests H q path isLink key`: starting at `q` and following the links named by `path`, the
query asks for a field (`isLink = false`) or a link (`isLink = true`) with identity `key`. -/
inductive Requests (H : PyHash) : QNode → List ItemKey → Bool → ItemKey → Prop where
  | field {fs ord n o a} : QItem.field n o a ∈ fs →
      Requests H (.mk fs ord) [] false (n, optionsHash H o, a)
  | link {fs ord n q o a} : QItem.link n q o a ∈ fs →
      Requests H (.mk fs ord) [] true (n, optionsHash H o, a)
  | under {fs ord n q o a p b k} : QItem.link n q o a ∈ fs → Requests H q p b k →
      Requests H (.mk fs ord) ((n, optionsHash H o, a) :: p) b k

/-- `Below q q'`: `q'` is `q` or a node nested somewhere below it. -/
inductive Below : QNode → QNode → Prop where
  | refl (q) : Below q q
  | step {fs ord n q o a q'} : QItem.link n q o a ∈ fs → Below q q' → Below (.mk fs ord) q'

/-- no two fields and no two links of one node share an identity -/
def NodeNoDup (H : PyHash) (q : QNode) : Prop :=
  ((q.fields.filter fun i => !i.isLink).map (itemKey H)).Nodup ∧
  ((q.fields.filter fun i => i.isLink).map (itemKey H)).Nodup

end Hiku
