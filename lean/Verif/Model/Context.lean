import Verif.Model.Val

/-! # hiku/engine.py: Context -/

namespace Hiku

/-- `Context.__getitem__`, engine.py:410-415: the value in the mapping; the KeyError of the mapping is
replaced with another KeyError.  The mapping is an association list with unique keys. -/
def ctxGet (data : List (String × Val)) (key : String) : Except Err Val :=
  match dget data key with
  | none => .error .keyError
  | some v => .ok v

end Hiku
