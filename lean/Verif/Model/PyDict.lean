import Verif.Base.Num

/-!
# Python dictionaries with string keys

Insertion order is kept, keys are unique (every dictionary is built with `set` and `del` from the empty one).
-/

namespace Stochopy

/-- A `dict` with string keys, in insertion order. -/
abbrev Dict (V : Type) := List (String × V)

namespace Dict
variable {V : Type}

/-- `d[k]`, none for a missing key. -/
def get? : Dict V → String → Option V
  | [], _ => none
  | (k', v) :: d, k => if k' = k then some v else get? d k

/-- `d[k] = v`: an existing key keeps its position. -/
def set : Dict V → String → V → Dict V
  | [], k, v => [(k, v)]
  | (k', v') :: d, k, v => if k' = k then (k', v) :: d else (k', v') :: set d k v

/-- `d[k]` with the exception of a missing key. -/
def getItem (d : Dict V) (k : String) : Except PyErr V :=
  match get? d k with
  | some v => .ok v
  | none => .error .keyError

/-- `del d[k]`. -/
def delItem (d : Dict V) (k : String) : Except PyErr (Dict V) :=
  match get? d k with
  | some _ => .ok (d.filter fun e => e.1 ≠ k)
  | none => .error .keyError

/-- `d.update(e)`. -/
def update (d e : Dict V) : Dict V := e.foldl (fun d kv => set d kv.1 kv.2) d

/-- `d.keys()`. -/
def keys (d : Dict V) : List String := d.map Prod.fst

end Dict
end Stochopy
