import Verif.Model.PyDict
import Verif.Spec.Result
import Mathlib.Data.List.Sort
import Mathlib.Data.String.Basic

/-!
# Model of `BaseResult` — /repo/stochopy/_common.py:1-36

A result is a `dict`; it has no instance attributes of its own, since `__setattr__` is `dict.__setitem__` (line 16).
-/

namespace Stochopy.Res

variable {V : Type}

/-- What `r.name` evaluates to: an attribute of the class (`dict` methods, dunder names, …) or an item. -/
inductive Attr (V : Type) where
  | ofClass (name : String)
  | item (v : V)

/-- `r.name`.  Python looks `name` up in the class first (`cls`) and calls `__getattr__` (lines 9-14) only if that fails. -/
def getAttr (cls : String → Bool) (r : Dict V) (name : String) : Except PyErr (Attr V) :=
  if cls name then .ok (.ofClass name)
  else match r.getItem name with
    | .ok v => .ok (.item v)
    | .error .keyError => .error .attributeError
    | .error e => .error e

/-- `r.name = v` — line 16. -/
def setAttr (r : Dict V) (name : String) (v : V) : Dict V := r.set name v

/-- `del r.name` — line 17. -/
def delAttr (r : Dict V) (name : String) : Except PyErr (Dict V) := r.delItem name

/-- `k.rjust(m)`. -/
def rjust (k : String) (m : Nat) : String := String.ofList (List.replicate (m - k.length) ' ' ++ k.toList)

/-- `max(map(len, list(self.keys()))) + 1` — line 22. -/
def width (r : Dict V) : Nat := (r.keys.map String.length).foldl max 0 + 1

/-- `sorted(self.items())`: the keys are distinct, so values are never compared — line 26. -/
def sortedItems (r : Dict V) : List (String × V) := r.insertionSort fun a b => a.1 ≤ b.1

/-- The lines of the text — lines 23-29. -/
def reprLines (rep : V → String) (r : Dict V) : List String :=
  ((sortedItems r).filter fun kv => !(["xall", "funall"].contains kv.1)).map fun kv =>
    rjust kv.1 (width r) ++ ": " ++ rep kv.2

/-- `__repr__` — lines 19-31. -/
def repr (cls : String) (rep : V → String) (r : Dict V) : String :=
  if r.keys.isEmpty then cls ++ "()" else "\n".intercalate (reprLines rep r)

/-- `__dir__` — lines 33-35. -/
def dir (r : Dict V) : List String := r.keys

/-- Perform an operation; a KeyError leaves the result unchanged. -/
def exec (r : Dict V) : Spec.Op V → Dict V
  | .setAttr k v => setAttr r k v
  | .setItem k v => r.set k v
  | .update kvs => r.update kvs
  | .delAttr k => match delAttr r k with
    | .ok r' => r'
    | .error _ => r
  | .delItem k => match r.delItem k with
    | .ok r' => r'
    | .error _ => r

end Stochopy.Res
