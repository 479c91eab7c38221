import Verif.Base.Num

/-! # Vocabulary: the content of a result object after a sequence of operations -/

namespace Stochopy.Spec
variable {V : Type}

/-- Operations on a result object. -/
inductive Op (V : Type) where
  | setAttr (k : String) (v : V)
  | setItem (k : String) (v : V)
  | update (kvs : List (String × V))
  | delAttr (k : String)
  | delItem (k : String)

/-- The value stored under `k`, given the value `c` before the operation. -/
def Op.effect (k : String) (c : Option V) : Op V → Option V
  | .setAttr k' v => if k' = k then some v else c
  | .setItem k' v => if k' = k then some v else c
  | .update kvs => match kvs.reverse.find? fun kv => kv.1 = k with
    | some kv => some kv.2
    | none => c
  | .delAttr k' => if k' = k then none else c
  | .delItem k' => if k' = k then none else c

/-- The value stored under `k` after the operations `h` on an empty object. -/
def content (h : List (Op V)) (k : String) : Option V := h.foldl (Op.effect k) none

end Stochopy.Spec
