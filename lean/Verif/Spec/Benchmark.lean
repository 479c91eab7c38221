import Verif.Base.Num

/-! # Spec: global minima -/

namespace Stochopy

/-- `f` takes its least value `v` at `x0` and nowhere else. -/
def UniqueMin {K : Type} [LT K] {n : Nat} (f : Vec K n → K) (x0 : Vec K n) (v : K) : Prop :=
  f x0 = v ∧ ∀ x, x ≠ x0 → v < f x

end Stochopy
