import Verif.Model.Driver

/-!
# Runs that differ only in the tests on the scale of the step size
-/

namespace Stochopy.Spec

variable {σ K : Type} {p n : Nat}

/-- `TolXUp` and `TolX`, the statuses that say that the step size is out of scale. -/
def OutOfScale (o : Output σ K p n) : Prop := o.res.status = -6 ∨ o.res.status = -8

/-- Two runs return the same unless one of them was found to be out of scale; then its requests are the first ones of the other. -/
structure Close (o o' : Output σ K p n) : Prop where
  same : ¬ OutOfScale o → ¬ OutOfScale o' → o' = o
  requests : (o.evals <+: o'.evals ∧ (o.evals = o'.evals ∨ OutOfScale o)) ∨ (o'.evals <+: o.evals ∧ (o.evals = o'.evals ∨ OutOfScale o'))

end Stochopy.Spec
