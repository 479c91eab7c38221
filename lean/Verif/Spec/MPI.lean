import Verif.Model.MPI

/-! # Vocabulary: what the ranks of a parallel run return -/

namespace Stochopy.Spec
variable {K σ : Type} {p n m : Nat}

/-- The same result, callback calls, evaluated points and final content of `x0`; only the generators may differ. -/
structure SameRun (o o' : Output σ K p n) : Prop where
  res : o'.res = o.res
  cbs : o'.cbs = o.cbs
  evals : o'.evals = o.evals
  x0After : o'.x0After = o.x0After

/-- The same values: `fun`, `success`, `nfev`, `nit`, `funall`, also in every callback call. -/
structure SameValues (o o' : Output σ K p n) : Prop where
  fval : o'.res.fval = o.res.fval
  success : o'.res.success = o.res.success
  nfev : o'.res.nfev = o.res.nfev
  nit : o'.res.nit = o.res.nit
  funall : o'.res.funall = o.res.funall
  cbs : o'.cbs.map (fun b => (b.fval, b.nfev, b.nit, b.funall)) = o.cbs.map fun b => (b.fval, b.nfev, b.nit, b.funall)
  evals : o'.evals = o.evals

/-- Every rank ends, rank 0 with `x`, and every other rank with something related to it (or with the same exception). -/
def AllEnd {α : Type} (rel : α → α → Prop) (x : Except PyErr α) (E : Ending α m) : Prop :=
  ∃ os, E = .done x os ∧ ∀ r, (∃ o o', x = .ok o ∧ os r = .ok o' ∧ rel o o') ∨ ∃ e, x = .error e ∧ os r = .error e

end Stochopy.Spec
