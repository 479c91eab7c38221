import Mathlib.Data.Matrix.Mul
import Verif.Spec.Symmetry

/-!
# Problems in other linear coordinates (C100)

Independent of the algorithms.
-/

namespace Stochopy
variable {K : Type} [Field K] {n : Nat}

/-- New coordinates `A x + t`. -/
def chart (A : Matrix (Fin n) (Fin n) K) (t : Vec K n) (x : Vec K n) : Vec K n := fun j => ∑ k, A j k * x k + t j

/-- Back to the old coordinates, when `B` is the inverse of `A`. -/
def unchart (B : Matrix (Fin n) (Fin n) K) (t : Vec K n) (x : Vec K n) : Vec K n := fun j => ∑ k, B j k * (x k - t k)

/-- Points in the rows of `a`, in new coordinates. -/
def NdArr.chart (a : NdArr K) (A : Matrix (Fin n) (Fin n) K) (t : Vec K n) : NdArr K :=
  { shape := a.shape, get := fun l =>
      if h : l.getD 1 0 < n then Stochopy.chart A t (fun j => a.get [l.getD 0 0, j]) ⟨l.getD 1 0, h⟩ else a.get l }

/-- The same objective and the same starting population in new coordinates. -/
def DE.Args.chart (a : DE.Args K) (A B : Matrix (Fin a.ndim) (Fin a.ndim) K) (t : Vec K a.ndim) : DE.Args K :=
  { bounds := a.bounds, fn := a.fn.map fun f x => f (unchart B t x), x0 := a.x0.map fun x => x.chart A t,
    maxiter := a.maxiter, popsize := a.popsize, seed := a.seed, xtol := a.xtol, ftol := a.ftol, workers := a.workers,
    backend := a.backend, returnAll := a.returnAll, verbosity := a.verbosity, callback := a.callback,
    mutation := a.mutation, recombination := a.recombination, strategy := a.strategy, constraints := a.constraints,
    updating := a.updating }

end Stochopy
