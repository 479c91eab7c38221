import Verif.Model.Driver
import Mathlib.LinearAlgebra.Matrix.NonsingularInverse
import Mathlib.LinearAlgebra.Matrix.Trace
import Mathlib.Analysis.SpecialFunctions.Log.Deriv

/-!
# Natural gradients of the Gaussian model `N(0, D (I + v vᵀ) D)`
-/

namespace Stochopy.Spec

variable {n : Nat}

/-- `D (I + v vᵀ) D` -/
def covVD (d v : Vec ℝ n) : Matrix (Fin n) (Fin n) ℝ :=
  Matrix.diagonal d * (1 + Matrix.vecMulVec v v) * Matrix.diagonal d

/-- The logarithm of the density of `N(0, C)` at `x`, up to a constant. -/
noncomputable def logDensity (C : Matrix (Fin n) (Fin n) ℝ) (x : Vec ℝ n) : ℝ :=
  -(Real.log C.det) / 2 - (∑ i, ∑ j, x i * C⁻¹ i j * x j) / 2

/-- The derivative of the covariance matrix in the `k`-th entry of `v`, respectively of `d`. -/
noncomputable def dcovV (d v : Vec ℝ n) (k : Fin n) : Matrix (Fin n) (Fin n) ℝ := fun i j =>
  deriv (fun t => covVD d (Function.update v k t) i j) (v k)

noncomputable def dcovD (d v : Vec ℝ n) (k : Fin n) : Matrix (Fin n) (Fin n) ℝ := fun i j =>
  deriv (fun t => covVD (Function.update d k t) v i j) (d k)

/-- The entry of the Fisher information matrix of `N(0, C)` for two parameters with respect to which `C` has the
derivatives `A` and `B`. -/
noncomputable def fisher (C A B : Matrix (Fin n) (Fin n) ℝ) : ℝ := (C⁻¹ * A * (C⁻¹ * B)).trace / 2

/-- `(gv, gd)` is the natural gradient of `l` with respect to `(v, d)`: the Fisher information matrix times `(gv, gd)` is
the gradient of `l`.  The blocks relating `v` and `d` are scaled by `alpha`; the natural gradient proper is `alpha = 1`. -/
def NaturalGradient (alpha : ℝ) (l : Vec ℝ n → Vec ℝ n → ℝ) (d v gv gd : Vec ℝ n) : Prop :=
  (∀ k, HasDerivAt (fun t => l d (Function.update v k t))
    (∑ j, fisher (covVD d v) (dcovV d v k) (dcovV d v j) * gv j +
      alpha * ∑ j, fisher (covVD d v) (dcovV d v k) (dcovD d v j) * gd j) (v k)) ∧
  (∀ k, HasDerivAt (fun t => l (Function.update d k t) v)
    (alpha * ∑ j, fisher (covVD d v) (dcovD d v k) (dcovV d v j) * gv j +
      ∑ j, fisher (covVD d v) (dcovD d v k) (dcovD d v j) * gd j) (d k))

end Stochopy.Spec
