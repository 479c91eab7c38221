import Verif.Base.Num
import Mathlib.Data.Matrix.Mul
import Mathlib.MeasureTheory.Integral.Bochner.Basic

/-!
# Random vectors

Vocabulary for what the adaptation of `cmaes` and `vdcma` does on average when the selected steps carry no information.
-/

namespace Stochopy.Spec

open MeasureTheory

variable {Ω : Type} [MeasurableSpace Ω] {n : Nat}

/-- `f` has the expectation `c`. -/
def HasMean (P : Measure Ω) (f : Ω → ℝ) (c : ℝ) : Prop := Integrable f P ∧ ∫ ω, f ω ∂P = c

/-- `E[X Yᵀ] = M`. -/
def Cross (P : Measure Ω) (X Y : Ω → Vec ℝ n) (M : Matrix (Fin n) (Fin n) ℝ) : Prop :=
  ∀ i j, HasMean P (fun ω => X ω i * Y ω j) (M i j)

/-- The steps `y ω k`, `k < mu`, are what selection at random leaves of independent draws from a distribution with mean 0 and
covariance `C`: mean 0, covariance `C`, uncorrelated. -/
structure NeutralSteps (P : Measure Ω) {mu : Nat} (C : Matrix (Fin n) (Fin n) ℝ) (y : Ω → Fin mu → Vec ℝ n) : Prop where
  mean : ∀ k i, HasMean P (fun ω => y ω k i) 0
  cov : ∀ k l, Cross P (fun ω => y ω k) (fun ω => y ω l) (if k = l then C else 0)

/-- `X` is uncorrelated with the steps. -/
def Unrelated (P : Measure Ω) {mu : Nat} (X : Ω → Vec ℝ n) (y : Ω → Fin mu → Vec ℝ n) : Prop :=
  ∀ k, Cross P X (fun ω => y ω k) 0

end Stochopy.Spec
