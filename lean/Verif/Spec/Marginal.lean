import Verif.Spec.Kernel
import Verif.Spec.Recur
import Verif.Spec.Average

/-!
# Vocabulary: objectives with random noise (C109)

`F ξ x` is the value of the objective at `x` when the noise is `ξ`.
-/

namespace Stochopy.Spec
open MeasureTheory ProbabilityTheory

variable {n : Nat} {Ξ : Type}

/-- The mean over the noise of `exp (-F)`. -/
noncomputable def meanWeight [MeasurableSpace Ξ] (ν : Measure Ξ) (F : Ξ → Vec ℝ n → ℝ) (x : Vec ℝ n) : ℝ :=
  ∫ ξ, Real.exp (-F ξ x) ∂ν

/-- One iteration of the random walk sampler on pairs of the noise and the point that were recorded last, with fresh noise for the
proposal, normal numbers and a uniform number. -/
noncomputable def noisyStep (F : Ξ → Vec ℝ n → ℝ) (scale : Vec ℝ n) (per b : Nat) (e : Ξ × Vec ℝ n) (ω : (Ξ × Vec ℝ n) × ℝ) :
    Ξ × Vec ℝ n :=
  let x' := blockMove scale per b e.2 ω.1.2
  if Sampling.metropolis (Val.fin (F e.1 e.2) - Val.fin (F ω.1.1 x')) ω.2 then (ω.1.1, x') else e

end Stochopy.Spec
