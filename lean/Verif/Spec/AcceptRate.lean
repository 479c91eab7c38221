import Verif.Spec.Average

/-!
# Vocabulary: the mean acceptance probability
-/

namespace Stochopy.Spec
open MeasureTheory

/-- The probability that the Metropolis rule accepts the random move of block `b` from `x`. -/
noncomputable def walkAcceptance {n : Nat} (f : Vec ℝ n → ℝ) (scale : Vec ℝ n) (per b : Nat) (x : Vec ℝ n) : ℝ :=
  ∫ z, min 1 (Real.exp (f x - f (blockMove scale per b x z))) ∂(gauss n)

/-- Its mean under the density proportional to `exp (-f)`, averaged over the blocks. -/
noncomputable def walkRate {n : Nat} (f : Vec ℝ n → ℝ) (scale : Vec ℝ n) (per : Nat) : ℝ :=
  (∑ b ∈ Finset.range (blockCount n per), mean (fun x => Real.exp (-f x)) (walkAcceptance f scale per b)) / blockCount n per

/-- The probability that the Metropolis rule accepts the end of the trajectory that starts in `q` with random momenta. -/
noncomputable def hamiltonianAcceptance {n : Nat} (f : Vec ℝ n → ℝ) (γ : Vec ℝ n → Vec ℝ n) (ε : Vec ℝ n) (L : Nat)
    (q : Vec ℝ n) : ℝ :=
  ∫ p, min 1 (Real.exp (hamiltonian f (q, p) - hamiltonian f ((verlet γ ε)^[L] (q, p)))) ∂(gauss n)

/-- Its mean under the density proportional to `exp (-f)`. -/
noncomputable def hamiltonianRate {n : Nat} (f : Vec ℝ n → ℝ) (γ : Vec ℝ n → Vec ℝ n) (ε : Vec ℝ n) (L : Nat) : ℝ :=
  mean (fun x => Real.exp (-f x)) (hamiltonianAcceptance f γ ε L)

end Stochopy.Spec
