import Verif.Spec.Sampler
import Verif.Base.Lawful
import Mathlib.Probability.Distributions.Gaussian.Real

/-!
# Vocabulary: transitions of a Markov chain on `ℝⁿ`
-/

namespace Stochopy.Spec
open MeasureTheory ProbabilityTheory

/-- The law of a vector of independent standard normal numbers. -/
noncomputable def gauss (n : Nat) : Measure (Vec ℝ n) := Measure.pi fun _ => gaussianReal 0 1

/-- The law of a uniform number in `[0, 1)`. -/
noncomputable def unifLaw : Measure ℝ := volume.restrict (Set.Ico 0 1)

/-- Detailed balance: started from the density `w`, a transition `next` with random input of law `P` goes from `A` to `B`
as often as from `B` to `A`. -/
def DetailedBalance {n : Nat} {Ω : Type} [MeasurableSpace Ω] (P : Measure Ω) (next : Vec ℝ n → Ω → Vec ℝ n)
    (w : Vec ℝ n → ℝ) : Prop :=
  ∀ A B : Set (Vec ℝ n), MeasurableSet A → MeasurableSet B →
    ∫⁻ x in A, ENNReal.ofReal (w x) * P {ω | next x ω ∈ B} = ∫⁻ x in B, ENNReal.ofReal (w x) * P {ω | next x ω ∈ A}

/-- `x` with the coordinates of block number `b` moved by `scale` times `z`. -/
def blockMove {n : Nat} (scale : Vec ℝ n) (per b : Nat) (x z : Vec ℝ n) : Vec ℝ n := fun c =>
  if c.val / per = b then x c + z c * scale c else x c

/-- One iteration of a random walk Metropolis sampler on block `b`, with the code's acceptance test. -/
noncomputable def walkStep {n : Nat} (f : Vec ℝ n → ℝ) (scale : Vec ℝ n) (per b : Nat) (x : Vec ℝ n) (ω : Vec ℝ n × ℝ) :
    Vec ℝ n :=
  let x' := blockMove scale per b x ω.1
  if Sampling.metropolis (Val.fin (f x) - Val.fin (f x')) ω.2 then x' else x

/-- One iteration of Hamiltonian Monte Carlo with gradient `γ`, step sizes `ε` and `L` leap-frog steps, with the code's
acceptance test. -/
noncomputable def hamiltonianStep {n : Nat} (f : Vec ℝ n → ℝ) (γ : Vec ℝ n → Vec ℝ n) (ε : Vec ℝ n) (L : Nat)
    (q : Vec ℝ n) (ω : Vec ℝ n × ℝ) : Vec ℝ n :=
  let z := (verlet γ ε)^[L] (q, ω.1)
  if Sampling.metropolis (Val.fin (hamiltonian f (q, ω.1) - hamiltonian f z)) ω.2 then z.1 else q

end Stochopy.Spec
