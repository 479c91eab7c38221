import Verif.Spec.Kernel
import Mathlib.Probability.ProductMeasure

/-!
# Vocabulary: infinite Markov chains
-/

namespace Stochopy.Spec
open MeasureTheory

/-- The chain that starts in `x` and makes its transition number `k` with the random input `ω k`. -/
def chain {X Ω : Type} (next : Nat → X → Ω → X) (x : X) (ω : Nat → Ω) : Nat → X
  | 0 => x
  | k + 1 => next k (chain next x ω k) (ω k)

/-- The law of infinitely many independent random inputs of law `P`. -/
noncomputable def inputs {Ω : Type} [MeasurableSpace Ω] (P : Measure Ω) [IsProbabilityMeasure P] : Measure (Nat → Ω) :=
  Measure.infinitePi fun _ => P

end Stochopy.Spec
