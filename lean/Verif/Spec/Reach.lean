import Verif.Spec.Kernel

/-!
# Vocabulary: where a Markov chain can go
-/

namespace Stochopy.Spec
open MeasureTheory
open scoped ENNReal

/-- The probability that a chain started in `x` is in `B` after the given transitions, each with a fresh random input of
law `P`. -/
noncomputable def reach {n : Nat} {Ω : Type} [MeasurableSpace Ω] (P : Measure Ω) (B : Set (Vec ℝ n)) :
    List (Vec ℝ n → Ω → Vec ℝ n) → Vec ℝ n → ℝ≥0∞
  | [], x => B.indicator 1 x
  | next :: l, x => ∫⁻ ω, reach P B l (next x ω) ∂P

/-- Where the transitions lead with the random inputs `ω`. -/
def walk {n : Nat} {Ω : Type} : (l : List (Vec ℝ n → Ω → Vec ℝ n)) → Vec ℝ n → (Fin l.length → Ω) → Vec ℝ n
  | [], x, _ => x
  | next :: l, x, ω => walk l (next x (ω 0)) fun i => ω i.succ

end Stochopy.Spec
