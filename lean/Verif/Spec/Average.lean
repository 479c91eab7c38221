import Verif.Spec.Recur

/-!
# Vocabulary: means and averages
-/

namespace Stochopy.Spec
open MeasureTheory

/-- The mean of `h` under the probability density that is proportional to `w`. -/
noncomputable def mean {n : Nat} (w h : Vec ℝ n → ℝ) : ℝ := (∫ x, h x * w x) / ∫ x, w x

/-- The average of `h` over a list of points. -/
noncomputable def average {X : Type} (h : X → ℝ) (qs : List X) : ℝ := (qs.map h).sum / qs.length

end Stochopy.Spec
