import Verif.Spec.Recur
import Verif.Spec.Chain

/-!
# Vocabulary: ideal random number generators
-/

namespace Stochopy.Spec
open MeasureTheory ProbabilityTheory

variable {σ : Type}

/-- The state of the generator after `k` draws, where draw number `i` is a normal number if `s i`, otherwise a uniform one. -/
def stateAt {K : Type} (R : Rng σ K) (s : Nat → Bool) (g : σ) : Nat → σ
  | 0 => g
  | k + 1 => if s k then (R.randn (stateAt R s g k)).2 else (R.rand (stateAt R s g k)).2

/-- The numbers drawn. -/
def drawn {K : Type} (R : Rng σ K) (s : Nat → Bool) (g : σ) (k : Nat) : K :=
  if s k then (R.randn (stateAt R s g k)).1 else (R.rand (stateAt R s g k)).1

/-- The law of one draw. -/
noncomputable def drawLaw (normal : Bool) : Measure ℝ := if normal then gaussianReal 0 1 else unifLaw

/-- When the initial state has the law `Q`, the numbers of any sequence of draws are independent, the normal ones standard normal and
the uniform ones uniform in `[0, 1)`. -/
def Ideal [MeasurableSpace σ] (R : Rng σ ℝ) (Q : Measure σ) : Prop :=
  ∀ s : Nat → Bool, Measurable (drawn R s) ∧ Q.map (drawn R s) = Measure.infinitePi fun k => drawLaw (s k)

end Stochopy.Spec
