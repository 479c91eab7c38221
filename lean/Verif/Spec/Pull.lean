import Verif.Spec.Ideal

/-!
# Vocabulary: one coordinate of one particle
-/

namespace Stochopy.Spec

/-- Position and velocity of a particle in one coordinate, after it was attracted by `p` (its best point) and `l` (the best point of the
swarm) with the random numbers `r`. -/
def pull (w c1 c2 p l : ℝ) (s r : ℝ × ℝ) : ℝ × ℝ :=
  (s.1 + (w * s.2 + c1 * r.1 * (p - s.1) + c2 * r.2 * (l - s.1)), w * s.2 + c1 * r.1 * (p - s.1) + c2 * r.2 * (l - s.1))

/-- Inertia, cognitivity and sociability for which the mean square distance to a common attractor decreases. -/
def Contracting (w c1 c2 : ℝ) : Prop :=
  (c1 ^ 2 + c2 ^ 2) / 12 + (1 + w - (c1 + c2) / 2) ^ 2 * (1 - w) / (1 + w) < 1 - w ^ 2

/-- The default values contract. -/
example : Contracting 0.7298 1.49618 1.49618 := by
  unfold Contracting
  norm_num

/-- The values of the first particle swarms do not. -/
example : ¬ Contracting 1 2 2 := by
  unfold Contracting
  norm_num

end Stochopy.Spec
