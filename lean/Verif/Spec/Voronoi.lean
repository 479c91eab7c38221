import Verif.Spec.Box
import Mathlib.Algebra.BigOperators.Group.Finset.Basic

/-! # Vocabulary: Voronoi cells -/

namespace Stochopy.Spec
variable {K : Type} [Field K] [LinearOrder K] {n : Nat}

/-- Squared distance after scaling the box to the unit cube. -/
def scaledDist (lower upper x y : Vec K n) : K := ∑ j, ((x j - y j) / (upper j - lower j)) ^ 2

/-- `a` is strictly better than `b`; NaN is the worst value. -/
def Better (a b : Val K) : Prop := a < b ∨ (a ≠ .nan ∧ b = .nan)

instance (a b : Val K) : Decidable (Better a b) := by unfold Better; infer_instance

/-- `y` is in the Voronoi cell, within `models`, of a model that has fewer than `nr` strictly better ones. -/
def InGoodCell (fn : Vec K n → Val K) (lower upper : Vec K n) (nr : Nat) (models : List (Vec K n)) (y : Vec K n) : Prop :=
  ∃ v ∈ models, (∀ u ∈ models, scaledDist lower upper y v ≤ scaledDist lower upper y u) ∧
    models.countP (fun u => decide (Better (fn u) (fn v))) < nr

instance (fn : Vec K n → Val K) (lower upper : Vec K n) (nr : Nat) (models : List (Vec K n)) (y : Vec K n) :
    Decidable (InGoodCell fn lower upper nr models y) := by unfold InGoodCell; infer_instance

end Stochopy.Spec
