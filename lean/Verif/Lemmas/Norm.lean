import Verif.Spec.Run
import Mathlib.Analysis.InnerProductSpace.PiL2

/-! `distLe` is NumPy's `norm(a - b) <= tol`. -/

namespace Stochopy
open Spec

theorem distLe_iff {K : Type} [Sub K] [ArrayOps K] {n : Nat} (a b : Vec K n) (tol : K) :
    distLe a b tol = true ↔ Within a b tol := Iff.rfl

/-- In exact arithmetic. -/
theorem within_field {K : Type} [Field K] [LinearOrder K] {n : Nat} (a b : Vec K n) (tol : K) :
    Within a b tol ↔ 0 ≤ tol ∧ ∑ j, (a j - b j) ^ 2 ≤ tol ^ 2 := by
  simp [Within, ArrayOps.normLe]

/-- Over the reals the test is the one written in the code. -/
theorem within_iff {n : Nat} (a b : Vec ℝ n) (tol : ℝ) :
    Within a b tol ↔ ‖WithLp.toLp 2 (fun j => a j - b j)‖ ≤ tol := by
  rw [EuclideanSpace.norm_eq]
  simp only [Real.norm_eq_abs, sq_abs]
  rw [within_field]
  constructor
  · rintro ⟨h0, h⟩
    exact (Real.sqrt_le_left h0).2 h
  · intro h
    have h0 : 0 ≤ tol := le_trans (Real.sqrt_nonneg _) h
    exact ⟨h0, (Real.sqrt_le_left h0).1 h⟩

end Stochopy
