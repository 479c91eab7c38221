import Mathlib.Analysis.Complex.ExponentialBounds
import Mathlib.Topology.Order.IntermediateValue
import Verif.Model.Benchmark
import Verif.Spec.Benchmark

/-! # The benchmark functions and their minima -/

set_option linter.unusedSectionVars false

namespace Stochopy.Props
open Benchmark

section Poly
variable {K : Type} [Field K] [LinearOrder K] [IsStrictOrderedRing K] {n : Nat}

theorem exists_ne {x y : Vec K n} (h : x ≠ y) : ∃ j, x j ≠ y j := Function.ne_iff.1 h

/-- C57 for `sphere`. -/
theorem C57_sphere : UniqueMin (sphere : Vec K n → K) (fun _ => 0) 0 := by
  refine ⟨by simp [sphere], fun x hx => ?_⟩
  obtain ⟨j, hj⟩ := exists_ne hx
  exact Finset.sum_pos' (fun _ _ => sq_nonneg _) ⟨j, Finset.mem_univ _, by positivity⟩

/-- C57 for `quartic`. -/
theorem C57_quartic : UniqueMin (quartic : Vec K n → K) (fun _ => 0) 0 := by
  refine ⟨by simp [quartic], fun x hx => ?_⟩
  obtain ⟨j, hj⟩ := exists_ne hx
  have : 0 < x j ^ 4 := by positivity
  exact Finset.sum_pos' (fun _ _ => by positivity) ⟨j, Finset.mem_univ _, by positivity⟩

/-- C57 for `rosenbrock`: the all-ones vector is the only minimiser in dimension two and above. -/
theorem C57_rosenbrock_partial (hn : 2 ≤ n) : UniqueMin (rosenbrock : Vec K n → K) (fun _ => 1) 0 := by
  refine ⟨by simp [rosenbrock, tail, front], fun x hx => ?_⟩
  have h1 : 0 ≤ ∑ j, (tail x j - front x j ^ 2) ^ 2 := Finset.sum_nonneg fun _ _ => sq_nonneg _
  have h2 : 0 ≤ ∑ j, (1 - front x j) ^ 2 := Finset.sum_nonneg fun _ _ => sq_nonneg _
  refine lt_of_le_of_ne (by show 0 ≤ 100 * _ + _; positivity) fun h0 => hx ?_
  change 0 = 100 * _ + _ at h0
  have e1 : ∑ j, (tail x j - front x j ^ 2) ^ 2 = 0 := by linarith
  have e2 : ∑ j, (1 - front x j) ^ 2 = 0 := by linarith
  rw [Finset.sum_eq_zero_iff_of_nonneg fun _ _ => sq_nonneg _] at e1 e2
  have h3 : ∀ j, front x j = 1 := fun j => by
    have := pow_eq_zero_iff (two_ne_zero) |>.1 (e2 j (Finset.mem_univ _))
    linarith
  funext j
  by_cases hj : j.val < n - 1
  · exact h3 ⟨j.val, hj⟩
  · have h4 := pow_eq_zero_iff (two_ne_zero) |>.1 (e1 ⟨n - 2, by omega⟩ (Finset.mem_univ _))
    rw [h3] at h4
    have h5 : tail x ⟨n - 2, by omega⟩ = x j := congrArg x (Fin.ext (by show n - 2 + 1 = j.val; omega))
    rw [h5] at h4
    linarith

/-- In dimension one the code's `rosenbrock` is identically zero, so every point is a minimiser. -/
theorem C57_rosenbrock_violated : ¬ UniqueMin (rosenbrock : Vec K 1 → K) (fun _ => 1) 0 := by
  rintro ⟨-, h⟩
  have h1 := h (fun _ => 0) (Function.ne_iff.2 ⟨0, zero_ne_one⟩)
  simp [rosenbrock] at h1

/-- `rosenbrock` is never negative, whatever the dimension. -/
theorem C57_rosenbrock_nonneg_partial (x : Vec K n) : 0 ≤ rosenbrock x :=
  add_nonneg (mul_nonneg (by norm_num) (Finset.sum_nonneg fun _ _ => sq_nonneg _)) (Finset.sum_nonneg fun _ _ => sq_nonneg _)

/-- `styblinski_tang` takes negative values, in every dimension: the constant 39.16599 is too small. -/
theorem C57_styblinski_violated (hn : 0 < n) : ¬ ∀ x : Vec K n, 0 ≤ styblinskiTang x := by
  intro h
  have h1 := h fun _ => -2903 / 1000
  have h2 : styblinskiTang (fun _ : Fin n => (-2903 / 1000 : K)) = -(341546719 / 2000000000000) * (n : K) := by
    simp only [styblinskiTang, Finset.sum_const, Finset.card_univ, Fintype.card_fin, nsmul_eq_mul]
    ring
  rw [h2] at h1
  have h3 : (0 : K) < n := Nat.cast_pos.2 hn
  linarith

theorem styblinski_sum (x : Vec K n) :
    styblinskiTang x = ∑ j, (1 / 2 * (x j ^ 4 - 16 * x j ^ 2 + 5 * x j) + 3916599 / 100000) := by
  rw [Finset.sum_add_distrib, ← Finset.mul_sum, Finset.sum_const, Finset.card_univ, Fintype.card_fin, nsmul_eq_mul]
  unfold styblinskiTang
  ring

/-- It is negative by less than 0.00018 per coordinate. -/
theorem C57_styblinski_partial (x : Vec K n) : -(18 / 100000) * (n : K) ≤ styblinskiTang x := by
  have h : ∑ _j : Fin n, (-(18 / 100000) : K) = -(18 / 100000) * (n : K) := by
    rw [Finset.sum_const, Finset.card_univ, Fintype.card_fin, nsmul_eq_mul]; ring
  rw [styblinski_sum, ← h]
  refine Finset.sum_le_sum fun j _ => ?_
  nlinarith [sq_nonneg ((x j + 29035 / 10000) * (x j - 29035 / 10000)), sq_nonneg (x j + 29035 / 10000 + 1 / 1000)]

/-- The values the test suite compares with, at the vector of ones, for any length. -/
theorem C57_ones : sphere (fun _ : Fin n => (1 : K)) = n ∧ rosenbrock (fun _ : Fin n => (1 : K)) = 0 ∧
    quartic (fun _ : Fin n => (1 : K)) = (n : K) * (n + 1) / 2 ∧
    styblinskiTang (fun _ : Fin n => (1 : K)) = 3416599 / 100000 * n := by
  refine ⟨by simp [sphere], by simp [rosenbrock, tail, front], ?_, ?_⟩
  · unfold quartic
    simp only [one_pow, mul_one]
    rw [Fin.sum_univ_eq_sum_range fun k => ((k + 1 : ℕ) : K)]
    induction n with
    | zero => simp
    | succ n ih => rw [Finset.sum_range_succ, ih]; push_cast; ring
  · simp only [styblinskiTang, Finset.sum_const, Finset.card_univ, Fintype.card_fin, nsmul_eq_mul]
    ring

end Poly

section Real
variable {n : Nat}

theorem sumSq_pos {x : Vec ℝ n} (hx : x ≠ fun _ => 0) : 0 < ∑ j, x j ^ 2 := C57_sphere.2 x hx

/-- C57 for `rastrigin`. -/
theorem C57_rastrigin : UniqueMin (rastrigin : Vec ℝ n → ℝ) (fun _ => 0) 0 := by
  refine ⟨by simp [rastrigin]; ring, fun x hx => ?_⟩
  have h : ∑ j : Fin n, (x j ^ 2 - 10) ≤ ∑ j, (x j ^ 2 - 10 * Real.cos (2 * Real.pi * x j)) :=
    Finset.sum_le_sum fun j _ => by linarith [Real.cos_le_one (2 * Real.pi * x j)]
  rw [Finset.sum_sub_distrib, Finset.sum_const, Finset.card_univ, Fintype.card_fin, nsmul_eq_mul] at h
  show 0 < 10 * (n : ℝ) + _
  linarith [sumSq_pos hx]

/-- C57 for `griewank`. -/
theorem C57_griewank : UniqueMin (griewank : Vec ℝ n → ℝ) (fun _ => 0) 0 := by
  refine ⟨by simp [griewank], fun x hx => ?_⟩
  have h : ∏ j : Fin n, Real.cos (x j / Real.sqrt (j.val + 1 : ℕ)) ≤ 1 := by
    refine le_trans (le_abs_self _) ?_
    rw [Finset.abs_prod]
    exact Finset.prod_le_one (fun _ _ => abs_nonneg _) fun _ _ => Real.abs_cos_le_one _
  have h1 := sumSq_pos hx
  show 0 < 1 + _ - _
  linarith [div_pos h1 (by norm_num : (0 : ℝ) < 4000)]

/-- C57 for `ackley`: the minimiser is 0; the minimum is the difference between the literal and the number e. -/
theorem C57_ackley_partial (hn : 0 < n) : UniqueMin (ackley : Vec ℝ n → ℝ) (fun _ => 0) (litE - Real.exp 1) := by
  have hn' : (0 : ℝ) < n := Nat.cast_pos.2 hn
  refine ⟨?_, fun x hx => ?_⟩
  · simp only [ackley, ne_eq, OfNat.ofNat_ne_zero, not_false_eq_true, zero_pow, Finset.sum_const_zero, mul_zero, Real.sqrt_zero,
      Real.exp_zero, Real.cos_zero, Finset.sum_const, Finset.card_univ, Fintype.card_fin, nsmul_eq_mul, mul_one]
    rw [one_div_mul_cancel hn'.ne']
    ring
  · have h1 : 0 < Real.sqrt (1 / (n : ℝ) * ∑ j, x j ^ 2) := Real.sqrt_pos.2 (mul_pos (by positivity) (sumSq_pos hx))
    have h2 : Real.exp (-(2 / 10) * Real.sqrt (1 / (n : ℝ) * ∑ j, x j ^ 2)) < 1 := by
      refine lt_of_lt_of_eq (Real.exp_lt_exp.2 ?_) Real.exp_zero
      linarith
    have h3 : 1 / (n : ℝ) * ∑ j, Real.cos (2 * Real.pi * x j) ≤ 1 := by
      have : ∑ j, Real.cos (2 * Real.pi * x j) ≤ ∑ _j : Fin n, (1 : ℝ) := Finset.sum_le_sum fun _ _ => Real.cos_le_one _
      rw [Finset.sum_const, Finset.card_univ, Fintype.card_fin, nsmul_eq_mul, mul_one] at this
      rw [one_div, inv_mul_le_iff₀ hn', mul_one]
      exact this
    have h4 := Real.exp_le_exp.2 h3
    show _ < 20 + litE - 20 * _ - _
    linarith

/-- The literal is `e` to sixteen digits, rounded down. -/
theorem litE_bounds : litE < Real.exp 1 ∧ Real.exp 1 < litE + 2 / 10 ^ 16 := by
  have h := abs_le.1 Real.exp_one_near_20
  unfold litE
  constructor <;> norm_num at h ⊢ <;> linarith [h.1, h.2]

/-- In exact arithmetic `ackley` is negative at its minimiser. -/
theorem C57_ackley_violated (hn : 0 < n) : ¬ ∀ x : Vec ℝ n, 0 ≤ ackley x := by
  intro h
  have := h fun _ => 0
  rw [(C57_ackley_partial hn).1] at this
  linarith [litE_bounds.1]

/-- The least value of `styblinski_tang` is taken at one point, whose coordinates are all the same root of `4r³ - 32r + 5`. -/
theorem C57_styblinski_min_partial : ∃ r v : ℝ, -2.904 < r ∧ r < -2.903 ∧ 4 * r ^ 3 - 32 * r + 5 = 0 ∧ -0.00018 < v ∧ v < -0.00017 ∧
    ∀ n, UniqueMin (styblinskiTang : Vec ℝ n → ℝ) (fun _ => r) (v * n) := by
  obtain ⟨r, ⟨h1, h2⟩, h3⟩ : (0 : ℝ) ∈ (fun r : ℝ => 4 * r ^ 3 - 32 * r + 5) '' Set.Ioo (-2.904) (-2.903) := by
    refine intermediate_value_Ioo (by norm_num) (by fun_prop) ⟨by norm_num, by norm_num⟩
  dsimp only at h3
  have key : ∀ y : ℝ, 1 / 2 * (y ^ 4 - 16 * y ^ 2 + 5 * y) + 3916599 / 100000 -
      (1 / 2 * (r ^ 4 - 16 * r ^ 2 + 5 * r) + 3916599 / 100000) = 1 / 2 * (y - r) ^ 2 * ((y + r) ^ 2 + (2 * r ^ 2 - 16)) := by
    intro y
    linear_combination (1 / 2 * (y - r)) * h3
  have hr : 0 < 2 * r ^ 2 - 16 := by nlinarith
  refine ⟨r, 1 / 2 * (r ^ 4 - 16 * r ^ 2 + 5 * r) + 3916599 / 100000, h1, h2, h3, ?_, ?_, fun n => ⟨?_, fun x hx => ?_⟩⟩
  · nlinarith [sq_nonneg ((r + 29035 / 10000) * (r - 29035 / 10000)), sq_nonneg (r + 29035 / 10000 + 1 / 1000)]
  · have h4 := key (-29035 / 10000)
    have h5 : 0 ≤ 1 / 2 * (-29035 / 10000 - r) ^ 2 * ((-29035 / 10000 + r) ^ 2 + (2 * r ^ 2 - 16)) := by positivity
    norm_num at h4 h5 ⊢
    linarith
  · rw [styblinski_sum, Finset.sum_const, Finset.card_univ, Fintype.card_fin, nsmul_eq_mul]
    ring
  · obtain ⟨j, hj⟩ := exists_ne hx
    have h5 : ∑ _j : Fin n, (1 / 2 * (r ^ 4 - 16 * r ^ 2 + 5 * r) + 3916599 / 100000) = 
        (1 / 2 * (r ^ 4 - 16 * r ^ 2 + 5 * r) + 3916599 / 100000) * n := by
      rw [Finset.sum_const, Finset.card_univ, Fintype.card_fin, nsmul_eq_mul]; ring
    rw [styblinski_sum, ← h5]
    refine Finset.sum_lt_sum (fun i _ => ?_) ⟨j, Finset.mem_univ _, ?_⟩
    · have := key (x i)
      have h6 : 0 ≤ 1 / 2 * (x i - r) ^ 2 * ((x i + r) ^ 2 + (2 * r ^ 2 - 16)) := by positivity
      linarith
    · have := key (x j)
      have h7 : 0 < (x j - r) ^ 2 := by have := sub_ne_zero.2 hj; positivity
      have h6 : 0 < 1 / 2 * (x j - r) ^ 2 * ((x j + r) ^ 2 + (2 * r ^ 2 - 16)) := by positivity
      linarith

/-- The other values of the test suite. -/
theorem C57_ones_real (hn : 0 < n) : rastrigin (fun _ : Fin n => 1) = n ∧
    ackley (fun _ : Fin n => 1) = 20 + litE - 20 * Real.exp (-(2 / 10)) - Real.exp 1 ∧
    griewank (fun _ : Fin n => 1) = 1 + n / 4000 - ∏ j : Fin n, Real.cos (1 / Real.sqrt (j.val + 1 : ℕ)) := by
  have hn' : (n : ℝ) ≠ 0 := (Nat.cast_pos.2 hn).ne'
  refine ⟨?_, ?_, ?_⟩
  · simp [rastrigin]; ring
  · simp [ackley, hn']
  · simp [griewank]

end Real

end Stochopy.Props
