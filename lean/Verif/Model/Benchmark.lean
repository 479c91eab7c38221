import Mathlib.Analysis.SpecialFunctions.Trigonometric.Basic
import Mathlib.Analysis.SpecialFunctions.Exp
import Verif.Base.Num

/-! # Model of `stochopy/factory/benchmark.py`

Each function takes a 1-D array of length `n`.  The polynomial ones are modelled over any field, the others over the reals;
arithmetic, `np.cos`, `np.exp`, `np.sqrt` and `np.pi` are exact and the decimal literals are the numbers they spell.  `ackley`
of the empty array raises ZeroDivisionError (`1.0 / ndim`); its model is meant for `0 < n` only.
-/

namespace Stochopy.Benchmark

variable {K : Type} [Field K] {n : Nat}

/-- `x[1:]` (in `rosenbrock`). -/
def tail (x : Vec K n) : Vec K (n - 1) := fun j => x ⟨j.val + 1, by omega⟩
/-- `x[:-1]` (in `rosenbrock`). -/
def front (x : Vec K n) : Vec K (n - 1) := fun j => x ⟨j.val, by omega⟩

/-- The literal `e` — /repo/stochopy/factory/benchmark.py:31. -/
noncomputable def litE : ℝ := 2.7182818284590451

/-- `ackley` — /repo/stochopy/factory/benchmark.py:14-34. -/
noncomputable def ackley (x : Vec ℝ n) : ℝ :=
  let sum1 := Real.sqrt (1 / (n : ℝ) * ∑ j, x j ^ 2)                              -- line 32
  let sum2 := 1 / (n : ℝ) * ∑ j, Real.cos (2 * Real.pi * x j)                     -- line 33
  20 + litE - 20 * Real.exp (-(2 / 10) * sum1) - Real.exp sum2                    -- line 34

/-- `griewank` — /repo/stochopy/factory/benchmark.py:37-56. -/
noncomputable def griewank (x : Vec ℝ n) : ℝ :=
  let sum1 := (∑ j, x j ^ 2) / 4000                                               -- line 54
  let prod1 := ∏ j : Fin n, Real.cos (x j / Real.sqrt (j.val + 1 : ℕ))            -- line 55
  1 + sum1 - prod1                                                                -- line 56

/-- `quartic` — /repo/stochopy/factory/benchmark.py:59-76. -/
def quartic (x : Vec K n) : K := ∑ j : Fin n, ((j.val + 1 : ℕ) : K) * x j ^ 4     -- line 76

/-- `rastrigin` — /repo/stochopy/factory/benchmark.py:79-97. -/
noncomputable def rastrigin (x : Vec ℝ n) : ℝ :=
  let sum1 := ∑ j, (x j ^ 2 - 10 * Real.cos (2 * Real.pi * x j))                  -- line 96
  10 * (n : ℝ) + sum1                                                             -- line 97

/-- `rosenbrock` — /repo/stochopy/factory/benchmark.py:100-118. -/
def rosenbrock (x : Vec K n) : K :=
  let sum1 := ∑ j, (tail x j - front x j ^ 2) ^ 2                                 -- line 116
  let sum2 := ∑ j, (1 - front x j) ^ 2                                            -- line 117
  100 * sum1 + sum2                                                               -- line 118

/-- `sphere` — /repo/stochopy/factory/benchmark.py:121-136. -/
def sphere (x : Vec K n) : K := ∑ j, x j ^ 2                                      -- line 136

/-- `styblinski_tang` — /repo/stochopy/factory/benchmark.py:139-156. -/
def styblinskiTang (x : Vec K n) : K :=
  let sum1 := ∑ j, (x j ^ 4 - 16 * x j ^ 2 + 5 * x j)                             -- line 155
  5 / 10 * sum1 + 3916599 / 100000 * (n : K)                                      -- line 156

end Stochopy.Benchmark
