import Mathlib.Analysis.SpecialFunctions.Log.Basic
import Mathlib.Analysis.SpecialFunctions.Sqrt
import Verif.Spec.Gauss
import Verif.Spec.Report

/-!
# Vocabulary: the evolution strategy with covariance matrix adaptation, and its stopping rules

The update equations are those of N. Hansen, *The CMA Evolution Strategy: A Tutorial*, with the constants of stochopy.
Coordinates are counted from the middle of the bounds in units of half their distance.
-/

namespace Stochopy.Spec

/-! ## Stopping rules -/

/-- All values of `S` are numbers, any two of them closer than `e`. -/
def Spread (S : Set (Val ℝ)) (e : ℝ) : Prop := ∀ x ∈ S, ∀ y ∈ S, ∃ a b : ℝ, x = .fin a ∧ y = .fin b ∧ |a - b| < e

/-- What the stopping rules look at, at the end of generation `it` (counted from 1): the means `old` and `new` before and after the
generation, the best values `best 0, …, best (it - 1)` of the generations, all values `fit` of this one, the new step size `sigma`,
evolution path `pc` and variances `var` of the coordinates, and the principal axes, if they are known, as the columns of `axes`. -/
structure StopData (p n : Nat) where
  it : Nat
  old : Vec ℝ n
  new : Vec ℝ n
  best : Nat → Val ℝ
  fit : Fin p → Val ℝ
  sigma : ℝ
  pc : Vec ℝ n
  var : Vec ℝ n
  axes : Option (Matrix (Fin n) (Fin n) ℝ)

/-- The rules in order.  `sigma0` is the initial step size.  The value 0 in the rules -5 and -7 is due to entries of the
array of best values that have not been filled yet (see C39). -/
def stopRules {p n : Nat} (maxiter : Int) (xtol : ℝ) (ftol : Val ℝ) (ilim : Nat) (sigma0 : ℝ) (d : StopData p n) : List (Int × Prop) :=
  [ (-1, maxiter ≤ d.it),
    (0, 0 ≤ xtol ∧ Real.sqrt (∑ j, (d.new j - d.old j) ^ 2) ≤ xtol ∧ d.best (d.it - 1) < ftol),
    (1, d.best (d.it - 1) ≤ ftol),
    (-2, ∃ M, d.axes = some M ∧ ∀ i : Fin n, i.val = d.it % n → ∀ j, |M j i| / 10 < 1 / 10 ^ 10),
    (-3, ∃ j, Real.sqrt (d.var j) / 5 < 1 / 10 ^ 10),
    (-4, ∃ M, d.axes = some M ∧ ∃ i j, 10 ^ 14 * ∑ l, M l j ^ 2 < ∑ l, M l i ^ 2),
    (-5, ilim ≤ d.it ∧ Spread (insert (.fin 0) {x | ∃ k, d.it - ilim ≤ k ∧ k < d.it ∧ x = d.best k}) (1 / 10 ^ 10)),
    (-6, ∃ j, 1000 * sigma0 < Real.sqrt (d.var j)),
    (-7, 3 ≤ d.it ∧ Spread (insert (.fin 0) (Set.range d.fit ∪ {x | ∃ k < d.it, x = d.best k})) (1 / 10 ^ 12)),
    (-8, ∀ j, d.sigma * |d.pc j| < sigma0 / 10 ^ 11 ∧ Real.sqrt (d.var j) < sigma0 / 10 ^ 11) ]

/-- `b` is a smallest value of `fit` (NaN counts as large). -/
def IsBest {p : Nat} (fit : Fin p → Val ℝ) (b : Val ℝ) : Prop := (∃ i, b = fit i) ∧ ∀ i, sortLe b (fit i)

/-! ## CMA-ES -/

namespace CMA
noncomputable section

/-- Recombination weights of `mu` parents. -/
def w (mu : Nat) (k : Fin mu) : ℝ :=
  (Real.log (mu + 1 / 2) - Real.log (k.val + 1)) / ∑ l : Fin mu, (Real.log (mu + 1 / 2) - Real.log (l.val + 1))

/-- Variance effective selection mass. -/
def mueff (mu : Nat) : ℝ := 1 / ∑ k, w mu k ^ 2

def cs (n mu : Nat) : ℝ := (mueff mu + 2) / (n + mueff mu + 5)
def cc (n mu : Nat) : ℝ := (4 + mueff mu / n) / (n + 4 + 2 * mueff mu / n)
def c1 (n mu : Nat) : ℝ := 2 / ((n + 1.3) ^ 2 + mueff mu)
def cmu (n mu : Nat) : ℝ := min (1 - c1 n mu) (2 * (mueff mu - 2 + 1 / mueff mu) / ((n + 2) ^ 2 + mueff mu))
def damps (n mu : Nat) : ℝ := 1 + 2 * max 0 (Real.sqrt ((mueff mu - 1) / (n + 1)) - 1) + cs n mu
/-- Approximation of the expected length of a standard normal vector. -/
def chi (n : Nat) : ℝ := Real.sqrt n * (1 - 1 / (4 * n) + 1 / (21 * n ^ 2))

/-- Euclidean length. -/
def len {n : Nat} (v : Vec ℝ n) : ℝ := Real.sqrt (∑ j, v j ^ 2)

/-- Mean, step size, covariance matrix and evolution paths; the covariance matrix `E` that is used for sampling, which is `C` as it
was after `e` evaluations. -/
structure Dist (n : Nat) where
  m : Vec ℝ n
  sigma : ℝ
  C : Matrix (Fin n) (Fin n) ℝ
  ps : Vec ℝ n
  pc : Vec ℝ n
  E : Matrix (Fin n) (Fin n) ℝ
  e : Nat

/-- The columns of `A` are the principal axes of the normal distribution with covariance matrix `E`, shortest first. -/
structure Axes {n : Nat} (E A : Matrix (Fin n) (Fin n) ℝ) : Prop where
  cov : A * A.transpose = E
  orth : ∀ i j, i ≠ j → ∑ l, A l i * A l j = 0
  sorted : ∀ i j, i ≤ j → ∑ l, A l i ^ 2 ≤ ∑ l, A l j ^ 2

/-- The step of the mean, `sel` being the selected steps, best first. -/
def step {n mu : Nat} (sel : Fin mu → Vec ℝ n) : Vec ℝ n := fun j => ∑ k, w mu k * sel k j

/-- The path `ps` is not much longer than expected after `g` generations. -/
def Short {n : Nat} (mu g : Nat) (ps : Vec ℝ n) : Prop :=
  len ps / Real.sqrt (1 - (1 - cs n mu) ^ (2 * g)) < (1.4 + 2 / (n + 1)) * chi n

/-- Generation `g` (counted from 1) with population size `p` turns `s` into `s'`. -/
structure Update {n mu : Nat} (p g : Nat) (sel : Fin mu → Vec ℝ n) (s s' : Dist n) : Prop where
  mean : ∀ j, s'.m j = s.m j + s.sigma * step sel j
  /-- `E^(-1/2)` takes the step to a standard normal vector -/
  ps : ∃ S : Matrix (Fin n) (Fin n) ℝ, Sym S ∧ PosDef S ∧ S * S = s.E ∧ ∃ z : Vec ℝ n, S.mulVec z = step sel ∧
    ∀ j, s'.ps j = (1 - cs n mu) * s.ps j + Real.sqrt (cs n mu * (2 - cs n mu) * mueff mu) * z j
  pc_short : Short mu g s'.ps → ∀ j, s'.pc j = (1 - cc n mu) * s.pc j + Real.sqrt (cc n mu * (2 - cc n mu) * mueff mu) * step sel j
  pc_long : ¬ Short mu g s'.ps → ∀ j, s'.pc j = (1 - cc n mu) * s.pc j
  C_short : Short mu g s'.ps → ∀ i j, s'.C i j = (1 - c1 n mu - cmu n mu) * s.C i j + c1 n mu * (s'.pc i * s'.pc j) +
    cmu n mu * ∑ k, w mu k * (sel k i * sel k j)
  C_long : ¬ Short mu g s'.ps → ∀ i j, s'.C i j = (1 - c1 n mu - cmu n mu) * s.C i j +
    c1 n mu * (s'.pc i * s'.pc j + cc n mu * (2 - cc n mu) * s.C i j) + cmu n mu * ∑ k, w mu k * (sel k i * sel k j)
  sigma : s'.sigma = s.sigma * Real.exp (cs n mu / damps n mu * (len s'.ps / chi n - 1))
  /-- the covariance matrix is decomposed when the last decomposition is old enough -/
  fresh : (p : ℝ) / (c1 n mu + cmu n mu) / n / 10 < g * p - s.e → s'.E = s'.C ∧ s'.e = g * p
  stale : ¬ (p : ℝ) / (c1 n mu + cmu n mu) / n / 10 < g * p - s.e → s'.E = s.E ∧ s'.e = s.e

/-- The first distribution. -/
structure Start {n : Nat} (sigma : ℝ) (s : Dist n) : Prop where
  sigma : s.sigma = sigma
  C : s.C = 1
  ps : s.ps = fun _ => 0
  pc : s.pc = fun _ => 0
  E : s.E = 1
  e : s.e = 0

/-- `sel` lists the best `mu` individuals in order of their values. -/
structure Ranking {p mu : Nat} (fit : Fin p → Val ℝ) (sel : Fin mu → Fin p) : Prop where
  inj : Function.Injective sel
  sorted : ∀ k l, k ≤ l → sortLe (fit (sel k)) (fit (sel l))
  rest : ∀ i, (∀ k, i ≠ sel k) → ∀ k, sortLe (fit (sel k)) (fit i)

/-- A run of `nit` generations with population size `p`, `mu` parents and initial step size `sigma0` that ends with `status`.  Before
generation `k` (counted from 0) the distribution is `D k`, its principal axes in units of the step size are the columns of `A k`, and
the random number generator is in state `gs k`.  The points of the generation are `X k`, what they are ranked by is `F k`, and `b k` is
the smallest entry of `F k`. -/
structure Run {σ : Type} {p n : Nat} (randn : σ → ℝ × σ) (mu : Nat) (maxiter : Int) (xtol : ℝ) (ftol : Val ℝ) (sigma0 : ℝ)
    (D : Nat → Dist n) (A : Nat → Matrix (Fin n) (Fin n) ℝ) (gs : Nat → σ) (X : Nat → Pop ℝ p n) (F : Nat → Fin p → Val ℝ)
    (b : Nat → Val ℝ) (nit : Nat) (status : Int) : Prop where
  start : Start sigma0 (D 0)
  axes : ∀ k ≤ nit, Axes (D k).E (A k)
  draw : ∀ k < nit, gs (k + 1) = (drawMat randn p n (gs k)).2
  points : ∀ k < nit, ∀ i j, X k i j = (D k).m j + (D k).sigma * (A k).mulVec ((drawMat randn p n (gs k)).1 i) j
  update : ∀ k < nit, ∃ sel : Fin mu → Fin p, Ranking (F k) sel ∧
    Update p (k + 1) (fun l j => (X k (sel l) j - (D k).m j) / (D k).sigma) (D k) (D (k + 1))
  best : ∀ k < nit, IsBest (F k) (b k)
  stop : ∀ k < nit, FirstHolds
    (stopRules maxiter xtol ftol ⌊10 + 30 * (n : ℝ) / p⌋₊ sigma0
      { it := k + 1, old := (D k).m, new := (D (k + 1)).m, best := b, fit := F k, sigma := (D (k + 1)).sigma, pc := (D (k + 1)).pc
        var := fun j => (D (k + 1)).sigma ^ 2 * (D (k + 1)).C j j, axes := some ((D (k + 1)).sigma • A (k + 1)) })
    (if k + 1 = nit then some status else none)

end
end CMA

end Stochopy.Spec
