import Verif.Spec.Sampler
import Verif.Spec.Report

/-!
# Vocabulary: a complete run of a sampler

Metropolis-Hastings and Hamiltonian Monte Carlo chains, with the order in which random numbers are used, the points that are
evaluated and the report.  Samples are counted from 0; iteration `k` leads from sample `k` to sample `k + 1`.
-/

namespace Stochopy.Spec.Chain
open Sampling

/-- A target and what both methods need to know. -/
structure Setting (σ K : Type) (n : Nat) where
  R : Rng σ K
  fn : Vec (Val K) n → Val K
  /-- nothing is ever accepted (see C46) -/
  reject : Prop
  lower : Vec K n
  upper : Vec K n
  scale : Vec K n
  /-- the first sample, if it is given -/
  start : Option (Vec K n)
  /-- the number of samples -/
  samples : Nat
  callback : Bool
  history : Bool

variable {σ K : Type} [Zero K] [One K] [Add K] [Sub K] [Mul K] [Div K] [Neg K] [NatCast K] [IntCast K] [Pow K ℕ] [ArrayOps K] [LinearOrder K] {n : Nat}

/-- The first sample `x`: the one that was given, or uniform in the box. -/
def First (c : Setting σ K n) (g : σ) (x : Vec (Val K) n) (g' : σ) : Prop :=
  (∃ q, c.start = some q ∧ x = point q ∧ g' = g) ∨
  (c.start = none ∧ ∃ u, (u, g') = drawVec c.R.rand n g ∧ x = point fun j => c.lower j + (c.upper j - c.lower j) * u j)

/-- The test of proposal `y` from `x`: `drop` is the difference of the energies. -/
def Test [NumFns K] (c : Setting σ K n) (drop : Val K) (x y : Vec (Val K) n) (g : σ) (b : Bool) (x' : Vec (Val K) n) (g' : σ) : Prop :=
  (c.reject ∧ b = false ∧ x' = x ∧ g' = g) ∨
  (¬ c.reject ∧ ∃ u, (u, g') = c.R.rand g ∧ ((Accepts drop u ∧ b = true ∧ x' = y) ∨ (¬ Accepts drop u ∧ b = false ∧ x' = x)))

/-- The number of the best sample among those that were proposed and accepted in the first `k` iterations, the earliest one if there are
several; 0 if none has a value below infinity. -/
def Leader (fn : Vec (Val K) n → Val K) (X : Nat → Vec (Val K) n) (B : Nat → Bool) (k b : Nat) : Prop :=
  (b = 0 ∧ ∀ i < k, B i = true → ¬ fn (X (i + 1)) < .pinf) ∨
  (∃ j < k, b = j + 1 ∧ B j = true ∧ fn (X b) < .pinf ∧
    ∀ i < k, B i = true → ¬ fn (X (i + 1)) < fn (X b) ∧ (i < j → ¬ fn (X (i + 1)) ≤ fn (X b)))

/-- The number of proposals accepted in the first `k` iterations. -/
def acceptedBefore (B : Nat → Bool) (k : Nat) : Nat := ((Finset.range k).filter fun i => B i = true).card

/-- What the callback is told about sample `k`.  (The history that it is given lacks the last sample, see C49.) -/
structure Told (c : Setting σ K n) (X : Nat → Vec (Val K) n) (B : Nat → Bool) (k : Nat) (b : Sampling.CB K n) : Prop where
  nit : b.nit = k + 1
  xk : b.xk = X k
  best : ∃ l, Leader c.fn X B k l ∧ b.x = X l ∧ b.fval = c.fn (X l)
  ratio : b.acceptRatio = if k = 0 then 1 else (acceptedBefore B k : K) / ((k + 1 : Nat) : K)
  nohistory : c.history = false → b.xall = none ∧ b.funall = none
  history : c.history = true → b.xall = some ((List.range (max 1 k)).map X) ∧ b.funall = some ((List.range (max 1 k)).map fun i => c.fn (X i))

/-- What the call reports about the samples `X`, of which sample `k + 1` was newly accepted if `B k`. -/
structure Reports (c : Setting σ K n) (X : Nat → Vec (Val K) n) (B : Nat → Bool) (o : Sampling.Output σ K n) : Prop where
  nit : o.nit = c.samples
  ratio : o.acceptRatio = (acceptedBefore B (c.samples - 1) : K) / ((c.samples : Int) : K)
  nohistory : c.history = false → o.xall = none ∧ o.funall = none
  history : c.history = true → o.xall = some ((List.range c.samples).map X) ∧ o.funall = some ((List.range c.samples).map fun i => c.fn (X i))
  nocallback : c.callback = false → o.cbs = []
  callbacks : c.callback = true → o.cbs.length = c.samples
  callback : ∀ k b, o.cbs[k]? = some b → Told c X B k b

end Stochopy.Spec.Chain

namespace Stochopy.Spec.MCMC
open Chain

/-- A problem and the parameters of the method. -/
structure Setting (σ K : Type) (n : Nat) extends Chain.Setting σ K n where
  /-- the number of coordinates that are moved in an iteration -/
  size : Nat

variable {σ K : Type} [Zero K] [One K] [Add K] [Sub K] [Mul K] [Div K] [Neg K] [NatCast K] [IntCast K] [Pow K ℕ] [ArrayOps K] [LinearOrder K] [NumFns K] {n : Nat}

/-- Iteration `k`: from the sample `x`, with proposal `y`, to the sample `x'`. -/
def Iteration (c : Setting σ K n) (k : Nat) (x : Vec (Val K) n) (g : σ) (y : Vec (Val K) n) (b : Bool) (x' : Vec (Val K) n) (g' : σ) : Prop :=
  ∃ (z : Vec K c.size) (g1 : σ), (z, g1) = drawVec c.R.randn c.size g ∧
    (∃ m, m = k % blockCount n c.size ∧ m * c.size + c.size ≤ n ∧
      (∀ (i : Fin c.size) (j : Fin n), j.val = m * c.size + i.val → y j = x j + .fin (z i * c.scale j)) ∧
      ∀ j : Fin n, (j.val < m * c.size ∨ m * c.size + c.size ≤ j.val) → y j = x j) ∧
    Test c.toSetting (c.fn x - c.fn y) x y g1 b x' g'

/-- The output `o` of a chain from generator state `g`. -/
structure Run (c : Setting σ K n) (g : σ) (X : Nat → Vec (Val K) n) (gs : Nat → σ) (Y : Nat → Vec (Val K) n) (B : Nat → Bool)
    (o : Sampling.Output σ K n) : Prop where
  first : First c.toSetting g (X 0) (gs 0)
  atleast : 1 ≤ c.samples
  iteration : ∀ k, k + 1 < c.samples → Iteration c k (X k) (gs k) (Y k) (B k) (X (k + 1)) (gs (k + 1))
  report : Chain.Reports c.toSetting X B o
  best : ∃ l, Leader c.fn X B (c.samples - 1) l ∧ o.x = X l ∧ (l = 0 → o.fval = .pinf) ∧ (l ≠ 0 → o.fval = c.fn (X l))
  nfev : o.nfev = none
  evaluated : (c.reject → o.evals = [X 0]) ∧ (¬ c.reject → o.evals = X 0 :: (List.range (c.samples - 1)).map Y)
  rng : o.rng = gs (c.samples - 1)

end Stochopy.Spec.MCMC

namespace Stochopy.Spec.HMC
open Chain

/-- A problem and the parameters of the method. -/
structure Setting (σ K : Type) (n : Nat) extends Chain.Setting σ K n where
  leaps : Nat
  /-- the step of finite differences -/
  h : K

variable {σ K : Type} [Zero K] [One K] [Add K] [Sub K] [Mul K] [Div K] [Neg K] [NatCast K] [IntCast K] [Pow K ℕ] [ArrayOps K] [LinearOrder K] [NumFns K] {n : Nat}

/-- The point above `q` in direction `j`.  The coordinates before `j` have been moved up and down again: in exact arithmetic that
leaves them as they are (C82), in floating point arithmetic it need not (C87). -/
def above (h : K) (q : Vec (Val K) n) (j : Fin n) : Vec (Val K) n :=
  fun i => if i < j then q i + .fin h - .fin h else if i = j then q i + .fin h else q i

/-- The point below `q` in direction `j`; the coordinates before `j` have been moved down and up again. -/
def below (h : K) (q : Vec (Val K) n) (j : Fin n) : Vec (Val K) n :=
  fun i => if i < j then q i - .fin h + .fin h else if i = j then q i - .fin h else q i

/-- The points on both sides of `q` in every direction, in the order in which they are evaluated. -/
def around (h : K) (q : Vec (Val K) n) : List (Vec (Val K) n) := (List.finRange n).flatMap fun j => [above h q j, below h q j]

/-- Central differences, of values that may be infinite or NaN. -/
def gradient (fn : Vec (Val K) n → Val K) (h : K) (q : Vec (Val K) n) (j : Fin n) : Val K :=
  Val.divBy (.fin (1 / 2) * (fn (above h q j) - fn (below h q j))) h

/-- Leap-frog integration from position `Q 0` and momentum `p`: there are `leaps + 1` position steps (see C64); `P l` is the momentum
with which step `l` is made and `p'` the final momentum. -/
structure Trajectory (c : Setting σ K n) (p : Vec (Val K) n) (Q P : Nat → Vec (Val K) n) (p' : Vec (Val K) n) : Prop where
  first : ∀ j, P 0 j = p j - .fin (1 / 2 * c.scale j) * gradient c.fn c.h (Q 0) j
  position : ∀ l ≤ c.leaps, ∀ j, Q (l + 1) j = Q l j + .fin (c.scale j) * P l j
  momentum : ∀ l < c.leaps, ∀ j, P (l + 1) j = P l j - .fin (c.scale j) * gradient c.fn c.h (Q (l + 1)) j
  last : ∀ j, p' j = P c.leaps j - .fin (1 / 2 * c.scale j) * gradient c.fn c.h (Q (c.leaps + 1)) j

/-- Kinetic energy. -/
def energy (p : Vec (Val K) n) : Val K := .fin (1 / 2) * (List.ofFn fun j => p j * p j).foldl (· + ·) (.fin 0)

/-- An iteration: from the sample `x` to the sample `x'`; `E` are the points that are evaluated. -/
def Iteration (c : Setting σ K n) (x : Vec (Val K) n) (g : σ) (E : List (Vec (Val K) n)) (b : Bool) (x' : Vec (Val K) n) (g' : σ) : Prop :=
  ∃ (z : Vec K n) (g1 : σ) (Q P : Nat → Vec (Val K) n) (p' : Vec (Val K) n), (z, g1) = drawVec c.R.randn n g ∧
    Q 0 = x ∧ Trajectory c (point z) Q P p' ∧
    Test c.toSetting (c.fn x - c.fn (Q (c.leaps + 1)) + energy (point z) - energy p') x (Q (c.leaps + 1)) g1 b x' g' ∧
    (c.reject → E = (List.range (c.leaps + 2)).flatMap fun l => around c.h (Q l)) ∧
    (¬ c.reject → E = ((List.range (c.leaps + 2)).flatMap fun l => around c.h (Q l)) ++ [x, Q (c.leaps + 1)])

/-- The output `o` of a chain from generator state `g`. -/
structure Run (c : Setting σ K n) (g : σ) (X : Nat → Vec (Val K) n) (gs : Nat → σ) (E : Nat → List (Vec (Val K) n)) (B : Nat → Bool)
    (o : Sampling.Output σ K n) : Prop where
  first : First c.toSetting g (X 0) (gs 0)
  atleast : 1 ≤ c.samples
  iteration : ∀ k, k + 1 < c.samples → Iteration c (X k) (gs k) (E k) (B k) (X (k + 1)) (gs (k + 1))
  report : Chain.Reports c.toSetting X B o
  best : ∃ l : Fin c.samples, FirstBest (fun i : Fin c.samples => c.fn (X i)) l ∧ o.x = X l ∧ o.fval = c.fn (X l)
  nfev : o.nfev = some o.evals.length
  evaluated : o.evals = X 0 :: (List.range (c.samples - 1)).flatMap E
  rng : o.rng = gs (c.samples - 1)

end Stochopy.Spec.HMC

namespace Stochopy
open Spec
variable {K σ : Type} [Zero K] [One K] [Add K] [Sub K] [Mul K] [Div K] [Neg K] [NatCast K] [IntCast K] [Pow K ℕ] [ArrayOps K] [LinearOrder K]

/-- The first sample that the caller gave; when there is one variable it may have any shape of ones. -/
def Sampling.Args.given (a : Sampling.Args K) : Option (Vec K a.ndim) :=
  a.x0.map fun x => if x.shape = [a.ndim] then fun j => x.get [j] else fun _ => x.get (x.shape.map fun _ => 0)

/-- Standard deviations of the perturbations, in the order in which they are computed (in exact arithmetic: `Spec.scaleOf`). -/
def Sampling.Args.scales (a : Sampling.Args K) : Vec K a.ndim :=
  fun j => stepEntry a.stepsize j * (1 / 2 * (a.upper j - a.lower j))

/-- The number of coordinates perturbed per iteration (in exact arithmetic: `Spec.blockSize`). -/
def MCMC.Args.size [IntParts K] (a : MCMC.Args K) : Nat := max 1 (pyInt (a.perc * (a.ndim : K))).toNat

/-- The setting of an 'mcmc' call. -/
def MCMC.setting [IntParts K] (R : Rng σ K) (a : MCMC.Args K) (fn : Vec (Val K) a.ndim → Val K) : Spec.MCMC.Setting σ K a.ndim :=
  { R := R, fn := fn, reject := a.constraints = some "Reject", lower := a.lower, upper := a.upper, scale := a.scales,
    start := a.given, samples := a.maxiter.toNat, callback := a.callback.isSome, history := a.returnAll,
    size := a.size }

/-- The setting of an 'hmc' call. -/
def HMC.setting (R : Rng σ K) (a : HMC.Args K) (fn : Vec (Val K) a.ndim → Val K) : Spec.HMC.Setting σ K a.ndim :=
  { R := R, fn := fn, reject := a.constraints = some "Reject", lower := a.lower, upper := a.upper, scale := a.scales,
    start := a.given, samples := a.maxiter.toNat, callback := a.callback.isSome, history := a.returnAll,
    leaps := a.nleap.toNat, h := a.fdStep }

end Stochopy
