import Verif.Spec.Evo

/-!
# Vocabulary: the boundary penalty of `cmaes` and `vdcma`

Finite objective values.  Coordinates are counted from the middle of the bounds in units of half their distance, so that the
search space is the cube `[-1, 1]^n`.
-/

namespace Stochopy.Spec
variable {K : Type} [Field K] [LinearOrder K] [NumFns K] {p n : Nat}

/-- `x` is the `q`-quantile of the numbers in `l`, interpolated linearly between neighbours. -/
def Quantile (q : K) (l : List K) (x : K) : Prop :=
  ∃ (s : List K) (i : Nat) (t y z : K), s.Perm l ∧ s.Pairwise (· ≤ ·) ∧ 0 ≤ t ∧ t < 1 ∧ (i : K) + t = q * ((l.length : K) - 1) ∧
    s[i]? = some y ∧ (s[i + 1]? = some z ∨ t = 0) ∧ x = (1 - t) * y + t * z

/-- What the penalty remembers: fitness ranges, whether all ranges so far were 0, the weights of the coordinates, and whether the
weights are still being set. -/
structure PenaltyMemory (K : Type) (n : Nat) where
  ranges : List K
  flat : Bool
  w : Vec K n
  setting : Bool

/-- Before the first generation. -/
def PenaltyMemory.start (n : Nat) : PenaltyMemory K n := { ranges := [1], flat := true, w := fun _ => 0, setting := true }

/-- The number of parents that would do as well with equal weights. -/
def selectionMass (mu : Nat) : K :=
  (∑ k : Fin mu, (NumFns.log ((mu : K) + 1 / 2) - NumFns.log ((k : K) + 1))) ^ 2 /
    ∑ k : Fin mu, (NumFns.log ((mu : K) + 1 / 2) - NumFns.log ((k : K) + 1)) ^ 2

/-- The mean has left the search space. -/
def Left (m : Vec K n) : Prop := ∃ j, m j < -1 ∨ 1 < m j

/-- One generation of the memory: the objective values are `f`, the mean is `m` and was `mOld`, the step size is `sigma` and `var`
are the variances. -/
structure PenaltyStep (mu it : Nat) (m mOld : Vec K n) (sigma : K) (var : Vec K n) (f : Fin p → K) (s s' : PenaltyMemory K n) : Prop where
  /-- The quartile distance in units of the squared step; 0 is replaced by the smallest range known, and the initial value 1 is
  forgotten at the first range that is not 0.  Only the last `20 + 3 n / p` ranges are kept. -/
  ranges : ∃ q1 q3 d : K, Quantile (1 / 4) (List.ofFn f) q1 ∧ Quantile (3 / 4) (List.ofFn f) q3 ∧
    ∃ base : List K,
      ((q3 = q1 ∧ d ∈ s.ranges ∧ (∀ x ∈ s.ranges, d ≤ x) ∧ base = s.ranges ∧ s'.flat = s.flat) ∨
        (q1 < q3 ∧ d = (q3 - q1) / (sigma ^ 2 * ∑ j, var j) ∧ (base = if s.flat then [] else s.ranges) ∧ s'.flat = false)) ∧
      ∃ cut, s'.ranges = (base ++ [d]).drop cut ∧ cut ≤ 1 ∧ (cut = 1 ↔ 20 + 3 * (n : K) / (p : K) ≤ (base.length : K))
  /-- As long as the weights are being set they are 2.0002 times the median range whenever the mean has left the search space.  Then
  the weight of a coordinate is increased if the mean is far beyond the upper bound and moving away from it. -/
  weights : ∃ w0 : Vec K n,
    (s.setting = true ∧ Left m → ∃ md, Quantile (1 / 2) s'.ranges md ∧ ∀ j, w0 j = 20002 / 10000 * md) ∧
    (¬ (s.setting = true ∧ Left m) → w0 = s.w) ∧
    ∀ j, (1 + 3 * max 1 (NumFns.sqrt ((n : K) / selectionMass mu)) * sigma * NumFns.sqrt (var j) < m j ∧ mOld j < m j →
        s'.w j = w0 j * NumFns.pow (6 / 5) (min 1 (selectionMass mu / 10 / (n : K)))) ∧
      (¬ (1 + 3 * max 1 (NumFns.sqrt ((n : K) / selectionMass mu)) * sigma * NumFns.sqrt (var j) < m j ∧ mOld j < m j) → s'.w j = w0 j)
  setting : s'.setting = true ↔ s.setting = true ∧ ¬ (Left m ∧ s'.flat = false ∧ 3 ≤ it)

/-- The nearest point of the search space. -/
def nearest (x : Vec K n) : Vec K n := fun j => max (-1) (min 1 (x j))

/-- The penalty of a point: weighted squared distances from the search space, scaled by variance relative to the geometric mean of
the variances, to the power 0.9. -/
def boundaryPenalty (w var x : Vec K n) : K :=
  ∑ j, w j / NumFns.exp (9 / 10 * (NumFns.log (var j) - (∑ i, NumFns.log (var i)) / (n : K))) * (x j - nearest x j) ^ 2

/-- The user's coordinates of a point. -/
def fromCube (lower upper x : Vec K n) : Vec K n := fun j => (lower j + upper j) / 2 + (upper j - lower j) / 2 * x j

/-- One generation: the candidates are `X`, their nearest feasible points `Y` are evaluated, and the next mean `m'` is formed from
the candidates with the smallest penalised values `F`. -/
structure PenalizedGeneration (f : Vec K n → K) (lower upper : Vec K n) (mu it : Nat) (m mOld m' : Vec K n) (sigma : K) (var : Vec K n)
    (s s' : PenaltyMemory K n) (X Y : Pop K p n) (F : Fin p → K) : Prop where
  evaluated : ∀ i, Y i = fromCube lower upper (nearest (X i))
  memory : PenaltyStep mu it m mOld sigma var (fun i => f (Y i)) s s'
  penalised : ∀ i, F i = f (Y i) + boundaryPenalty s'.w var (X i)
  mean : WeightedBest mu (fun i => .fin (F i)) X m'

/-- A whole run: in generation `k` the mean is `ms k`, the step size `sg k`, the variances `vs k`, the candidates `X k`, the evaluated
points `Y k` and the penalised values `F k`.  `junk` is the content of uninitialised memory, used as the mean before the first. -/
structure PenalizedRun {σ : Type} (f : Vec K n → K) (lower upper : Vec K n) (mu : Nat) (junk : Vec K n) (ms : Nat → Vec K n) (sg : Nat → K)
    (vs : Nat → Vec K n) (mem : Nat → PenaltyMemory K n) (X Y : Nat → Pop K p n) (F : Nat → Fin p → K) (o : Output σ K p n) : Prop where
  start : mem 0 = PenaltyMemory.start n
  evals : ∀ k < o.res.nit, ∀ i : Fin p, o.evals[k * p + i.val]? = some (Y k i)
  generations : ∀ k < o.res.nit, PenalizedGeneration f lower upper mu (k + 1) (ms k) (if k = 0 then junk else ms (k - 1)) (ms (k + 1))
    (sg k) (vs k) (mem k) (mem (k + 1)) (X k) (Y k) (F k)
  result : ∃ (k : Nat) (i : Fin p), o.res.nit = k + 1 ∧ o.res.x = Y k i ∧ o.res.fval = .fin (F k i) ∧ ∀ i', F k i ≤ F k i'

end Stochopy.Spec
