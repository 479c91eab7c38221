import Verif.Spec.Box

/-!
# Vocabulary: complete descriptions of runs

What is common to the optimizers that maintain a population: the first population, the selection, the stopping rules and
what a call reports.
-/

namespace Stochopy.Spec

/-- `st` is the code of the first condition of the list that holds, and `none` if none does. -/
def FirstHolds : List (Int × Prop) → Option Int → Prop
  | [], st => st = none
  | (code, cond) :: l, st => (cond ∧ st = some code) ∨ (¬ cond ∧ FirstHolds l st)

variable {σ K : Type} [AddZeroClass K] [One K] [Sub K] [Mul K] [Div K] [Neg K] [NatCast K] [IntCast K] [Pow K ℕ] [ArrayOps K] [LinearOrder K] {p n : Nat}

/-- Position of the best value: the first smallest one, or the first NaN if there is one. -/
def FirstBest (v : Fin p → Val K) (i : Fin p) : Prop :=
  (v i = .nan ∧ ∀ q < i, v q ≠ .nan) ∨ ((∀ q, v i ≤ v q) ∧ ∀ q < i, v i < v q)

/-- The first population `X`: the one that was given, or a Latin hypercube with one point in every slice of every
coordinate (in the first half of the slice, see C19): a point of `[-1, 1)^n`, mapped to the box.  In exact arithmetic the coordinate is
`lower + (upper - lower) * ((k + u / 2) / p)` for the slice `k` (`firstPopulation_exact`).  The generator goes from `g` to `g'`. -/
def FirstPopulation (R : Rng σ K) (x0 : Option (Pop K p n)) (lower upper : Vec K n) (g g' : σ) (X : Pop K p n) : Prop :=
  (x0 = some X ∧ g' = g) ∨
  (x0 = none ∧ ∃ u g1 π, (u, g1) = drawMat R.rand p n g ∧ (π, g') = drawVec (R.perm p) n g1 ∧
    ∀ i j, X i j = (u (π j i) j / (p : K) + (((π j i).val : K) * (2 / (p : K)) + -1)) * (1 / 2 * (upper j - lower j)) +
      1 / 2 * (upper j + lower j))

/-- Members with their values, and the best point known with its value. -/
structure Pool (K : Type) (p n : Nat) where
  X : Pop K p n
  fit : Fin p → Val K
  best : Vec K n
  bestfit : Val K

/-- The pool of a first population. -/
structure Pool.First (fn : Vec K n → Val K) (X : Pop K p n) (s : Pool K p n) : Prop where
  pop : s.X = X
  fit : ∀ i, s.fit i = fn (X i)
  best : ∃ i, FirstBest s.fit i ∧ s.best = X i ∧ s.bestfit = s.fit i

/-- Deferred updating: `ys` are offered to the members of `s` all at once. -/
structure Pool.OfferAll (fn : Vec K n → Val K) (s : Pool K p n) (ys : Pop K p n) (s' : Pool K p n) : Prop where
  taken : ∀ i, fn (ys i) < s.fit i → s'.X i = ys i ∧ s'.fit i = fn (ys i)
  refused : ∀ i, ¬ fn (ys i) < s.fit i → s'.X i = s.X i ∧ s'.fit i = s.fit i
  best : ∃ i, FirstBest s'.fit i ∧ s'.best = s'.X i ∧ s'.bestfit = s'.fit i

/-- Immediate updating: `y` is offered to member `i` of `s`. -/
structure Pool.Offer (fn : Vec K n → Val K) (s : Pool K p n) (i : Fin p) (y : Vec K n) (s' : Pool K p n) : Prop where
  taken : fn y ≤ s.fit i → s'.X i = y ∧ s'.fit i = fn y
  refused : ¬ fn y ≤ s.fit i → s'.X i = s.X i ∧ s'.fit i = s.fit i
  others : ∀ q, q ≠ i → s'.X q = s.X q ∧ s'.fit q = s.fit q
  lead : fn y ≤ s.fit i ∧ fn y ≤ s.bestfit → s'.best = y ∧ s'.bestfit = fn y
  follow : ¬ (fn y ≤ s.fit i ∧ fn y ≤ s.bestfit) → s'.best = s.best ∧ s'.bestfit = s.bestfit

/-- Stopping rules after generation `it` (the first population is generation 1) with deferred updating. -/
def stopDeferred (maxiter : Int) (xtol : K) (ftol : Val K) (it : Nat) (s s' : Pool K p n) : List (Int × Prop) :=
  [(0, Within s.best s'.best xtol ∧ s'.bestfit ≤ ftol), (1, s'.bestfit ≤ ftol), (-1, maxiter ≤ it)]

/-- Stopping rules after generation `it` with immediate updating; `s` is the pool when `y` was offered to its last member `i`
(see C07). -/
def stopImmediate (fn : Vec K n → Val K) (maxiter : Int) (xtol : K) (ftol : Val K) (it : Nat) (s : Pool K p n) (i : Fin p)
    (y : Vec K n) : List (Int × Prop) :=
  [(0, (fn y ≤ s.fit i ∧ fn y ≤ s.bestfit) ∧ Within s.best y xtol ∧ fn y ≤ ftol),
   (1, (fn y ≤ s.fit i ∧ fn y ≤ s.bestfit) ∧ fn y ≤ ftol), (-1, maxiter ≤ it)]

/-- Options that only concern reporting. -/
structure Reporting where
  callback : Bool
  history : Bool
  /-- number of points recorded per generation; only the best one if not positive -/
  points : Int

/-- What the call reports about `nit` generations: `best k` and `bestfit k` are best point and value after generation `k` (counted from
0), `shown k` the population given to the callback, `rec k` and `val k` the points and values that are recorded, and `first` the point that is recorded
for the first generation if only the best is. -/
structure Reports (r : Reporting) (first : Vec K n) (best : Nat → Vec K n) (bestfit : Nat → Val K) (shown : Nat → Pop K p n) (rec : Nat → Pop K p n)
    (val : Nat → Fin p → Val K) (nit : Nat) (status : Int) (o : Output σ K p n) : Prop where
  count : o.res.nit = nit
  x : o.res.x = best (nit - 1)
  fval : o.res.fval = bestfit (nit - 1)
  nfev : o.res.nfev = nit * p
  reason : o.res.status = status
  success : o.res.success = true ↔ 0 ≤ status
  message : Documented status o.res.message
  nohistory : r.history = false → o.res.xall = none ∧ o.res.funall = none ∧ ∀ b ∈ o.cbs, b.xall = none ∧ b.funall = none
  history : r.history = true → ∃ (hx : Nat → List (Vec K n)) (hf : Nat → List (Val K)),
    o.res.xall = some ((List.range nit).map hx) ∧ o.res.funall = some ((List.range nit).map hf) ∧
    (∀ k b, o.cbs[k]? = some b → b.xall = some ((List.range (k + 1)).map hx) ∧ b.funall = some ((List.range (k + 1)).map hf)) ∧
    ∀ k < nit, (0 < r.points → hx k = (List.ofFn (rec k)).take r.points.toNat ∧ hf k = (List.ofFn (val k)).take r.points.toNat) ∧
      (r.points ≤ 0 → k = 0 → hx k = [first] ∧ hf k = [bestfit 0]) ∧
      (r.points ≤ 0 → k ≠ 0 → ∃ i, FirstBest (val k) i ∧ hx k = [rec k i] ∧ hf k = [val k i])
  nocallback : r.callback = false → o.cbs = []
  callbacks : r.callback = true → o.cbs.length = nit
  callback : ∀ k b, o.cbs[k]? = some b → b.X = shown k ∧ b.x = best k ∧ b.fval = bestfit k ∧ b.nfev = (k + 1) * p ∧ b.nit = k + 1

end Stochopy.Spec
