import Verif.Model.Sampling

/-! # Model of `stochopy/sample/mcmc/_mcmc.py` -/

namespace Stochopy.MCMC
open Sampling

variable {K σ : Type} [Zero K] [One K] [Add K] [Sub K] [Mul K] [Div K] [Neg K] [NatCast K] [IntCast K] [Pow K ℕ] [ArrayOps K] [LinearOrder K] [NumFns K]

/-- Arguments of `sample` — /repo/stochopy/sample/mcmc/_mcmc.py:11-23. -/
structure Args (K : Type) extends Sampling.Args K where
  perc : K

/-- `ndim_per_iter = max(1, int(perc * ndim))` — line 94. -/
def perIter [IntParts K] (perc : K) (n : Nat) : Nat := (max 1 (pyInt (perc * (n : K)))).toNat

/-- `np.arange(0, ndim, ndim_per_iter)` — line 123. -/
def starts (n per : Nat) : List Nat := (List.range n).filter fun j => j % per = 0

/-- The parameters of the loop. -/
structure Par (σ K : Type) (n : Nat) where
  R : Rng σ K
  fn : Vec (Val K) n → Val K
  lower : Vec K n
  upper : Vec K n
  step : Vec K n
  per : Nat
  constraints : Option String
  maxiter : Nat
  hasCallback : Bool
  returnAll : Bool

variable {n : Nat}

/-- `x` with `z` added to `x[j : jmax + 1]`. -/
def perturb (step : Vec K n) (j jmax : Nat) (z : Nat → K) (x : Vec (Val K) n) : Vec (Val K) n := fun k =>
  if j ≤ k.val ∧ k.val ≤ jmax then x k + .fin (z (k.val - j) * step k) else x k

/-- Body of the inner loop for the block starting at `j` — lines 124-157.  The slices `stepsize[j : jmax + 1]` and
`xall[i, j : jmax + 1]` have `min(ndim, jmax + 1) - j` elements, `np.random.randn` makes `jmax - j + 1`: ValueError unless
these agree.  (A slice of one element times two draws broadcasts, and is then rejected by `+=`.) -/
def block (P : Par σ K n) (j : Nat) (s : State σ K n) : Except PyErr (State σ K n) :=
  let jmax := min n (j + P.per - 1)                                               -- line 124
  let m := jmax - j + 1
  let z := drawVec P.R.randn m s.rng                                              -- line 125
  if min n (jmax + 1) - j ≠ m then .error .valueError
  else
    let x := perturb P.step j jmax (fun k => if h : k < m then z.1 ⟨k, h⟩ else 0) s.xcur   -- lines 127-128
    if truthy (inSearchSpace x P.lower P.upper P.constraints) then                -- line 131
      let f := P.fn x                                                             -- line 132
      let u := P.R.rand z.2
      let acc := if metropolis (s.fcur - f) u.1 then some (x, f) else none        -- lines 133-134
      .ok (({ s with evals := s.evals ++ [x], rng := u.2 } : State σ K n).push acc |>.notify P.hasCallback P.returnAll)
    else
      .ok (({ s with rng := z.2 } : State σ K n).push none |>.notify P.hasCallback P.returnAll)

/-- `for j in …` with the `break` — lines 123-160. -/
def sweep (P : Par σ K n) : List Nat → State σ K n → Except PyErr (State σ K n)
  | [], s => .ok s
  | j :: js, s => do
    let s' ← block P j s
    if s'.xs.length = P.maxiter then .ok s' else sweep P js s'

/-- `while i < maxiter`, with fuel — lines 122-160. -/
def loop (P : Par σ K n) : Nat → State σ K n → Except PyErr (State σ K n)
  | 0, s => if s.xs.length < P.maxiter then .error .outOfFuel else .ok s
  | fuel + 1, s =>
    if s.xs.length < P.maxiter then do
      let s' ← sweep P (starts n P.per) s
      loop P fuel s'
    else .ok s

/-- The returned `SampleResult` — lines 162-171. -/
def finish (maxiter : Int) (returnAll : Bool) (s : State σ K n) : Output σ K n :=
  { x := s.xs.getD s.imin s.xcur, fval := s.fmin, nfev := none, nit := maxiter,
    acceptRatio := (s.nacc : K) / (maxiter : K), xall := attach returnAll s.xs, funall := attach returnAll s.fs,
    cbs := s.cbs, evals := s.evals, rng := s.rng }

/-- Everything after the scaling of the step size — lines 90-171. -/
def rest [IntParts K] (R : Rng σ K) (fuel : Nat) (a : Args K) (fn : Vec (Val K) a.ndim → Val K) (step : Vec K a.ndim)
    (g : σ) : Except PyErr (Output σ K a.ndim) :=
  if ¬ (0 ≤ a.perc ∧ a.perc ≤ 1) then .error .valueError                          -- lines 91-92
  else if a.badCallback then .error .valueError                                   -- lines 101-102
  else do
    let s ← start a.toArgs fn R (a.seeded R g)
    let s' ← loop { R := R, fn := fn, lower := a.lower, upper := a.upper, step := step, per := perIter a.perc a.ndim,
                    constraints := a.constraints, maxiter := a.maxiter.toNat, hasCallback := a.callback.isSome,
                    returnAll := a.returnAll } fuel s
    .ok (finish a.maxiter a.returnAll s')

/-- `sample` — /repo/stochopy/sample/mcmc/_mcmc.py:11-171.  The second component is what the caller's `stepsize` object
holds after the call. -/
def sample [IntParts K] (R : Rng σ K) (fuel : Nat) (a : Args K) (g : σ) :
    Except PyErr (Output σ K a.ndim) × StepArg K :=
  match a.fn, a.checkStart, a.stepsize.scale a.lower a.upper with
  | none, _, _ => (.error .typeError, a.stepsize)
  | _, .error e, _ => (.error e, a.stepsize)
  | _, _, .error e => (.error e, a.stepsize)
  | some fn, .ok (), .ok step => (rest R fuel a fn step g, a.stepsize.after a.lower a.upper)

end Stochopy.MCMC
