import Verif.Model.CallbackWrites

/-!
# Callbacks of the samplers that write into the history

The state that `mcmc` and `hmc` hand to the callback is made of views: its `x` is the row `xall[imin]` of the array of samples, its `xall`
and `funall` are slices of the arrays the loop goes on with (/repo/stochopy/sample/mcmc/_mcmc.py:113-117 and 147-156, hmc/_hmc.py:135-139
and 178-187); its `fun` is a number.  A callback that converts them in place to other units (`state.x *= scale`, `state.funall -= c`)
changes what the sampler goes on with and returns.

`w.x k m i` and `w.f k m i` are what the `k`-th call leaves in row `i` of the two arrays when the best sample is in row `m`.  As in
`Model/CallbackWrites.lean` a callback with memory is covered: in one run each of its calls leaves one content in each row.  The current
sample is the first argument of the callback as well (row `k - 1`), so that the writes described there are included.
-/

namespace Stochopy

variable {K σ : Type} [Zero K] [One K] [Add K] [Sub K] [Mul K] [Div K] [Neg K] [NatCast K] [IntCast K] [Pow K ℕ] [ArrayOps K] [LinearOrder K]
variable {n : Nat}

namespace Sampling

/-- What the callback leaves in the rows of `xall` and `funall`. -/
structure Writes (K : Type) (n : Nat) where
  x : Nat → Nat → Nat → Vec (Val K) n → Vec (Val K) n
  f : Nat → Nat → Nat → Val K → Val K

/-- The rows filled so far are overwritten; `imin` and `fmin` are variables of their own. -/
def State.rewrite (hasCallback : Bool) (w : Writes K n) (s : State σ K n) : State σ K n :=
  if hasCallback then
    { s with xs := s.xs.mapIdx (w.x s.xs.length s.imin), fs := s.fs.mapIdx (w.f s.xs.length s.imin),
             xcur := w.x s.xs.length s.imin (s.xs.length - 1) s.xcur, fcur := w.f s.xs.length s.imin (s.xs.length - 1) s.fcur }
  else s

end Sampling

open Sampling

namespace MCMC
variable [NumFns K]

/-- `for j in …` with the callback at the end of every block — /repo/stochopy/sample/mcmc/_mcmc.py:123-160. -/
def sweepH (w : Writes K n) (P : Par σ K n) : List Nat → State σ K n → Except PyErr (State σ K n)
  | [], s => .ok s
  | j :: js, s => do
    let s' ← block P j s
    let s' := s'.rewrite P.hasCallback w                                            -- line 156
    if s'.xs.length = P.maxiter then .ok s' else sweepH w P js s'

/-- `while i < maxiter` — lines 122-160. -/
def loopH (w : Writes K n) (P : Par σ K n) : Nat → State σ K n → Except PyErr (State σ K n)
  | 0, s => if s.xs.length < P.maxiter then .error .outOfFuel else .ok s
  | fuel + 1, s =>
    if s.xs.length < P.maxiter then do
      let s' ← sweepH w P (starts n P.per) s
      loopH w P fuel s'
    else .ok s

/-- Everything after the scaling of the step size — lines 90-171. -/
def restH [IntParts K] (R : Rng σ K) (fuel : Nat) (a : Args K) (fn : Vec (Val K) a.ndim → Val K) (w : Writes K a.ndim)
    (step : Vec K a.ndim) (g : σ) : Except PyErr (Sampling.Output σ K a.ndim) :=
  if ¬ (0 ≤ a.perc ∧ a.perc ≤ 1) then .error .valueError
  else if a.badCallback then .error .valueError
  else do
    let s ← start a.toArgs fn R (a.seeded R g)
    let s' ← loopH w { R := R, fn := fn, lower := a.lower, upper := a.upper, step := step, per := perIter a.perc a.ndim,
                       constraints := a.constraints, maxiter := a.maxiter.toNat, hasCallback := a.callback.isSome,
                       returnAll := a.returnAll } fuel (s.rewrite a.callback.isSome w)      -- line 117
    .ok (finish a.maxiter a.returnAll s')

/-- `sample` — /repo/stochopy/sample/mcmc/_mcmc.py:11-171. -/
def sampleH [IntParts K] (R : Rng σ K) (fuel : Nat) (a : Args K) (w : Writes K a.ndim) (g : σ) :
    Except PyErr (Sampling.Output σ K a.ndim) × StepArg K :=
  match a.fn, a.checkStart, a.stepsize.scale a.lower a.upper with
  | none, _, _ => (.error .typeError, a.stepsize)
  | _, .error e, _ => (.error e, a.stepsize)
  | _, _, .error e => (.error e, a.stepsize)
  | some fn, .ok (), .ok step => (restH R fuel a fn w step g, a.stepsize.after a.lower a.upper)

end MCMC

namespace HMC
variable [NumFns K]

/-- `for i in range(1, maxiter)` with the callback at the end — /repo/stochopy/sample/hmc/_hmc.py:144-187. -/
def loopH (w : Writes K n) (P : Par σ K n) : Nat → State σ K n → Except PyErr (State σ K n)
  | 0, s => .ok s
  | k + 1, s => do
    let s' ← iter P s
    loopH w P k (s'.rewrite P.hasCallback w)                                        -- line 187

/-- Everything after the scaling of the step size — lines 110-201. -/
def restH (R : Rng σ K) (a : Args K) (fn : Vec (Val K) a.ndim → Val K) (w : Writes K a.ndim)
    (step : Vec K a.ndim) (g : σ) : Except PyErr (Sampling.Output σ K a.ndim) :=
  if badJac a.jac then .error .typeError
  else if a.badCallback then .error .valueError
  else do
    let s ← start a.toArgs fn R (a.seeded R g)
    let s' ← loopH w { R := R, fn := fn, G := gradOf fn a.jac a.fdStep a.extraArgs, lower := a.lower, upper := a.upper,
                       step := step, nleap := a.nleap.toNat, constraints := a.constraints,
                       hasCallback := a.callback.isSome, returnAll := a.returnAll } (a.maxiter.toNat - 1)
                      (s.rewrite a.callback.isSome w)                               -- line 139
    finish a.maxiter a.returnAll s'

/-- `sample` — /repo/stochopy/sample/hmc/_hmc.py:11-201. -/
def sampleH (R : Rng σ K) (a : Args K) (w : Writes K a.ndim) (g : σ) : Except PyErr (Sampling.Output σ K a.ndim) × StepArg K :=
  match a.fn, a.checkStart, decide (a.nleap < 1), a.stepsize.scale a.lower a.upper with
  | none, _, _, _ => (.error .typeError, a.stepsize)
  | _, .error e, _, _ => (.error e, a.stepsize)
  | _, _, true, _ => (.error .valueError, a.stepsize)
  | _, _, _, .error e => (.error e, a.stepsize)
  | some fn, .ok (), false, .ok step => (restH R a fn w step g, a.stepsize.after a.lower a.upper)

end HMC

end Stochopy
