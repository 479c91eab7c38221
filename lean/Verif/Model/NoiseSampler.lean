import Verif.Model.MCMC
import Verif.Model.HMC

/-!
# The samplers with noise or state in the objective

As in `Model/Noise.lean`, `ans k x` is the answer to the `k`-th request of a run when the point asked for is `x`.  Requests are
counted in the order in which the code calls the objective: the first sample is request 0; 'mcmc' then makes one request per
proposal (/repo/stochopy/sample/mcmc/_mcmc.py:132); 'hmc' makes those of the finite differences, then asks again for the current
sample, then for the proposal (/repo/stochopy/sample/hmc/_hmc.py:150-161).  The value of the current sample is remembered in
`funall[i - 1]` by 'mcmc'.
-/

namespace Stochopy
open Sampling

variable {K σ : Type} [Zero K] [One K] [Add K] [Sub K] [Mul K] [Div K] [Neg K] [NatCast K] [IntCast K] [Pow K ℕ] [ArrayOps K] [LinearOrder K] [NumFns K]

namespace MCMC
variable {n : Nat}

/-- The parameters with the objective of the `k`-th request. -/
def Par.at (ans : Nat → Vec (Val K) n → Val K) (P : Par σ K n) (k : Nat) : Par σ K n := { P with fn := ans k }

/-- Body of the inner loop — /repo/stochopy/sample/mcmc/_mcmc.py:124-157. -/
def blockAns (ans : Nat → Vec (Val K) n → Val K) (P : Par σ K n) (j : Nat) (s : State σ K n) : Except PyErr (State σ K n) :=
  block (P.at ans s.evals.length) j s

/-- `for j in …` with the `break` — /repo/stochopy/sample/mcmc/_mcmc.py:123-160. -/
def sweepAns (ans : Nat → Vec (Val K) n → Val K) (P : Par σ K n) : List Nat → State σ K n → Except PyErr (State σ K n)
  | [], s => .ok s
  | j :: js, s => do
    let s' ← blockAns ans P j s
    if s'.xs.length = P.maxiter then .ok s' else sweepAns ans P js s'

/-- `while i < maxiter`, with fuel — /repo/stochopy/sample/mcmc/_mcmc.py:122-160. -/
def loopAns (ans : Nat → Vec (Val K) n → Val K) (P : Par σ K n) : Nat → State σ K n → Except PyErr (State σ K n)
  | 0, s => if s.xs.length < P.maxiter then .error .outOfFuel else .ok s
  | fuel + 1, s =>
    if s.xs.length < P.maxiter then do
      let s' ← sweepAns ans P (starts n P.per) s
      loopAns ans P fuel s'
    else .ok s

/-- Everything after the scaling of the step size — /repo/stochopy/sample/mcmc/_mcmc.py:90-171. -/
def restAns [IntParts K] (R : Rng σ K) (fuel : Nat) (a : Args K) (ans : Nat → Vec (Val K) a.ndim → Val K) (step : Vec K a.ndim)
    (g : σ) : Except PyErr (Output σ K a.ndim) :=
  if ¬ (0 ≤ a.perc ∧ a.perc ≤ 1) then .error .valueError                          -- lines 91-92
  else if a.badCallback then .error .valueError                                   -- lines 101-102
  else do
    let s ← start a.toArgs (ans 0) R (a.seeded R g)
    let s' ← loopAns ans { R := R, fn := ans 0, lower := a.lower, upper := a.upper, step := step, per := perIter a.perc a.ndim,
                           constraints := a.constraints, maxiter := a.maxiter.toNat, hasCallback := a.callback.isSome,
                           returnAll := a.returnAll } fuel s
    .ok (finish a.maxiter a.returnAll s')

/-- `sample` — /repo/stochopy/sample/mcmc/_mcmc.py:11-171. -/
def sampleAns [IntParts K] (R : Rng σ K) (fuel : Nat) (a : Args K) (ans : Nat → Vec (Val K) a.ndim → Val K) (g : σ) :
    Except PyErr (Output σ K a.ndim) × StepArg K :=
  match a.fn, a.checkStart, a.stepsize.scale a.lower a.upper with
  | none, _, _ => (.error .typeError, a.stepsize)
  | _, .error e, _ => (.error e, a.stepsize)
  | _, _, .error e => (.error e, a.stepsize)
  | some _, .ok (), .ok step => (restAns R fuel a ans step g, a.stepsize.after a.lower a.upper)

end MCMC

namespace HMC
variable {n : Nat}

/-- `numerical_gradient` whose first request is number `k` — /repo/stochopy/sample/hmc/_hmc.py:217-233. -/
def gradStepAns (ans : Nat → Vec (Val K) n → Val K) (k : Nat) (h : K)
    (s : Vec (Val K) n × Vec (Val K) n × List (Val K) × List (Vec (Val K) n)) (i : Fin n) :
    Vec (Val K) n × Vec (Val K) n × List (Val K) × List (Vec (Val K) n) :=
  let x1 := Function.update s.1 i (s.1 i - .fin h)                               -- line 225
  let x2 := Function.update s.2.1 i (s.2.1 i + .fin h)                           -- line 226
  let d := ans (k + s.2.2.2.length) x2 - ans (k + s.2.2.2.length + 1) x1         -- line 228
  (Function.update x1 i (x1 i + .fin h), Function.update x2 i (x2 i - .fin h),   -- lines 230-231
   s.2.2.1 ++ [d], s.2.2.2 ++ [x2, x1])

def numericalGradientAns (ans : Nat → Vec (Val K) n → Val K) (k : Nat) (h : K) (x : Vec (Val K) n) :
    Vec (Val K) n × List (Vec (Val K) n) :=
  let r := (List.finRange n).foldl (gradStepAns ans k h) (x, x, [], [])
  (fun j => Val.divBy (.fin (1 / 2) * r.2.2.1.getD j .nan) h, r.2.2.2)           -- line 233

/-- The local variable `jac` — /repo/stochopy/sample/hmc/_hmc.py:114-117. -/
def gradOfAns (ans : Nat → Vec (Val K) n → Val K) (jac : Option (Option (Vec (Val K) n → Vec (Val K) n))) (fdStep : K)
    (extraArgs : Bool) (k : Nat) : Grad K n := fun x =>
  match jac with
  | none => .ok (numericalGradientAns ans k fdStep x)
  | some _ => if extraArgs then .error .typeError else .error .recursionError

/-- `p -= step * jac(q)`; the integration started at request `k`. -/
def kickAns (G : Nat → Grad K n) (k : Nat) (step : Vec K n) (s : Phase K n) : Except PyErr (Phase K n) :=
  kick (G (k + s.2.2.length)) step s

/-- `for _ in range(nleap)` — /repo/stochopy/sample/hmc/_hmc.py:152-154. -/
def leapsAns (G : Nat → Grad K n) (k : Nat) (step : Vec K n) : Nat → Phase K n → Except PyErr (Phase K n)
  | 0, s => .ok s
  | l + 1, s => do
    let s' ← kickAns G k step s
    leapsAns G k step l (drift step s')

/-- The leap-frog integration — /repo/stochopy/sample/hmc/_hmc.py:150-155. -/
def leapfrogAns (G : Nat → Grad K n) (k : Nat) (step : Vec K n) (nleap : Nat) (q p : Vec (Val K) n) : Except PyErr (Phase K n) := do
  let s ← kickAns G k (fun j => 1 / 2 * step j) (q, p, [])
  let s' ← leapsAns G k step nleap (drift step s)
  kickAns G k (fun j => 1 / 2 * step j) s'

/-- Body of the loop — /repo/stochopy/sample/hmc/_hmc.py:145-187. -/
def iterAns (ans : Nat → Vec (Val K) n → Val K) (G : Nat → Grad K n) (P : Par σ K n) (s : State σ K n) :
    Except PyErr (State σ K n) := do
  let z := drawVec P.R.randn n s.rng                                              -- line 146
  let p0 : Vec (Val K) n := fun j => .fin (z.1 j)
  let r ← leapfrogAns G s.evals.length P.step P.nleap s.xcur p0                   -- lines 150-155
  let q := r.1
  let evals := s.evals ++ r.2.2
  if truthy (inSearchSpace q P.lower P.upper P.constraints) then                  -- line 158
    let U0 := ans evals.length s.xcur                                             -- line 159
    let U := ans (evals.length + 1) q                                             -- line 161
    let u := P.R.rand z.2
    let acc := if metropolis (energyDrop U0 U (kinetic p0) (kinetic r.2.1)) u.1 then some (q, U) else none
    .ok (({ s with evals := evals ++ [s.xcur, q], rng := u.2 } : State σ K n).push acc |>.notify P.hasCallback P.returnAll)
  else
    .ok (({ s with evals := evals, rng := z.2 } : State σ K n).push none |>.notify P.hasCallback P.returnAll)

/-- `for i in range(1, maxiter)` — /repo/stochopy/sample/hmc/_hmc.py:144-187. -/
def loopAns (ans : Nat → Vec (Val K) n → Val K) (G : Nat → Grad K n) (P : Par σ K n) : Nat → State σ K n → Except PyErr (State σ K n)
  | 0, s => .ok s
  | k + 1, s => do
    let s' ← iterAns ans G P s
    loopAns ans G P k s'

/-- Everything after the scaling of the step size — /repo/stochopy/sample/hmc/_hmc.py:110-201. -/
def restAns (R : Rng σ K) (a : Args K) (ans : Nat → Vec (Val K) a.ndim → Val K) (step : Vec K a.ndim) (g : σ) :
    Except PyErr (Output σ K a.ndim) :=
  if badJac a.jac then .error .typeError                               -- lines 111-112
  else if a.badCallback then .error .valueError                                   -- lines 124-125
  else do
    let s ← start a.toArgs (ans 0) R (a.seeded R g)
    let s' ← loopAns ans (gradOfAns ans a.jac a.fdStep a.extraArgs)
      { R := R, fn := ans 0, G := gradOf (ans 0) a.jac a.fdStep a.extraArgs, lower := a.lower, upper := a.upper,
        step := step, nleap := a.nleap.toNat, constraints := a.constraints,
        hasCallback := a.callback.isSome, returnAll := a.returnAll } (a.maxiter.toNat - 1) s
    finish a.maxiter a.returnAll s'

/-- `sample` — /repo/stochopy/sample/hmc/_hmc.py:11-201. -/
def sampleAns (R : Rng σ K) (a : Args K) (ans : Nat → Vec (Val K) a.ndim → Val K) (g : σ) :
    Except PyErr (Output σ K a.ndim) × StepArg K :=
  match a.fn, a.checkStart, decide (a.nleap < 1), a.stepsize.scale a.lower a.upper with
  | none, _, _, _ => (.error .typeError, a.stepsize)
  | _, .error e, _, _ => (.error e, a.stepsize)
  | _, _, true, _ => (.error .valueError, a.stepsize)                             -- lines 98-99
  | _, _, _, .error e => (.error e, a.stepsize)
  | some _, .ok (), false, .ok step => (restAns R a ans step g, a.stepsize.after a.lower a.upper)

end HMC
end Stochopy
