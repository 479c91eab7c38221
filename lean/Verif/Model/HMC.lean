import Verif.Model.Sampling

/-! # Model of `stochopy/sample/hmc/_hmc.py`

Positions and momenta are arrays of floats that may become infinite or NaN, since they are computed from objective values.
-/

namespace Stochopy.HMC
open Sampling

variable {K σ : Type} [Zero K] [One K] [Add K] [Sub K] [Mul K] [Div K] [Neg K] [NatCast K] [IntCast K] [Pow K ℕ] [ArrayOps K] [LinearOrder K] [NumFns K]

/-- Arguments of `sample` — /repo/stochopy/sample/hmc/_hmc.py:11-25.  `jac`: None, something that is not callable, or a
callable.  `extraArgs`: whether `args` is non-empty. -/
structure Args (K : Type) extends Sampling.Args K where
  nleap : Int
  jac : Option (Option (Vec (Val K) bounds.len → Vec (Val K) bounds.len))
  fdStep : K
  extraArgs : Bool

variable {n : Nat}

/-- `numerical_gradient` — lines 217-233 — with the points the objective is called on.  `x1`, `x2` are restored after each
coordinate (lines 230-231). -/
def gradStep (fn : Vec (Val K) n → Val K) (h : K)
    (s : Vec (Val K) n × Vec (Val K) n × List (Val K) × List (Vec (Val K) n)) (i : Fin n) :
    Vec (Val K) n × Vec (Val K) n × List (Val K) × List (Vec (Val K) n) :=
  let x1 := Function.update s.1 i (s.1 i - .fin h)                               -- line 225
  let x2 := Function.update s.2.1 i (s.2.1 i + .fin h)                           -- line 226
  let d := fn x2 - fn x1                                                         -- line 228
  (Function.update x1 i (x1 i + .fin h), Function.update x2 i (x2 i - .fin h),   -- lines 230-231
   s.2.2.1 ++ [d], s.2.2.2 ++ [x2, x1])

def numericalGradient (fn : Vec (Val K) n → Val K) (h : K) (x : Vec (Val K) n) :
    Vec (Val K) n × List (Vec (Val K) n) :=
  let r := (List.finRange n).foldl (gradStep fn h) (x, x, [], [])
  (fun j => Val.divBy (.fin (1 / 2) * r.2.2.1.getD j .nan) h, r.2.2.2)           -- line 233

/-- A gradient: the value, or the exception raised, with the points the objective was called on. -/
abbrev Grad (K : Type) (n : Nat) := Vec (Val K) n → Except PyErr (Vec (Val K) n × List (Vec (Val K) n))

/-- The local variable `jac` — lines 114-117.  `lambda x: jac(x, *args)` refers to itself: without extra arguments it
recurses until RecursionError, with extra arguments it raises TypeError (a one-argument lambda called with more). -/
def gradOf (fn : Vec (Val K) n → Val K) (jac : Option (Option (Vec (Val K) n → Vec (Val K) n))) (fdStep : K)
    (extraArgs : Bool) : Grad K n := fun x =>
  match jac with
  | none => .ok (numericalGradient fn fdStep x)
  | some _ => if extraArgs then .error .typeError else .error .recursionError

/-- Positions, momenta and the objective calls so far. -/
abbrev Phase (K : Type) (n : Nat) := Vec (Val K) n × Vec (Val K) n × List (Vec (Val K) n)

/-- `p -= step * jac(q)`. -/
def kick (G : Grad K n) (step : Vec K n) (s : Phase K n) : Except PyErr (Phase K n) := do
  let g ← G s.1
  .ok (s.1, fun j => s.2.1 j - .fin (step j) * g.1 j, s.2.2 ++ g.2)

/-- `q += stepsize * p`. -/
def drift (step : Vec K n) (s : Phase K n) : Phase K n := (fun j => s.1 j + .fin (step j) * s.2.1 j, s.2.1, s.2.2)

/-- `for _ in range(nleap)` — lines 152-154. -/
def leaps (G : Grad K n) (step : Vec K n) : Nat → Phase K n → Except PyErr (Phase K n)
  | 0, s => .ok s
  | k + 1, s => do
    let s' ← kick G step s
    leaps G step k (drift step s')

/-- The leap-frog integration — lines 150-155. -/
def leapfrog (G : Grad K n) (step : Vec K n) (nleap : Nat) (q p : Vec (Val K) n) : Except PyErr (Phase K n) := do
  let s ← kick G (fun j => 1 / 2 * step j) (q, p, [])
  let s' ← leaps G step nleap (drift step s)
  kick G (fun j => 1 / 2 * step j) s'

/-- `0.5 * np.square(p).sum()`. -/
def kinetic (p : Vec (Val K) n) : Val K := .fin (1 / 2) * (List.ofFn fun j => p j * p j).foldl (· + ·) (.fin 0)

/-- The parameters of the loop. -/
structure Par (σ K : Type) (n : Nat) where
  R : Rng σ K
  fn : Vec (Val K) n → Val K
  G : Grad K n
  lower : Vec K n
  upper : Vec K n
  step : Vec K n
  nleap : Nat
  constraints : Option String
  hasCallback : Bool
  returnAll : Bool

/-- `log_alpha`'s argument `U0 - U + K0 - K` — line 164. -/
def energyDrop (U0 U K0 K1 : Val K) : Val K := U0 - U + K0 - K1

/-- Body of the loop — lines 145-187. -/
def iter (P : Par σ K n) (s : State σ K n) : Except PyErr (State σ K n) := do
  let z := drawVec P.R.randn n s.rng                                              -- line 146
  let p0 : Vec (Val K) n := fun j => .fin (z.1 j)
  let r ← leapfrog P.G P.step P.nleap s.xcur p0                                   -- lines 150-155
  let q := r.1
  let evals := s.evals ++ r.2.2
  if truthy (inSearchSpace q P.lower P.upper P.constraints) then                  -- line 158
    let U0 := P.fn s.xcur                                                         -- line 159
    let U := P.fn q                                                               -- line 161
    let u := P.R.rand z.2
    let acc := if metropolis (energyDrop U0 U (kinetic p0) (kinetic r.2.1)) u.1 then some (q, U) else none
    .ok (({ s with evals := evals ++ [s.xcur, q], rng := u.2 } : State σ K n).push acc |>.notify P.hasCallback P.returnAll)
  else
    .ok (({ s with evals := evals, rng := z.2 } : State σ K n).push none |>.notify P.hasCallback P.returnAll)

/-- `for i in range(1, maxiter)` — lines 144-187. -/
def loop (P : Par σ K n) : Nat → State σ K n → Except PyErr (State σ K n)
  | 0, s => .ok s
  | k + 1, s => do
    let s' ← iter P s
    loop P k s'

/-- The returned `SampleResult` — lines 189-201.  `fun.nfev` counts the calls (lines 204-214). -/
def finish (maxiter : Int) (returnAll : Bool) (s : State σ K n) : Except PyErr (Output σ K n) := do
  let idx ← argmin fun i : Fin s.fs.length => s.fs.get i                          -- line 189
  .ok { x := s.xs.getD idx s.xcur, fval := s.fs.get idx, nfev := some s.evals.length, nit := maxiter,
        acceptRatio := (s.nacc : K) / (maxiter : K), xall := attach returnAll s.xs, funall := attach returnAll s.fs,
        cbs := s.cbs, evals := s.evals, rng := s.rng }

/-- `not (jac is None or hasattr(jac, "__call__"))` — line 111. -/
def badJac {α : Type} : Option (Option α) → Bool
  | some none => true
  | _ => false

/-- Everything after the scaling of the step size — lines 110-201. -/
def rest (R : Rng σ K) (a : Args K) (fn : Vec (Val K) a.ndim → Val K) (step : Vec K a.ndim) (g : σ) :
    Except PyErr (Output σ K a.ndim) :=
  if badJac a.jac then .error .typeError                               -- lines 111-112
  else if a.badCallback then .error .valueError                                   -- lines 124-125
  else do
    let s ← start a.toArgs fn R (a.seeded R g)
    let s' ← loop { R := R, fn := fn, G := gradOf fn a.jac a.fdStep a.extraArgs, lower := a.lower, upper := a.upper,
                    step := step, nleap := a.nleap.toNat, constraints := a.constraints,
                    hasCallback := a.callback.isSome, returnAll := a.returnAll } (a.maxiter.toNat - 1) s
    finish a.maxiter a.returnAll s'

/-- `sample` — /repo/stochopy/sample/hmc/_hmc.py:11-201.  The second component is what the caller's `stepsize` object
holds after the call. -/
def sample (R : Rng σ K) (a : Args K) (g : σ) : Except PyErr (Output σ K a.ndim) × StepArg K :=
  match a.fn, a.checkStart, decide (a.nleap < 1), a.stepsize.scale a.lower a.upper with
  | none, _, _, _ => (.error .typeError, a.stepsize)
  | _, .error e, _, _ => (.error e, a.stepsize)
  | _, _, true, _ => (.error .valueError, a.stepsize)                             -- lines 98-99
  | _, _, _, .error e => (.error e, a.stepsize)
  | some fn, .ok (), false, .ok step => (rest R a fn step g, a.stepsize.after a.lower a.upper)

end Stochopy.HMC
