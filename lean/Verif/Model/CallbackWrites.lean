import Verif.Model.DE
import Verif.Model.CPSO
import Verif.Model.MCMC
import Verif.Model.HMC

/-!
# Callbacks that write into the array they are given

`de`, `cpso` and `pso` hand their population `X` to the callback (/repo/stochopy/optimize/de/_de.py:242 and 287,
cpso/_cpso.py:254 and 302), `mcmc` and `hmc` the current row of the sample history
(/repo/stochopy/sample/mcmc/_mcmc.py:117 and 156, hmc/_hmc.py:139 and 187): a callback that assigns to elements of its first argument
changes what the loop goes on with.  `wr k X` is the content the `k`-th call leaves in the array that held `X` (`k = nit` of the state
given with it).  A callback with memory is covered as well: in one run its `k`-th call leaves one array, so that `wr k` can be taken
constant.

`na`, `cmaes` and `vdcma` hand over a temporary (`unnormalize(X)`, na/_na.py:208 and 248; `unstandardize(arxvalid)`,
cmaes/_cmaes.py:343, vdcma/_vdcma.py:409): nothing to model.  Writes into the second argument (whose `x` is the very array of the best
solution): `Model/StateWrites.lean`.
-/

namespace Stochopy

variable {S K σ : Type}

/-! ## The frame of de, cpso and pso -/

section frame
variable [Zero K] [One K] [Add K] [Sub K] [Mul K] [Div K] [Neg K] [NatCast K] [IntCast K] [Pow K ℕ] [ArrayOps K] [LinearOrder K]
variable {p n : Nat}

/-- The loop whose `k`-th callback turns the state `s` into `w k s`.  The first callback comes before the loop, hence before step 2;
the later ones come at the end of an iteration, before `restart` — /repo/stochopy/optimize/de/_de.py:237-287,
cpso/_cpso.py:249-307. -/
def Alg.writing (A : Alg S K p n) (w : Nat → S → S) : Alg S K p n :=
  { A with
    step := fun it s => A.step it (if it = 2 then w 1 s else s)
    post := fun it s => A.post it (w it s) }

/-- The run, with the write of the last callback (which the result, built from copies, does not see). -/
def Alg.runC (A : Alg S K p n) (w : Nat → S → S) (c : Cfg) (fuel : Nat) (s0 : S) : Except PyErr (Result K n × Loop S K p n) :=
  if c.hasCallback then do
    let r ← (A.writing w).run c fuel s0
    .ok (r.1, { r.2 with s := w r.2.it r.2.s })
  else A.run c fuel s0

end frame

section optimizers
variable [Zero K] [One K] [Add K] [Sub K] [Mul K] [Div K] [Neg K] [NatCast K] [IntCast K] [Pow K ℕ] [ArrayOps K] [LinearOrder K]

namespace DE
variable {p n : Nat}

/-- `X` is overwritten; it is the caller's array if `x0` was given (/repo/stochopy/optimize/de/_de.py:208). -/
def State.write (wr : Nat → Pop K p n → Pop K p n) (k : Nat) (s : State σ K p n) : State σ K p n :=
  { s with X := wr k s.X, caller := s.caller.map fun _ => wr k s.X }

/-- `de` — /repo/stochopy/optimize/de/_de.py:177-301. -/
def deC (P : Par σ K p n) (sync : Bool) (c : Cfg) (fuel : Nat) (wr : Nat → Pop K p n → Pop K p n) (x0 : Option (Pop K p n)) (g : σ) :
    Except PyErr (Output σ K p n) := do
  let s0 ← init P x0 g
  let r ← (alg P sync).runC (State.write wr) c fuel s0
  .ok { res := r.1, cbs := r.2.cbs, evals := r.2.s.evals, x0After := r.2.s.caller, rng := r.2.s.rng }

/-- `minimize` — /repo/stochopy/optimize/de/_de.py:13-173. -/
def minimizeC [IntParts K] (env : Env) (R : Rng σ K) (fuel : Nat) (a : Args K) (wr : Nat → Pop K a.p a.ndim → Pop K a.p a.ndim) (g : σ) :
    Except PyErr (Output σ K a.p a.ndim) := do
  let strat ← validate a
  match a.fn with
  | none => .error .typeError
  | some fn =>
    optimizer env fn a.sync a.workers a.backend fun obj => do
      a.unpackBounds
      let cons ← consMap a.constraints
      deC { R := R, F := a.mutation, CR := a.recombination, strat := strat, cons := cons, lower := a.lower,
            upper := a.upper, maxiter := a.maxiter, xtol := a.xtol, ftol := a.ftol, obj := obj }
        a.sync a.cfg fuel wr a.x0Pop (a.seeded R g)

end DE

namespace CPSO
variable {p n : Nat}

/-- `X` is overwritten; `pbest`, `gbest` are arrays of their own (/repo/stochopy/optimize/cpso/_cpso.py:223-230). -/
def State.write (wr : Nat → Pop K p n → Pop K p n) (k : Nat) (s : State σ K p n) : State σ K p n :=
  { s with X := wr k s.X, caller := writeThrough s.aliased s.caller (wr k s.X) }

/-- `cpso` — /repo/stochopy/optimize/cpso/_cpso.py:183-321. -/
def cpsoC [IntParts K] [NumFns K] (P : Par σ K n) (sync : Bool) (c : Cfg) (fuel : Nat) (wr : Nat → Pop K p n → Pop K p n)
    (x0 : Option (Pop K p n)) (g : σ) : Except PyErr (Output σ K p n) := do
  let s0 ← init P x0 g
  let r ← (alg P sync).runC (State.write wr) c fuel s0
  .ok { res := r.1, cbs := r.2.cbs, evals := r.2.s.evals, x0After := r.2.s.caller, rng := r.2.s.rng }

/-- `minimize` — /repo/stochopy/optimize/cpso/_cpso.py:12-179. -/
def minimizeC [IntParts K] [NumFns K] (env : Env) (R : Rng σ K) (srt : Argsort K) (fuel : Nat) (a : Args K)
    (wr : Nat → Pop K a.p a.ndim → Pop K a.p a.ndim) (g : σ) : Except PyErr (Output σ K a.p a.ndim) := do
  validate a
  match a.fn with
  | none => .error .typeError
  | some fn =>
    optimizer env fn a.sync a.workers a.backend fun obj => do
      a.unpackBounds
      let cons ← consMap a.constraints
      cpsoC { R := R, argsort := srt, w := a.inertia, c1 := a.cognitivity, c2 := a.sociability,
              gamma := a.competitivity, cons := cons, lower := a.lower, upper := a.upper, maxiter := a.maxiter,
              xtol := a.xtol, ftol := a.ftol, obj := obj }
        a.sync a.cfg fuel wr a.x0Pop (a.seeded R g)

end CPSO

namespace PSO

/-- `minimize` — /repo/stochopy/optimize/pso/_pso.py:9-122. -/
def minimizeC [IntParts K] [NumFns K] (env : Env) (R : Rng σ K) (srt : Argsort K) (fuel : Nat) (a : Args K)
    (wr : Nat → Pop K a.p a.ndim → Pop K a.p a.ndim) (g : σ) : Except PyErr (Output σ K a.p a.ndim) :=
  CPSO.minimizeC env R srt fuel a.toCPSO wr g

end PSO

end optimizers

/-! ## Samplers -/

section samplers
variable [Zero K] [One K] [Add K] [Sub K] [Mul K] [Div K] [Neg K] [NatCast K] [IntCast K] [Pow K ℕ] [ArrayOps K] [LinearOrder K]

namespace Sampling

/-- The last row of `xall` is overwritten (if there is a callback); `funall` is not. -/
def State.write {n : Nat} (hasCallback : Bool) (wr : Nat → Vec (Val K) n → Vec (Val K) n) (s : State σ K n) : State σ K n :=
  if hasCallback then
    { s with xs := s.xs.dropLast ++ [wr s.xs.length s.xcur], xcur := wr s.xs.length s.xcur }
  else s

end Sampling

open Sampling

namespace MCMC
variable [NumFns K] {n : Nat}

/-- `for j in …` with the callback at the end of every block — /repo/stochopy/sample/mcmc/_mcmc.py:123-160. -/
def sweepC (wr : Nat → Vec (Val K) n → Vec (Val K) n) (P : Par σ K n) : List Nat → State σ K n → Except PyErr (State σ K n)
  | [], s => .ok s
  | j :: js, s => do
    let s' ← block P j s
    let s' := s'.write P.hasCallback wr                                             -- line 156
    if s'.xs.length = P.maxiter then .ok s' else sweepC wr P js s'

/-- `while i < maxiter` — lines 122-160. -/
def loopC (wr : Nat → Vec (Val K) n → Vec (Val K) n) (P : Par σ K n) : Nat → State σ K n → Except PyErr (State σ K n)
  | 0, s => if s.xs.length < P.maxiter then .error .outOfFuel else .ok s
  | fuel + 1, s =>
    if s.xs.length < P.maxiter then do
      let s' ← sweepC wr P (starts n P.per) s
      loopC wr P fuel s'
    else .ok s

/-- Everything after the scaling of the step size — lines 90-171. -/
def restC [IntParts K] (R : Rng σ K) (fuel : Nat) (a : Args K) (fn : Vec (Val K) a.ndim → Val K)
    (wr : Nat → Vec (Val K) a.ndim → Vec (Val K) a.ndim) (step : Vec K a.ndim) (g : σ) : Except PyErr (Sampling.Output σ K a.ndim) :=
  if ¬ (0 ≤ a.perc ∧ a.perc ≤ 1) then .error .valueError
  else if a.badCallback then .error .valueError
  else do
    let s ← start a.toArgs fn R (a.seeded R g)
    let s' ← loopC wr { R := R, fn := fn, lower := a.lower, upper := a.upper, step := step, per := perIter a.perc a.ndim,
                        constraints := a.constraints, maxiter := a.maxiter.toNat, hasCallback := a.callback.isSome,
                        returnAll := a.returnAll } fuel (s.write a.callback.isSome wr)      -- line 117
    .ok (finish a.maxiter a.returnAll s')

/-- `sample` — /repo/stochopy/sample/mcmc/_mcmc.py:11-171. -/
def sampleC [IntParts K] (R : Rng σ K) (fuel : Nat) (a : Args K) (wr : Nat → Vec (Val K) a.ndim → Vec (Val K) a.ndim) (g : σ) :
    Except PyErr (Sampling.Output σ K a.ndim) × StepArg K :=
  match a.fn, a.checkStart, a.stepsize.scale a.lower a.upper with
  | none, _, _ => (.error .typeError, a.stepsize)
  | _, .error e, _ => (.error e, a.stepsize)
  | _, _, .error e => (.error e, a.stepsize)
  | some fn, .ok (), .ok step => (restC R fuel a fn wr step g, a.stepsize.after a.lower a.upper)

end MCMC

namespace HMC
variable [NumFns K] {n : Nat}

/-- `for i in range(1, maxiter)` with the callback at the end — /repo/stochopy/sample/hmc/_hmc.py:144-187. -/
def loopC (wr : Nat → Vec (Val K) n → Vec (Val K) n) (P : Par σ K n) : Nat → State σ K n → Except PyErr (State σ K n)
  | 0, s => .ok s
  | k + 1, s => do
    let s' ← iter P s
    loopC wr P k (s'.write P.hasCallback wr)                                        -- line 187

/-- Everything after the scaling of the step size — lines 110-201. -/
def restC (R : Rng σ K) (a : Args K) (fn : Vec (Val K) a.ndim → Val K) (wr : Nat → Vec (Val K) a.ndim → Vec (Val K) a.ndim)
    (step : Vec K a.ndim) (g : σ) : Except PyErr (Sampling.Output σ K a.ndim) :=
  if badJac a.jac then .error .typeError
  else if a.badCallback then .error .valueError
  else do
    let s ← start a.toArgs fn R (a.seeded R g)
    let s' ← loopC wr { R := R, fn := fn, G := gradOf fn a.jac a.fdStep a.extraArgs, lower := a.lower, upper := a.upper,
                        step := step, nleap := a.nleap.toNat, constraints := a.constraints,
                        hasCallback := a.callback.isSome, returnAll := a.returnAll } (a.maxiter.toNat - 1)
                      (s.write a.callback.isSome wr)                                -- line 139
    finish a.maxiter a.returnAll s'

/-- `sample` — /repo/stochopy/sample/hmc/_hmc.py:11-201. -/
def sampleC (R : Rng σ K) (a : Args K) (wr : Nat → Vec (Val K) a.ndim → Vec (Val K) a.ndim) (g : σ) :
    Except PyErr (Sampling.Output σ K a.ndim) × StepArg K :=
  match a.fn, a.checkStart, decide (a.nleap < 1), a.stepsize.scale a.lower a.upper with
  | none, _, _, _ => (.error .typeError, a.stepsize)
  | _, .error e, _, _ => (.error e, a.stepsize)
  | _, _, true, _ => (.error .valueError, a.stepsize)
  | _, _, _, .error e => (.error e, a.stepsize)
  | some fn, .ok (), false, .ok step => (restC R a fn wr step g, a.stepsize.after a.lower a.upper)

end HMC

end samplers

end Stochopy
