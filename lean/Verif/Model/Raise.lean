import Verif.Model.DE
import Verif.Model.CPSO
import Verif.Model.NA
import Verif.Model.CMAES
import Verif.Model.VDCMA
import Verif.Model.MCMC
import Verif.Model.HMC

/-!
# Callbacks that raise

`raises k b` is the exception, if any, that the `k`-th call of the callback raises when it is shown `b`.  No part of the code catches it, so
that the call of the optimizer or sampler ends there (/repo/stochopy/optimize/de/_de.py:242 and 287, cpso/_cpso.py:254 and 302, na/_na.py:208 and
248, cmaes/_cmaes.py:343, vdcma/_vdcma.py:409, /repo/stochopy/sample/mcmc/_mcmc.py:117 and 156, hmc/_hmc.py:139 and 187).  What the code does in
the same iteration after the callback (the restarts of cpso, the update of loop variables) is not visible from outside and makes no request, so that the
iterations of the other models are used as they are.  The outcome is either a returned value or a `Stop`.
-/

namespace Stochopy

/-- The exception, the calls of the callback (the last one raised) and the requests made until then. -/
structure Stop (E B V : Type) where
  err : E
  cbs : List B
  evals : List V

variable {S K σ E B V Z : Type}

/-- The last call of the callback raises, or the run goes on. -/
def stopOr (hasCallback : Bool) (raises : Nat → B → Option E) (cbs : List B) (evals : List V) (k : Except PyErr (Z ⊕ Stop E B V)) :
    Except PyErr (Z ⊕ Stop E B V) :=
  if hasCallback then
    match cbs.getLast? with
    | none => k
    | some b =>
      match raises (cbs.length - 1) b with
      | some e => .ok (.inr ⟨e, cbs, evals⟩)
      | none => k
  else k

/-- What follows a loop that was not interrupted. -/
def unlessStopped {Y : Type} (x : Except PyErr (Y ⊕ Stop E B V)) (f : Y → Except PyErr Z) : Except PyErr (Z ⊕ Stop E B V) := do
  match ← x with
  | .inl y => do
    let z ← f y
    .ok (.inl z)
  | .inr st => .ok (.inr st)

section optimizers
variable [Zero K] [One K] [Add K] [Sub K] [Mul K] [Div K] [Neg K] [NatCast K] [IntCast K] [Pow K ℕ] [ArrayOps K] [LinearOrder K]
variable {p n : Nat}

/-- `while not converged` — /repo/stochopy/optimize/de/_de.py:247-287, cpso/_cpso.py:259-307, na/_na.py:213-248. -/
def Alg.loopE (A : Alg S K p n) (ev : S → List (Vec K n)) (raises : Nat → CB K p n → Option E) (c : Cfg) :
    Nat → Loop S K p n → Except PyErr (Loop S K p n ⊕ Stop E (CB K p n) (Vec K n))
  | 0, _ => .error .outOfFuel
  | fuel + 1, L => do
    let r ← A.body c L
    stopOr c.hasCallback raises r.1.cbs (ev r.1.s) (if r.2 then .ok (.inl r.1) else A.loopE ev raises c fuel r.1)

/-- Everything after the initial evaluation. -/
def Alg.runE (A : Alg S K p n) (ev : S → List (Vec K n)) (raises : Nat → CB K p n → Option E) (c : Cfg) (fuel : Nat) (s0 : S)
    (out : Result K n → Loop S K p n → Output σ K p n) : Except PyErr (Output σ K p n ⊕ Stop E (CB K p n) (Vec K n)) := do
  let L0 ← A.start c s0
  unlessStopped (stopOr c.hasCallback raises L0.cbs (ev L0.s) (A.loopE ev raises c fuel L0)) fun L => do
    let res ← A.finish c L
    .ok (out res L)

/-- `de` — /repo/stochopy/optimize/de/_de.py:13-301. -/
def DE.minimizeE [IntParts K] (env : Env) (R : Rng σ K) (fuel : Nat) (a : DE.Args K) (raises : Nat → CB K a.p a.ndim → Option E) (g : σ) :
    Except PyErr (Output σ K a.p a.ndim ⊕ Stop E (CB K a.p a.ndim) (Vec K a.ndim)) := do
  let strat ← DE.validate a
  match a.fn with
  | none => .error .typeError
  | some fn =>
    optimizer env fn a.sync a.workers a.backend fun obj => do
      a.unpackBounds
      let cons ← DE.consMap a.constraints
      let P : DE.Par σ K a.p a.ndim :=
        { R := R, F := a.mutation, CR := a.recombination, strat := strat, cons := cons, lower := a.lower,
          upper := a.upper, maxiter := a.maxiter, xtol := a.xtol, ftol := a.ftol, obj := obj }
      let s0 ← DE.init P a.x0Pop (a.seeded R g)
      (DE.alg P a.sync).runE DE.State.evals raises a.cfg fuel s0 fun r L =>
        { res := r, cbs := L.cbs, evals := L.s.evals, x0After := L.s.caller, rng := L.s.rng }

/-- `cpso` — /repo/stochopy/optimize/cpso/_cpso.py:12-321. -/
def CPSO.minimizeE [IntParts K] [NumFns K] (env : Env) (R : Rng σ K) (srt : Argsort K) (fuel : Nat) (a : CPSO.Args K)
    (raises : Nat → CB K a.p a.ndim → Option E) (g : σ) :
    Except PyErr (Output σ K a.p a.ndim ⊕ Stop E (CB K a.p a.ndim) (Vec K a.ndim)) := do
  CPSO.validate a
  match a.fn with
  | none => .error .typeError
  | some fn =>
    optimizer env fn a.sync a.workers a.backend fun obj => do
      a.unpackBounds
      let cons ← CPSO.consMap a.constraints
      let P : CPSO.Par σ K a.ndim :=
        { R := R, argsort := srt, w := a.inertia, c1 := a.cognitivity, c2 := a.sociability,
          gamma := a.competitivity, cons := cons, lower := a.lower, upper := a.upper, maxiter := a.maxiter,
          xtol := a.xtol, ftol := a.ftol, obj := obj }
      let s0 ← CPSO.init (p := a.p) P a.x0Pop (a.seeded R g)
      (CPSO.alg P a.sync).runE CPSO.State.evals raises a.cfg fuel s0 fun r L =>
        { res := r, cbs := L.cbs, evals := L.s.evals, x0After := L.s.caller, rng := L.s.rng }

/-- `pso` — /repo/stochopy/optimize/pso/_pso.py:9-122. -/
def PSO.minimizeE [IntParts K] [NumFns K] (env : Env) (R : Rng σ K) (srt : Argsort K) (fuel : Nat) (a : PSO.Args K)
    (raises : Nat → CB K a.toCPSO.p a.toCPSO.ndim → Option E) (g : σ) :
    Except PyErr (Output σ K a.toCPSO.p a.toCPSO.ndim ⊕ Stop E (CB K a.toCPSO.p a.toCPSO.ndim) (Vec K a.toCPSO.ndim)) :=
  CPSO.minimizeE env R srt fuel a.toCPSO raises g

/-- `na` — /repo/stochopy/optimize/na/_na.py:11-262. -/
def NA.minimizeE [IntParts K] (env : Env) (R : Rng σ K) (srt : Argsort K) (fuel : Nat) (a : NA.Args K)
    (raises : Nat → CB K a.p a.ndim → Option E) (g : σ) :
    Except PyErr (Output σ K a.p a.ndim ⊕ Stop E (CB K a.p a.ndim) (Vec K a.ndim)) := do
  NA.validate a
  match a.fn with
  | none => .error .typeError
  | some fn =>
    optimizer env fn true a.workers a.backend fun obj => do
      a.unpackBounds
      let P : NA.Par σ K a.ndim :=
        { R := R, argsort := srt, nr := a.nr, lower := a.lower, upper := a.upper, maxiter := a.maxiter,
          xtol := a.xtol, ftol := a.ftol, obj := obj }
      let s0 ← NA.init (p := a.p) P a.x0Pop (a.seeded R g)
      (NA.alg P).runE NA.State.evals raises a.cfg fuel s0 fun r L =>
        { res := r, cbs := L.cbs, evals := L.s.evals, x0After := L.s.caller, rng := L.s.rng }

namespace Evo
variable [NumFns K] [IntParts K]

/-- `while not converged` — /repo/stochopy/optimize/cmaes/_cmaes.py:229-343, vdcma/_vdcma.py:236-409. -/
def loopE (P : Par K n) (G : Gauss S K p n) (raises : Nat → CB K p n → Option E) (c : Cfg) :
    Nat → St S K p n → Except PyErr ((St S K p n × Gen K p n) ⊕ Stop E (CB K p n) (Vec K n))
  | 0, _ => .error .outOfFuel
  | fuel + 1, L => do
    let r ← body P G c L
    stopOr c.hasCallback raises r.1.cbs r.1.evals (if r.2.status.isSome then .ok (.inl r) else loopE P G raises c fuel r.1)

/-- The frame — /repo/stochopy/optimize/cmaes/_cmaes.py:212-357, vdcma/_vdcma.py:220-423. -/
def runE (P : Par K n) (G : Gauss S K p n) (raises : Nat → CB K p n → Option E) (c : Cfg) (rng : S → σ) (fuel : Nat) (s0 : S) :
    Except PyErr (Output σ K p n ⊕ Stop E (CB K p n) (Vec K n)) :=
  if c.maxiter < 0 then .error .valueError
  else
    unlessStopped (loopE P G raises c fuel
      { s := s0, it := 0, nfev := 0, pen := Pen.start n, arbest := List.replicate c.maxiter.toNat (.fin 0), rowsX := [], rowsF := [],
        cbs := [], evals := [] }) fun r => do
      let res ← finish c r
      .ok { res := res, cbs := r.1.cbs, evals := r.1.evals, x0After := none, rng := rng r.1.s }

end Evo

/-- `cmaes` — /repo/stochopy/optimize/cmaes/_cmaes.py:12-357. -/
def CMAES.minimizeE [NumFns K] [IntParts K] (env : Env) (R : Rng σ K) (srt : Argsort K) (eigh : Eigh K) (fuel : Nat) (a : Evo.Args K)
    (raises : Nat → CB K a.p a.ndim → Option E) (junk : Vec K a.ndim) (g : σ) :
    Except PyErr (Output σ K a.p a.ndim ⊕ Stop E (CB K a.p a.ndim) (Vec K a.ndim)) := do
  a.validate
  match a.fn with
  | none => .error .typeError
  | some fn =>
    optimizer env fn true a.workers a.backend fun obj => do
      a.unpackBounds
      let pen ← Evo.consMap a.constraints
      let m ← a.firstMean R (a.seeded R g)
      if h : 0 < a.ndim ∧ 0 < a.p ∧ 0 < a.mu ∧ a.mu ≤ a.p then
        Evo.runE (a.par srt obj pen) (CMAES.gauss { R := R, srt := srt, eigh := eigh, mu := a.mu, hmu := h.2.2.2 }) raises a.cfg
          CMAES.State.rng fuel (CMAES.start m.1 junk a.sigma m.2)
      else .error .unmodelled

/-- `vdcma` — /repo/stochopy/optimize/vdcma/_vdcma.py:13-423. -/
def VDCMA.minimizeE [NumFns K] [IntParts K] (env : Env) (R : Rng σ K) (srt : Argsort K) (fuel : Nat) (a : Evo.Args K)
    (raises : Nat → CB K a.p a.ndim → Option E) (junk : Vec K a.ndim) (g : σ) :
    Except PyErr (Output σ K a.p a.ndim ⊕ Stop E (CB K a.p a.ndim) (Vec K a.ndim)) := do
  a.validate
  match a.fn with
  | none => .error .typeError
  | some fn =>
    optimizer env fn true a.workers a.backend fun obj => do
      a.unpackBounds
      let pen ← Evo.consMap a.constraints
      let m ← a.firstMean R (a.seeded R g)
      if h : 0 < a.ndim ∧ 0 < a.p ∧ 0 < a.mu ∧ a.mu ≤ a.p then
        Evo.runE (a.par srt obj pen) (VDCMA.gauss { R := R, mu := a.mu, hmu := h.2.2.2 }) raises a.cfg
          VDCMA.State.rng fuel (VDCMA.start R m.1 junk a.sigma m.2)
      else .error .unmodelled

end optimizers

section samplers
variable [Zero K] [One K] [Add K] [Sub K] [Mul K] [Div K] [Neg K] [NatCast K] [IntCast K] [Pow K ℕ] [ArrayOps K] [LinearOrder K] [NumFns K]
variable {n : Nat}
open Sampling

namespace MCMC

/-- `for j in …` with the `break`, followed by `k` — /repo/stochopy/sample/mcmc/_mcmc.py:123-160. -/
def sweepE (P : Par σ K n) (raises : Nat → Sampling.CB K n → Option E)
    (k : State σ K n → Except PyErr (State σ K n ⊕ Stop E (Sampling.CB K n) (Vec (Val K) n))) :
    List Nat → State σ K n → Except PyErr (State σ K n ⊕ Stop E (Sampling.CB K n) (Vec (Val K) n))
  | [], s => k s
  | j :: js, s => do
    let s' ← block P j s
    stopOr P.hasCallback raises s'.cbs s'.evals (if s'.xs.length = P.maxiter then k s' else sweepE P raises k js s')

/-- `while i < maxiter` — /repo/stochopy/sample/mcmc/_mcmc.py:122-160. -/
def loopE (P : Par σ K n) (raises : Nat → Sampling.CB K n → Option E) :
    Nat → State σ K n → Except PyErr (State σ K n ⊕ Stop E (Sampling.CB K n) (Vec (Val K) n))
  | 0, s => if s.xs.length < P.maxiter then .error .outOfFuel else .ok (.inl s)
  | fuel + 1, s => if s.xs.length < P.maxiter then sweepE P raises (loopE P raises fuel) (starts n P.per) s else .ok (.inl s)

/-- Everything after the scaling of the step size — /repo/stochopy/sample/mcmc/_mcmc.py:90-171. -/
def restE [IntParts K] (R : Rng σ K) (fuel : Nat) (a : Args K) (raises : Nat → Sampling.CB K a.ndim → Option E) (fn : Vec (Val K) a.ndim → Val K)
    (step : Vec K a.ndim) (g : σ) : Except PyErr (Sampling.Output σ K a.ndim ⊕ Stop E (Sampling.CB K a.ndim) (Vec (Val K) a.ndim)) :=
  if ¬ (0 ≤ a.perc ∧ a.perc ≤ 1) then .error .valueError
  else if a.badCallback then .error .valueError
  else do
    let s ← start a.toArgs fn R (a.seeded R g)
    unlessStopped (stopOr a.callback.isSome raises s.cbs s.evals
      (loopE { R := R, fn := fn, lower := a.lower, upper := a.upper, step := step, per := perIter a.perc a.ndim,
               constraints := a.constraints, maxiter := a.maxiter.toNat, hasCallback := a.callback.isSome,
               returnAll := a.returnAll } raises fuel s)) fun s' => .ok (finish a.maxiter a.returnAll s')

/-- `sample` — /repo/stochopy/sample/mcmc/_mcmc.py:11-171. -/
def sampleE [IntParts K] (R : Rng σ K) (fuel : Nat) (a : Args K) (raises : Nat → Sampling.CB K a.ndim → Option E) (g : σ) :
    Except PyErr (Sampling.Output σ K a.ndim ⊕ Stop E (Sampling.CB K a.ndim) (Vec (Val K) a.ndim)) :=
  match a.fn, a.checkStart, a.stepsize.scale a.lower a.upper with
  | none, _, _ => .error .typeError
  | _, .error e, _ => .error e
  | _, _, .error e => .error e
  | some fn, .ok (), .ok step => restE R fuel a raises fn step g

end MCMC

namespace HMC

/-- `for i in range(1, maxiter)` — /repo/stochopy/sample/hmc/_hmc.py:144-187. -/
def loopE (P : Par σ K n) (raises : Nat → Sampling.CB K n → Option E) :
    Nat → State σ K n → Except PyErr (State σ K n ⊕ Stop E (Sampling.CB K n) (Vec (Val K) n))
  | 0, s => .ok (.inl s)
  | k + 1, s => do
    let s' ← iter P s
    stopOr P.hasCallback raises s'.cbs s'.evals (loopE P raises k s')

/-- Everything after the scaling of the step size — /repo/stochopy/sample/hmc/_hmc.py:110-201. -/
def restE (R : Rng σ K) (a : Args K) (raises : Nat → Sampling.CB K a.ndim → Option E) (fn : Vec (Val K) a.ndim → Val K) (step : Vec K a.ndim) (g : σ) :
    Except PyErr (Sampling.Output σ K a.ndim ⊕ Stop E (Sampling.CB K a.ndim) (Vec (Val K) a.ndim)) :=
  if badJac a.jac then .error .typeError
  else if a.badCallback then .error .valueError
  else do
    let s ← start a.toArgs fn R (a.seeded R g)
    unlessStopped (stopOr a.callback.isSome raises s.cbs s.evals
      (loopE { R := R, fn := fn, G := gradOf fn a.jac a.fdStep a.extraArgs, lower := a.lower, upper := a.upper,
               step := step, nleap := a.nleap.toNat, constraints := a.constraints,
               hasCallback := a.callback.isSome, returnAll := a.returnAll } raises (a.maxiter.toNat - 1) s)) fun s' => finish a.maxiter a.returnAll s'

/-- `sample` — /repo/stochopy/sample/hmc/_hmc.py:11-201. -/
def sampleE (R : Rng σ K) (a : Args K) (raises : Nat → Sampling.CB K a.ndim → Option E) (g : σ) :
    Except PyErr (Sampling.Output σ K a.ndim ⊕ Stop E (Sampling.CB K a.ndim) (Vec (Val K) a.ndim)) :=
  match a.fn, a.checkStart, decide (a.nleap < 1), a.stepsize.scale a.lower a.upper with
  | none, _, _, _ => .error .typeError
  | _, .error e, _, _ => .error e
  | _, _, true, _ => .error .valueError
  | _, _, _, .error e => .error e
  | some fn, .ok (), false, .ok step => restE R a raises fn step g

end HMC

end samplers

end Stochopy
