import Verif.Model.CallbackWrites

/-!
# Callbacks that write into the state they are given

The `x` of the state that `de`, `cpso` and `pso` hand to the callback is the very array `gbest` the loop goes on with, and the `x` of the
result (`OptimizeResult(x=gbest, …)`, /repo/stochopy/optimize/de/_de.py:238, 283 and 290, cpso/_cpso.py:250, 298 and 310): a callback that
converts it in place to other units (`state.x *= scale`) changes the search and the result.  `wr k (X, x)` is what the `k`-th call leaves
in the two arrays it is shown, so that the writes of `Model/CallbackWrites.lean` are included.

`na`, `cmaes` and `vdcma` give `unnormalize(gbest)` (na/_na.py:204, 240 and 251) and `unstandardize(…)` (cmaes/_cmaes.py, vdcma/_vdcma.py),
which are temporaries.  Assignments to attributes (`state.x = …`) have no effect: the object is built anew for every call.  Not described:
writes into `state.xall` and `state.funall`, which are views of the histories.
-/

namespace Stochopy

variable {S K σ : Type}

section frame
variable [Zero K] [One K] [Add K] [Sub K] [Mul K] [Div K] [Neg K] [NatCast K] [IntCast K] [Pow K ℕ] [ArrayOps K] [LinearOrder K]
variable {p n : Nat}

/-- The run: the `x` of the result is the array that the last callback was shown —
/repo/stochopy/optimize/de/_de.py:237-301, cpso/_cpso.py:249-321. -/
def Alg.runB (A : Alg S K p n) (w : Nat → S → S) (c : Cfg) (fuel : Nat) (s0 : S) : Except PyErr (Result K n × Loop S K p n) :=
  if c.hasCallback then do
    let r ← (A.writing w).run c fuel s0
    let s := w r.2.it r.2.s
    .ok ({ r.1 with x := A.best s }, { r.2 with s := s })
  else A.run c fuel s0

end frame

section optimizers
variable [Zero K] [One K] [Add K] [Sub K] [Mul K] [Div K] [Neg K] [NatCast K] [IntCast K] [Pow K ℕ] [ArrayOps K] [LinearOrder K]

namespace DE
variable {p n : Nat}

/-- `X` and `gbest` are overwritten. -/
def State.writeBoth (wr : Nat → Pop K p n × Vec K n → Pop K p n × Vec K n) (k : Nat) (s : State σ K p n) : State σ K p n :=
  { s with X := (wr k (s.X, s.gbest)).1, gbest := (wr k (s.X, s.gbest)).2, caller := s.caller.map fun _ => (wr k (s.X, s.gbest)).1 }

/-- `de` — /repo/stochopy/optimize/de/_de.py:177-301. -/
def deB (P : Par σ K p n) (sync : Bool) (c : Cfg) (fuel : Nat) (wr : Nat → Pop K p n × Vec K n → Pop K p n × Vec K n)
    (x0 : Option (Pop K p n)) (g : σ) : Except PyErr (Output σ K p n) := do
  let s0 ← init P x0 g
  let r ← (alg P sync).runB (State.writeBoth wr) c fuel s0
  .ok { res := r.1, cbs := r.2.cbs, evals := r.2.s.evals, x0After := r.2.s.caller, rng := r.2.s.rng }

/-- `minimize` — /repo/stochopy/optimize/de/_de.py:13-173. -/
def minimizeB [IntParts K] (env : Env) (R : Rng σ K) (fuel : Nat) (a : Args K)
    (wr : Nat → Pop K a.p a.ndim × Vec K a.ndim → Pop K a.p a.ndim × Vec K a.ndim) (g : σ) : Except PyErr (Output σ K a.p a.ndim) := do
  let strat ← validate a
  match a.fn with
  | none => .error .typeError
  | some fn =>
    optimizer env fn a.sync a.workers a.backend fun obj => do
      a.unpackBounds
      let cons ← consMap a.constraints
      deB { R := R, F := a.mutation, CR := a.recombination, strat := strat, cons := cons, lower := a.lower,
            upper := a.upper, maxiter := a.maxiter, xtol := a.xtol, ftol := a.ftol, obj := obj }
        a.sync a.cfg fuel wr a.x0Pop (a.seeded R g)

end DE

namespace CPSO
variable {p n : Nat}

/-- `X` and `gbest` are overwritten; `pbest` is an array of its own (/repo/stochopy/optimize/cpso/_cpso.py:223-230). -/
def State.writeBoth (wr : Nat → Pop K p n × Vec K n → Pop K p n × Vec K n) (k : Nat) (s : State σ K p n) : State σ K p n :=
  { s with X := (wr k (s.X, s.gbest)).1, gbest := (wr k (s.X, s.gbest)).2,
           caller := writeThrough s.aliased s.caller (wr k (s.X, s.gbest)).1 }

/-- `cpso` — /repo/stochopy/optimize/cpso/_cpso.py:183-321. -/
def cpsoB [IntParts K] [NumFns K] (P : Par σ K n) (sync : Bool) (c : Cfg) (fuel : Nat)
    (wr : Nat → Pop K p n × Vec K n → Pop K p n × Vec K n) (x0 : Option (Pop K p n)) (g : σ) : Except PyErr (Output σ K p n) := do
  let s0 ← init P x0 g
  let r ← (alg P sync).runB (State.writeBoth wr) c fuel s0
  .ok { res := r.1, cbs := r.2.cbs, evals := r.2.s.evals, x0After := r.2.s.caller, rng := r.2.s.rng }

/-- `minimize` — /repo/stochopy/optimize/cpso/_cpso.py:12-179. -/
def minimizeB [IntParts K] [NumFns K] (env : Env) (R : Rng σ K) (srt : Argsort K) (fuel : Nat) (a : Args K)
    (wr : Nat → Pop K a.p a.ndim × Vec K a.ndim → Pop K a.p a.ndim × Vec K a.ndim) (g : σ) : Except PyErr (Output σ K a.p a.ndim) := do
  validate a
  match a.fn with
  | none => .error .typeError
  | some fn =>
    optimizer env fn a.sync a.workers a.backend fun obj => do
      a.unpackBounds
      let cons ← consMap a.constraints
      cpsoB { R := R, argsort := srt, w := a.inertia, c1 := a.cognitivity, c2 := a.sociability,
              gamma := a.competitivity, cons := cons, lower := a.lower, upper := a.upper, maxiter := a.maxiter,
              xtol := a.xtol, ftol := a.ftol, obj := obj }
        a.sync a.cfg fuel wr a.x0Pop (a.seeded R g)

end CPSO

namespace PSO

/-- `minimize` — /repo/stochopy/optimize/pso/_pso.py:9-122. -/
def minimizeB [IntParts K] [NumFns K] (env : Env) (R : Rng σ K) (srt : Argsort K) (fuel : Nat) (a : Args K)
    (wr : Nat → Pop K a.p a.ndim × Vec K a.ndim → Pop K a.p a.ndim × Vec K a.ndim) (g : σ) : Except PyErr (Output σ K a.p a.ndim) :=
  CPSO.minimizeB env R srt fuel a.toCPSO wr g

end PSO

end optimizers

end Stochopy
