import Verif.Model.DE
import Verif.Model.CPSO
import Verif.Model.NA
import Verif.Model.CMAES
import Verif.Model.VDCMA

/-!
# Objectives with noise or state

Everywhere else the objective is a function of the point.  Here it may answer differently each time it is asked: a simulation with
noise, an objective that keeps a counter, or one that draws from NumPy's generator or looks at anything else.  `ans k x` is the
answer to the `k`-th request of a run, when the point asked for is `x`.  (A run sees one answer per request; whatever the
objective does, the answers of that run are described by some `ans`.)

Requests are counted in the order in which the code asks for them: the members of the initial population in order, then those
of each generation (/repo/stochopy/optimize/_common.py:43, 80, 86, 88).  With joblib and MPI the answer to member `i` is the `i`-th
of its generation, in whatever order the workers compute it; that the parallel wrappers bring every value to its place is
the subject of C15-C17 and is taken for granted here: `optimizer` is used to decide whether the call is rejected.

The steps are those of the deterministic model, with the objective of the current request number; `s.evals` lists the requests made
so far.
-/

namespace Stochopy

/-- The objective from the `k`-th request on. -/
def objFrom {K : Type} {n : Nat} (ans : Nat → Vec K n → Val K) (k : Nat) : Obj K n :=
  { pop := fun X i => ans (k + i.val) (X i), one := ans k }

namespace DE

variable {K σ : Type} [Zero K] [One K] [Add K] [Sub K] [Mul K] [Div K] [Neg K] [NatCast K] [IntCast K] [Pow K ℕ] [ArrayOps K] [LinearOrder K]

section core
variable {p n : Nat}

/-- The parameters with the objective from the `k`-th request on. -/
def Par.from (ans : Nat → Vec K n → Val K) (P : Par σ K p n) (k : Nat) : Par σ K p n := { P with obj := objFrom ans k }

/-- `de_sync` — /repo/stochopy/optimize/de/_de.py:314-351. -/
def stepSyncAns (ans : Nat → Vec K n → Val K) (P : Par σ K p n) (it : Nat) (s : State σ K p n) :
    Except PyErr (State σ K p n × Option Int) :=
  stepSync (P.from ans s.evals.length) it s

/-- Body of the loop over individuals in `de_async` — /repo/stochopy/optimize/de/_de.py:375-388. -/
def rowAsyncAns (ans : Nat → Vec K n → Val K) (P : Par σ K p n) (r1 : Fin p → Vec K n) (acc : State σ K p n × Option Int)
    (i : Fin p) : Except PyErr (State σ K p n × Option Int) :=
  rowAsync (P.from ans acc.1.evals.length) r1 acc i

/-- `de_async` — /repo/stochopy/optimize/de/_de.py:354-394. -/
def stepAsyncAns (ans : Nat → Vec K n → Val K) (P : Par σ K p n) (it : Nat) (s : State σ K p n) :
    Except PyErr (State σ K p n × Option Int) := do
  let dr := drawMat P.R.rand p n s.rng
  let r ← (List.finRange p).foldlM (rowAsyncAns ans P dr.1) ({ s with rng := dr.2 }, none)
  let status := if r.2.isNone && decide (P.maxiter ≤ (it : Int)) then some (-1) else r.2   -- lines 391-392
  .ok (r.1, status)

def algAns (ans : Nat → Vec K n → Val K) (P : Par σ K p n) (sync : Bool) : Alg (State σ K p n) K p n :=
  { alg P sync with step := if sync then stepSyncAns ans P else stepAsyncAns ans P }

/-- `de` (undecorated) — /repo/stochopy/optimize/de/_de.py:177-301. -/
def deAns (ans : Nat → Vec K n → Val K) (P : Par σ K p n) (sync : Bool) (c : Cfg) (fuel : Nat) (x0 : Option (Pop K p n)) (g : σ) :
    Except PyErr (Output σ K p n) := do
  let s0 ← init (P.from ans 0) x0 g
  let r ← (algAns ans P sync).run c fuel s0
  .ok { res := r.1, cbs := r.2.cbs, evals := r.2.s.evals, x0After := r.2.s.caller, rng := r.2.s.rng }

end core

/-- `minimize` for an objective that answers `ans` — /repo/stochopy/optimize/de/_de.py:13-173.  `a.fn` only says that the
objective is callable. -/
def minimizeAns [IntParts K] (env : Env) (R : Rng σ K) (fuel : Nat) (a : Args K) (ans : Nat → Vec K a.ndim → Val K) (g : σ) :
    Except PyErr (Output σ K a.p a.ndim) := do
  let strat ← validate a
  match a.fn with
  | none => .error .typeError
  | some fn =>
    optimizer env fn a.sync a.workers a.backend fun obj => do
      a.unpackBounds                                                       -- line 199
      let cons ← consMap a.constraints                                     -- line 202
      deAns ans { R := R, F := a.mutation, CR := a.recombination, strat := strat, cons := cons, lower := a.lower,
                  upper := a.upper, maxiter := a.maxiter, xtol := a.xtol, ftol := a.ftol, obj := obj }
        a.sync a.cfg fuel a.x0Pop (a.seeded R g)

end DE

namespace CPSO

variable {K σ : Type} [Zero K] [One K] [Add K] [Sub K] [Mul K] [Div K] [Neg K] [NatCast K] [IntCast K] [Pow K ℕ] [ArrayOps K] [LinearOrder K]

section core
variable {p n : Nat}

/-- The parameters with the objective from the `k`-th request on. -/
def Par.from (ans : Nat → Vec K n → Val K) (P : Par σ K n) (k : Nat) : Par σ K n := { P with obj := objFrom ans k }

/-- `pso_sync` — /repo/stochopy/optimize/cpso/_cpso.py:332-361. -/
def stepSyncAns (ans : Nat → Vec K n → Val K) (P : Par σ K n) (it : Nat) (s : State σ K p n) :
    Except PyErr (State σ K p n × Option Int) :=
  stepSync (P.from ans s.evals.length) it s

/-- Body of the loop in `pso_async` — /repo/stochopy/optimize/cpso/_cpso.py:387-396. -/
def rowAsyncAns (ans : Nat → Vec K n → Val K) (P : Par σ K n) (r1 r2 : Pop K p n) (acc : State σ K p n × Option Int) (i : Fin p) :
    State σ K p n × Option Int :=
  rowAsync (P.from ans acc.1.evals.length) r1 r2 acc i

/-- `pso_async` — /repo/stochopy/optimize/cpso/_cpso.py:364-402. -/
def stepAsyncAns (ans : Nat → Vec K n → Val K) (P : Par σ K n) (it : Nat) (s : State σ K p n) :
    Except PyErr (State σ K p n × Option Int) :=
  let d1 := drawMat P.R.rand p n s.rng
  let d2 := drawMat P.R.rand p n d1.2
  let r := (List.finRange p).foldl (rowAsyncAns ans P d1.1 d2.1) ({ s with rng := d2.2 }, none)
  .ok (r.1, if r.2.isNone && decide (P.maxiter ≤ (it : Int)) then some (-1) else r.2)   -- lines 399-400

variable [IntParts K] [NumFns K]

def algAns (ans : Nat → Vec K n → Val K) (P : Par σ K n) (sync : Bool) : Alg (State σ K p n) K p n :=
  { alg P sync with step := if sync then stepSyncAns ans P else stepAsyncAns ans P }

/-- `cpso` (undecorated) — /repo/stochopy/optimize/cpso/_cpso.py:183-321. -/
def cpsoAns (ans : Nat → Vec K n → Val K) (P : Par σ K n) (sync : Bool) (c : Cfg) (fuel : Nat) (x0 : Option (Pop K p n)) (g : σ) :
    Except PyErr (Output σ K p n) := do
  let s0 ← init (P.from ans 0) x0 g
  let r ← (algAns ans P sync).run c fuel s0
  .ok { res := r.1, cbs := r.2.cbs, evals := r.2.s.evals, x0After := r.2.s.caller, rng := r.2.s.rng }

end core

/-- `minimize` for an objective that answers `ans` — /repo/stochopy/optimize/cpso/_cpso.py:12-179. -/
def minimizeAns [IntParts K] [NumFns K] (env : Env) (R : Rng σ K) (srt : Argsort K) (fuel : Nat) (a : Args K)
    (ans : Nat → Vec K a.ndim → Val K) (g : σ) : Except PyErr (Output σ K a.p a.ndim) := do
  validate a
  match a.fn with
  | none => .error .typeError
  | some fn =>
    optimizer env fn a.sync a.workers a.backend fun obj => do
      a.unpackBounds                                                       -- line 206
      let cons ← consMap a.constraints                                     -- line 209
      cpsoAns ans { R := R, argsort := srt, w := a.inertia, c1 := a.cognitivity, c2 := a.sociability,
                    gamma := a.competitivity, cons := cons, lower := a.lower, upper := a.upper, maxiter := a.maxiter,
                    xtol := a.xtol, ftol := a.ftol, obj := obj }
        a.sync a.cfg fuel a.x0Pop (a.seeded R g)

end CPSO

namespace PSO

variable {K σ : Type} [Zero K] [One K] [Add K] [Sub K] [Mul K] [Div K] [Neg K] [NatCast K] [IntCast K] [Pow K ℕ] [ArrayOps K] [LinearOrder K]

/-- `minimize` for an objective that answers `ans` — /repo/stochopy/optimize/pso/_pso.py:9-122. -/
def minimizeAns [IntParts K] [NumFns K] (env : Env) (R : Rng σ K) (srt : Argsort K) (fuel : Nat) (a : Args K)
    (ans : Nat → Vec K a.ndim → Val K) (g : σ) : Except PyErr (Output σ K a.p a.ndim) :=
  CPSO.minimizeAns env R srt fuel a.toCPSO ans g

end PSO

namespace NA

variable {K σ : Type} [Zero K] [One K] [Add K] [Sub K] [Mul K] [Div K] [Neg K] [NatCast K] [IntCast K] [Pow K ℕ] [ArrayOps K] [LinearOrder K]

section core
variable {p n : Nat}

/-- The parameters with the objective from the `k`-th request on. -/
def Par.from (ans : Nat → Vec K n → Val K) (P : Par σ K n) (k : Nat) : Par σ K n := { P with obj := objFrom ans k }

/-- Loop body — /repo/stochopy/optimize/na/_na.py:216-224. -/
def stepAns (ans : Nat → Vec K n → Val K) (P : Par σ K n) (it : Nat) (s : State σ K p n) :
    Except PyErr (State σ K p n × Option Int) :=
  step (P.from ans s.evals.length) it s

def algAns (ans : Nat → Vec K n → Val K) (P : Par σ K n) : Alg (State σ K p n) K p n :=
  { alg P with step := stepAns ans P }

/-- `na` (undecorated) — /repo/stochopy/optimize/na/_na.py:135-262. -/
def naAns (ans : Nat → Vec K n → Val K) (P : Par σ K n) (c : Cfg) (fuel : Nat) (x0 : Option (Pop K p n)) (g : σ) :
    Except PyErr (Output σ K p n) := do
  let s0 ← init (P.from ans 0) x0 g
  let r ← (algAns ans P).run c fuel s0
  .ok { res := r.1, cbs := r.2.cbs, evals := r.2.s.evals, x0After := r.2.s.caller, rng := r.2.s.rng }

end core

/-- `minimize` for an objective that answers `ans` — /repo/stochopy/optimize/na/_na.py:11-131. -/
def minimizeAns [IntParts K] (env : Env) (R : Rng σ K) (srt : Argsort K) (fuel : Nat) (a : Args K)
    (ans : Nat → Vec K a.ndim → Val K) (g : σ) : Except PyErr (Output σ K a.p a.ndim) := do
  validate a
  match a.fn with
  | none => .error .typeError
  | some fn =>
    optimizer env fn true a.workers a.backend fun obj => do
      a.unpackBounds                                                        -- line 154
      naAns ans { R := R, argsort := srt, nr := a.nr, lower := a.lower, upper := a.upper, maxiter := a.maxiter,
                  xtol := a.xtol, ftol := a.ftol, obj := obj }
        a.cfg fuel a.x0Pop (a.seeded R g)

end NA

namespace Evo

variable {K σ S : Type} [Zero K] [One K] [Add K] [Sub K] [Mul K] [Div K] [Neg K] [NatCast K] [IntCast K] [Pow K ℕ] [ArrayOps K] [LinearOrder K]
variable [NumFns K] [IntParts K] {p n : Nat}

/-- The parameters with the objective from the `k`-th request on. -/
def Par.from (ans : Nat → Vec K n → Val K) (P : Par K n) (k : Nat) : Par K n := { P with obj := objFrom ans k }

/-- One iteration — /repo/stochopy/optimize/cmaes/_cmaes.py:229-343, vdcma/_vdcma.py:236-409. -/
def bodyAns (ans : Nat → Vec K n → Val K) (P : Par K n) (G : Gauss S K p n) (c : Cfg) (L : St S K p n) :
    Except PyErr (St S K p n × Gen K p n) :=
  body (P.from ans L.evals.length) G c L

/-- `while not converged`, with fuel. -/
def loopAns (ans : Nat → Vec K n → Val K) (P : Par K n) (G : Gauss S K p n) (c : Cfg) :
    Nat → St S K p n → Except PyErr (St S K p n × Gen K p n)
  | 0, _ => .error .outOfFuel
  | fuel + 1, L => do
    let r ← bodyAns ans P G c L
    if r.2.status.isSome then .ok r else loopAns ans P G c fuel r.1

/-- The frame from the initial state on — /repo/stochopy/optimize/cmaes/_cmaes.py:212-357, vdcma/_vdcma.py:220-423. -/
def runAns (ans : Nat → Vec K n → Val K) (P : Par K n) (G : Gauss S K p n) (c : Cfg) (rng : S → σ) (fuel : Nat) (s0 : S) :
    Except PyErr (Output σ K p n) := do
  if c.maxiter < 0 then .error .valueError
  else do
    let r ← loopAns ans P G c fuel
      { s := s0, it := 0, nfev := 0, pen := Pen.start n, arbest := List.replicate c.maxiter.toNat (.fin 0), rowsX := [],
        rowsF := [], cbs := [], evals := [] }
    let res ← finish c r
    .ok { res := res, cbs := r.1.cbs, evals := r.1.evals, x0After := none, rng := rng r.1.s }

end Evo

namespace CMAES
open Evo

variable {K σ : Type} [Zero K] [One K] [Add K] [Sub K] [Mul K] [Div K] [Neg K] [NatCast K] [IntCast K] [Pow K ℕ] [ArrayOps K] [LinearOrder K]
variable [NumFns K]

/-- `minimize` for an objective that answers `ans` — /repo/stochopy/optimize/cmaes/_cmaes.py:12-357. -/
def minimizeAns [IntParts K] (env : Env) (R : Rng σ K) (srt : Argsort K) (eigh : Eigh K) (fuel : Nat) (a : Args K)
    (ans : Nat → Vec K a.ndim → Val K) (junk : Vec K a.ndim) (g : σ) : Except PyErr (Output σ K a.p a.ndim) := do
  a.validate
  match a.fn with
  | none => .error .typeError
  | some fn =>
    optimizer env fn true a.workers a.backend fun obj => do
      a.unpackBounds                                                       -- line 165
      let pen ← consMap a.constraints
      let m ← a.firstMean R (a.seeded R g)
      if h : 0 < a.ndim ∧ 0 < a.p ∧ 0 < a.mu ∧ a.mu ≤ a.p then
        let P : Par σ K a.p a.ndim := { R := R, srt := srt, eigh := eigh, mu := a.mu, hmu := h.2.2.2 }
        runAns ans (a.par srt obj pen) (gauss P) a.cfg State.rng fuel (start m.1 junk a.sigma m.2)
      else .error .unmodelled

end CMAES

namespace VDCMA
open Evo

variable {K σ : Type} [Zero K] [One K] [Add K] [Sub K] [Mul K] [Div K] [Neg K] [NatCast K] [IntCast K] [Pow K ℕ] [ArrayOps K] [LinearOrder K]
variable [NumFns K]

/-- `minimize` for an objective that answers `ans` — /repo/stochopy/optimize/vdcma/_vdcma.py:13-423. -/
def minimizeAns [IntParts K] (env : Env) (R : Rng σ K) (srt : Argsort K) (fuel : Nat) (a : Args K)
    (ans : Nat → Vec K a.ndim → Val K) (junk : Vec K a.ndim) (g : σ) : Except PyErr (Output σ K a.p a.ndim) := do
  a.validate
  match a.fn with
  | none => .error .typeError
  | some fn =>
    optimizer env fn true a.workers a.backend fun obj => do
      a.unpackBounds                                                       -- line 166
      let pen ← consMap a.constraints
      let m ← a.firstMean R (a.seeded R g)
      if h : 0 < a.ndim ∧ 0 < a.p ∧ 0 < a.mu ∧ a.mu ≤ a.p then
        let P : Par σ K a.p a.ndim := { R := R, mu := a.mu, hmu := h.2.2.2 }
        runAns ans (a.par srt obj pen) (gauss P) a.cfg State.rng fuel (start R m.1 junk a.sigma m.2)
      else .error .unmodelled

end VDCMA

end Stochopy
