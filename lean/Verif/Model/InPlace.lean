import Verif.Model.DE
import Verif.Model.CPSO
import Verif.Model.NA
import Verif.Model.MCMC
import Verif.Model.HMC

/-!
# Objectives that write into their argument

Everywhere else the objective leaves the array it is called with as it was.  Python does not enforce this: `x -= shift`,
`np.clip(x, lo, up, out=x)`, `x[x < 0] = 0.0` or `x.sort()` inside an objective change the caller's array.  What that array is
depends on the method:

* `de`: a row of the population (/repo/stochopy/optimize/de/_de.py:212) — of the caller's `x0` if one was given — or a row of the
  candidates (lines 347 and 386), which are copied into the population *after* the call (_common.py:129 and 170);
* `cpso`, `pso`: a row of the population (cpso/_cpso.py:224, 357, 393), the first one being the caller's `x0` if given; the personal
  bests are copied before the first call (line 221) and after the later ones;
* `na`: a row of the new array `unnormalize(X)` (na/_na.py:161 and 163), which nothing else refers to;
* `mcmc`: the row of `xall` for the new sample (sample/mcmc/_mcmc.py:109 and 132);
* `hmc`: the first row of `xall` (sample/hmc/_hmc.py:131), the copies `x1`, `x2` of the position in `numerical_gradient` (line 228),
  the copy `q0` of the old position, which is not used again (line 159), and the new position `q` (line 161).

`fn x` is the value returned and `wr x` what the array holds afterwards.  The objective is evaluated in the process of the
optimizer; joblib's `loky` workers are other processes and write into copies.  MPI is not described here (`unmodelled`).
-/

namespace Stochopy

variable {K σ : Type} [Zero K] [One K] [Add K] [Sub K] [Mul K] [Div K] [Neg K] [NatCast K] [IntCast K] [Pow K ℕ] [ArrayOps K] [LinearOrder K]

/-- What the writes of the objective do to the array that the wrapper was given — /repo/stochopy/optimize/_common.py:36-88. -/
def inPlace {n : Nat} (sync : Bool) (workers : Int) (backend : Option String) (wr : Vec K n → Vec K n) :
    Except PyErr (Vec K n → Vec K n) :=
  if sync then
    if effBackend backend == "mpi" then .error .unmodelled
    else if effBackend backend == "loky" && !(workers == 0 || workers == 1) then .ok id
    else .ok wr
  else .ok wr

/-- The values of a population that has been evaluated, as an objective: asked for member `i` it answers `v i`. -/
def answered {p : Nat} (n : Nat) (v : Fin p → Val K) : Obj K n :=
  { pop := fun _ i => if h : i.val < p then v ⟨i.val, h⟩ else .nan, one := fun _ => .nan }

/-- The value of a single point that has been evaluated. -/
def answeredOne (n : Nat) (v : Val K) : Obj K n := { pop := fun _ _ => v, one := fun _ => v }

/-- `selection_sync` when the objective writes: after `candfun = fun(cand)` (/repo/stochopy/optimize/_common.py:126) the rows of
`cand` are what the objective left there, and lines 127-160 work on them. -/
def selectionSyncW {p n : Nat} (it : Nat) (cand : Pop K p n) (xbest : Vec K n) (x : Pop K p n)
    (xfun : Fin p → Val K) (maxiter : Int) (xtol : K) (ftol : Val K) (obj : Obj K n) (wr : Vec K n → Vec K n) :
    Except PyErr (SelSync K p n) :=
  selectionSync it (fun i => wr (cand i)) xbest x xfun maxiter xtol ftol (answered n (obj.pop cand))

/-- `selection_async` when the objective writes (/repo/stochopy/optimize/_common.py:166-194). -/
def selectionAsyncW {p n : Nat} (candi : Vec K n) (xbest : Vec K n) (xbestfun : Val K) (x : Pop K p n)
    (xfun : Fin p → Val K) (xtol : K) (ftol : Val K) (obj : Obj K n) (wr : Vec K n → Vec K n) (i : Fin p) : SelAsync K p n :=
  selectionAsync (wr candi) xbest xbestfun x xfun xtol ftol (answeredOne n (obj.one candi)) i

namespace DE

section core
variable {p n : Nat}

/-- `de_sync` — /repo/stochopy/optimize/de/_de.py:314-351. -/
def stepSyncW (wr : Vec K n → Vec K n) (P : Par σ K p n) (it : Nat) (s : State σ K p n) :
    Except PyErr (State σ K p n × Option Int) := do
  let U ← candSync P s.X s.gbest s.rng
  let r ← selectionSyncW it U.1 s.gbest s.X s.pbestfit P.maxiter P.xtol P.ftol P.obj wr
  .ok ({ X := r.x, gbest := r.xbest, pbestfit := r.xfun, gfit := r.xbestfun, pfit := r.candfun,
         caller := s.caller.map fun _ => r.x, evals := s.evals ++ List.ofFn U.1, rng := U.2 }, r.status)

/-- Body of the loop over individuals in `de_async` — /repo/stochopy/optimize/de/_de.py:375-388. -/
def rowAsyncW (wr : Vec K n → Vec K n) (P : Par σ K p n) (r1 : Fin p → Vec K n) (acc : State σ K p n × Option Int) (i : Fin p) :
    Except PyErr (State σ K p n × Option Int) := do
  let s := acc.1
  let U ← candAsync P (r1 i) i s.X s.gbest s.rng
  let r := selectionAsyncW U.1 s.gbest s.gfit s.X s.pbestfit P.xtol P.ftol P.obj wr i
  .ok ({ X := r.x, gbest := r.xbest, pbestfit := r.xfun, gfit := r.xbestfun,
         pfit := Function.update s.pfit i r.candfun,
         caller := s.caller.map fun _ => r.x, evals := s.evals ++ [U.1], rng := U.2 }, r.status)

/-- `de_async` — /repo/stochopy/optimize/de/_de.py:354-394. -/
def stepAsyncW (wr : Vec K n → Vec K n) (P : Par σ K p n) (it : Nat) (s : State σ K p n) :
    Except PyErr (State σ K p n × Option Int) := do
  let dr := drawMat P.R.rand p n s.rng
  let r ← (List.finRange p).foldlM (rowAsyncW wr P dr.1) ({ s with rng := dr.2 }, none)
  let status := if r.2.isNone && decide (P.maxiter ≤ (it : Int)) then some (-1) else r.2
  .ok (r.1, status)

def algW (wr : Vec K n → Vec K n) (P : Par σ K p n) (sync : Bool) : Alg (State σ K p n) K p n :=
  { alg P sync with step := if sync then stepSyncW wr P else stepAsyncW wr P }

/-- Evaluation of the initial population — /repo/stochopy/optimize/de/_de.py:208-218: `pfit = fun(X)` comes before
`gbest = X[gbidx].copy()`, and `X` is the caller's array if `x0` was given. -/
def initW (wr : Vec K n → Vec K n) (P : Par σ K p n) (x0 : Option (Pop K p n)) (g : σ) : Except PyErr (State σ K p n) := do
  let X : Pop K p n × σ := match x0 with
    | some x => (x, g)
    | none => lhs P.R p P.lower P.upper g
  let pfit := P.obj.pop X.1
  let X' : Pop K p n := fun i => wr (X.1 i)
  let gbidx ← argmin pfit
  .ok { X := X', gbest := X' gbidx, pbestfit := pfit, gfit := pfit gbidx, pfit := pfit,
        caller := x0.map fun _ => X', evals := List.ofFn X.1, rng := X.2 }

/-- `de` (undecorated) — /repo/stochopy/optimize/de/_de.py:177-301. -/
def deW (wr : Vec K n → Vec K n) (P : Par σ K p n) (sync : Bool) (c : Cfg) (fuel : Nat) (x0 : Option (Pop K p n)) (g : σ) :
    Except PyErr (Output σ K p n) := do
  let s0 ← initW wr P x0 g
  let r ← (algW wr P sync).run c fuel s0
  .ok { res := r.1, cbs := r.2.cbs, evals := r.2.s.evals, x0After := r.2.s.caller, rng := r.2.s.rng }

end core

/-- `minimize` for an objective that leaves `wr x` in the array it is called with — /repo/stochopy/optimize/de/_de.py:13-173. -/
def minimizeW [IntParts K] (env : Env) (R : Rng σ K) (fuel : Nat) (a : Args K) (wr : Vec K a.ndim → Vec K a.ndim) (g : σ) :
    Except PyErr (Output σ K a.p a.ndim) := do
  let strat ← validate a
  match a.fn with
  | none => .error .typeError
  | some fn =>
    optimizer env fn a.sync a.workers a.backend fun obj => do
      let wr' ← inPlace a.sync a.workers a.backend wr
      a.unpackBounds
      let cons ← consMap a.constraints
      deW wr' { R := R, F := a.mutation, CR := a.recombination, strat := strat, cons := cons, lower := a.lower,
                upper := a.upper, maxiter := a.maxiter, xtol := a.xtol, ftol := a.ftol, obj := obj }
        a.sync a.cfg fuel a.x0Pop (a.seeded R g)

end DE

namespace CPSO

section core
variable {p n : Nat}

/-- `pso_sync` — /repo/stochopy/optimize/cpso/_cpso.py:332-361: `X` is the array that was evaluated. -/
def stepSyncW (wr : Vec K n → Vec K n) (P : Par σ K n) (it : Nat) (s : State σ K p n) :
    Except PyErr (State σ K p n × Option Int) := do
  let d1 := drawMat P.R.rand p n s.rng
  let d2 := drawMat P.R.rand p n d1.2
  let m : Fin p → Vec K n × Vec K n := fun i =>
    mutation P (s.X i) (s.V i) (s.pbest i) s.gbest (d1.1 i) (d2.1 i)
  let X : Pop K p n := fun i => (m i).1
  let V : Pop K p n := fun i => (m i).2
  let r ← selectionSyncW it X s.gbest s.pbest s.pbestfit P.maxiter P.xtol P.ftol P.obj wr
  .ok ({ X := fun i => wr (X i), V := V, pbest := r.x, gbest := r.xbest, pbestfit := r.xfun, gfit := r.xbestfun,
         pfit := r.candfun, caller := s.caller, aliased := false, evals := s.evals ++ List.ofFn X, rng := d2.2 },
       r.status)

/-- Body of the loop in `pso_async` — /repo/stochopy/optimize/cpso/_cpso.py:387-396. -/
def rowAsyncW (wr : Vec K n → Vec K n) (P : Par σ K n) (r1 r2 : Pop K p n) (acc : State σ K p n × Option Int) (i : Fin p) :
    State σ K p n × Option Int :=
  let s := acc.1
  let m := mutation P (s.X i) (s.V i) (s.pbest i) s.gbest (r1 i) (r2 i)
  let X := Function.update s.X i (wr m.1)
  let r := selectionAsyncW m.1 s.gbest s.gfit s.pbest s.pbestfit P.xtol P.ftol P.obj wr i
  ({ X := X, V := Function.update s.V i m.2, pbest := r.x, gbest := r.xbest, pbestfit := r.xfun,
     gfit := r.xbestfun, pfit := Function.update s.pfit i r.candfun,
     caller := writeThrough s.aliased s.caller X, aliased := s.aliased, evals := s.evals ++ [m.1], rng := s.rng },
   r.status)

/-- `pso_async` — /repo/stochopy/optimize/cpso/_cpso.py:364-402. -/
def stepAsyncW (wr : Vec K n → Vec K n) (P : Par σ K n) (it : Nat) (s : State σ K p n) :
    Except PyErr (State σ K p n × Option Int) :=
  let d1 := drawMat P.R.rand p n s.rng
  let d2 := drawMat P.R.rand p n d1.2
  let r := (List.finRange p).foldl (rowAsyncW wr P d1.1 d2.1) ({ s with rng := d2.2 }, none)
  .ok (r.1, if r.2.isNone && decide (P.maxiter ≤ (it : Int)) then some (-1) else r.2)

variable [IntParts K] [NumFns K]

def algW (wr : Vec K n → Vec K n) (P : Par σ K n) (sync : Bool) : Alg (State σ K p n) K p n :=
  { alg P sync with step := if sync then stepSyncW wr P else stepAsyncW wr P }

/-- Initial population — /repo/stochopy/optimize/cpso/_cpso.py:219-230: `pbest = X.copy()` comes before `pfit = fun(X)`, and
`gbest = X[gbidx].copy()` after it. -/
def initW (wr : Vec K n → Vec K n) (P : Par σ K n) (x0 : Option (Pop K p n)) (g : σ) : Except PyErr (State σ K p n) := do
  let X : Pop K p n × σ := match x0 with
    | some x => (x, g)
    | none => lhs P.R p P.lower P.upper g
  let pfit := P.obj.pop X.1
  let X' : Pop K p n := fun i => wr (X.1 i)
  let gbidx ← argmin pfit
  .ok { X := X', V := fun _ _ => 0, pbest := X.1, gbest := X' gbidx, pbestfit := pfit, gfit := pfit gbidx,
        pfit := pfit, caller := x0.map fun _ => X', aliased := x0.isSome, evals := List.ofFn X.1, rng := X.2 }

/-- `cpso` (undecorated) — /repo/stochopy/optimize/cpso/_cpso.py:183-321. -/
def cpsoW (wr : Vec K n → Vec K n) (P : Par σ K n) (sync : Bool) (c : Cfg) (fuel : Nat) (x0 : Option (Pop K p n)) (g : σ) :
    Except PyErr (Output σ K p n) := do
  let s0 ← initW wr P x0 g
  let r ← (algW wr P sync).run c fuel s0
  .ok { res := r.1, cbs := r.2.cbs, evals := r.2.s.evals, x0After := r.2.s.caller, rng := r.2.s.rng }

end core

/-- `minimize` for an objective that leaves `wr x` in the array it is called with — /repo/stochopy/optimize/cpso/_cpso.py:12-179. -/
def minimizeW [IntParts K] [NumFns K] (env : Env) (R : Rng σ K) (srt : Argsort K) (fuel : Nat) (a : Args K)
    (wr : Vec K a.ndim → Vec K a.ndim) (g : σ) : Except PyErr (Output σ K a.p a.ndim) := do
  validate a
  match a.fn with
  | none => .error .typeError
  | some fn =>
    optimizer env fn a.sync a.workers a.backend fun obj => do
      let wr' ← inPlace a.sync a.workers a.backend wr
      a.unpackBounds
      let cons ← consMap a.constraints
      cpsoW wr' { R := R, argsort := srt, w := a.inertia, c1 := a.cognitivity, c2 := a.sociability,
                  gamma := a.competitivity, cons := cons, lower := a.lower, upper := a.upper, maxiter := a.maxiter,
                  xtol := a.xtol, ftol := a.ftol, obj := obj }
        a.sync a.cfg fuel a.x0Pop (a.seeded R g)

end CPSO

/-- `minimize` of `pso` — /repo/stochopy/optimize/pso/_pso.py:9-122. -/
def PSO.minimizeW [IntParts K] [NumFns K] (env : Env) (R : Rng σ K) (srt : Argsort K) (fuel : Nat) (a : PSO.Args K)
    (wr : Vec K a.ndim → Vec K a.ndim) (g : σ) : Except PyErr (Output σ K a.p a.ndim) :=
  CPSO.minimizeW env R srt fuel a.toCPSO wr g

namespace NA

section core
variable {p n : Nat}

/-- `fun = lambda x: funnorm(unnormalize(x))` — /repo/stochopy/optimize/na/_na.py:163 — with what `x` holds afterwards: the
objective writes into the new array that `unnormalize` made. -/
def evalW (wr : Vec K n → Vec K n) (P : Par σ K n) (x : Pop K p n) : (Fin p → Val K) × Pop K p n :=
  let t : Pop K p n := fun i => unnormalize P.lower P.upper (x i)
  let v := P.obj.pop t
  let _t' : Pop K p n := fun i => wr (t i)                    -- nothing refers to this array
  (v, x)

/-- Loop body — /repo/stochopy/optimize/na/_na.py:216-224. -/
def stepW (wr : Vec K n → Vec K n) (P : Par σ K n) (it : Nat) (s : State σ K p n) :
    Except PyErr (State σ K p n × Option Int) := do
  let X ← mutation P.R P.argsort (spanMask P.lower P.upper) s.All p P.nr s.rng
  let e := evalW wr P X.1
  let r ← selectionSync it e.2 s.gbest s.pbest s.pbestfit P.maxiter P.xtol P.ftol (answered n e.1)
  .ok ({ X := e.2, pbest := r.x, gbest := r.xbest, pbestfit := r.xfun, gfit := r.xbestfun, pfit := r.candfun,
         All := List.ofFn (fun i => (e.2 i, r.candfun i)) ++ s.All
         caller := s.caller,
         evals := s.evals ++ List.ofFn (fun i => unnormalize P.lower P.upper (X.1 i)), rng := X.2 }, r.status)

def algW (wr : Vec K n → Vec K n) (P : Par σ K n) : Alg (State σ K p n) K p n := { alg P with step := stepW wr P }

/-- Initial population — /repo/stochopy/optimize/na/_na.py:169-184. -/
def initW (wr : Vec K n → Vec K n) (P : Par σ K n) (x0 : Option (Pop K p n)) (g : σ) : Except PyErr (State σ K p n) := do
  let X0 : Pop K p n × σ := match x0 with
    | some x => (x, g)
    | none => lhs P.R p P.lower P.upper g
  let X : Pop K p n := fun i => normalize P.lower P.upper (X0.1 i)
  let e := evalW wr P X
  let gbidx ← argmin e.1
  .ok { X := e.2, pbest := X, gbest := e.2 gbidx, pbestfit := e.1, gfit := e.1 gbidx, pfit := e.1,
        All := List.ofFn fun i => (e.2 i, e.1 i), caller := x0,
        evals := List.ofFn fun i => unnormalize P.lower P.upper (X i), rng := X0.2 }

/-- `na` (undecorated) — /repo/stochopy/optimize/na/_na.py:135-262. -/
def naW (wr : Vec K n → Vec K n) (P : Par σ K n) (c : Cfg) (fuel : Nat) (x0 : Option (Pop K p n)) (g : σ) :
    Except PyErr (Output σ K p n) := do
  let s0 ← initW wr P x0 g
  let r ← (algW wr P).run c fuel s0
  .ok { res := r.1, cbs := r.2.cbs, evals := r.2.s.evals, x0After := r.2.s.caller, rng := r.2.s.rng }

end core

/-- `minimize` for an objective that leaves `wr x` in the array it is called with — /repo/stochopy/optimize/na/_na.py:11-131. -/
def minimizeW [IntParts K] (env : Env) (R : Rng σ K) (srt : Argsort K) (fuel : Nat) (a : Args K)
    (wr : Vec K a.ndim → Vec K a.ndim) (g : σ) : Except PyErr (Output σ K a.p a.ndim) := do
  validate a
  match a.fn with
  | none => .error .typeError
  | some fn =>
    optimizer env fn true a.workers a.backend fun obj => do
      a.unpackBounds
      naW wr { R := R, argsort := srt, nr := a.nr, lower := a.lower, upper := a.upper, maxiter := a.maxiter,
               xtol := a.xtol, ftol := a.ftol, obj := obj }
        a.cfg fuel a.x0Pop (a.seeded R g)

end NA

namespace Sampling
variable {n : Nat}

/-- Everything from the allocation of the arrays to the loop — /repo/stochopy/sample/mcmc/_mcmc.py:105-121, hmc/_hmc.py:128-143: the
objective is called with `xall[0]`. -/
def startW (a : Args K) (fn : Vec (Val K) a.ndim → Val K) (wr : Vec (Val K) a.ndim → Vec (Val K) a.ndim) (R : Rng σ K) (g : σ) :
    Except PyErr (State σ K a.ndim) := do
  if a.maxiter < 0 then .error .valueError
  else
    if a.maxiter = 0 then .error .indexError
    else
      let x ← a.first R g
      let f := fn x.1
      let y := wr x.1
      let cb : CB K a.ndim :=
        { xk := y, x := y, fval := f, nit := 1, acceptRatio := 1, xall := attach a.returnAll [y],
          funall := attach a.returnAll [f] }
      .ok { xs := [y], fs := [f], xcur := y, fcur := f, nacc := 0, imin := 0, fmin := .pinf,
            cbs := if a.callback.isSome then [cb] else [], evals := [x.1], rng := x.2 }

end Sampling

namespace MCMC
open Sampling
variable [NumFns K] {n : Nat}

/-- Body of the inner loop — /repo/stochopy/sample/mcmc/_mcmc.py:124-157.  `funall[i] = fun(xall[i], *args)` (line 132) writes into
`xall[i]`, which is kept if the proposal is accepted and overwritten otherwise (line 142). -/
def blockW (wr : Vec (Val K) n → Vec (Val K) n) (P : Par σ K n) (j : Nat) (s : State σ K n) : Except PyErr (State σ K n) :=
  let jmax := min n (j + P.per - 1)
  let m := jmax - j + 1
  let z := drawVec P.R.randn m s.rng
  if min n (jmax + 1) - j ≠ m then .error .valueError
  else
    let x := perturb P.step j jmax (fun k => if h : k < m then z.1 ⟨k, h⟩ else 0) s.xcur
    if truthy (inSearchSpace x P.lower P.upper P.constraints) then
      let f := P.fn x
      let y := wr x
      let u := P.R.rand z.2
      let acc := if metropolis (s.fcur - f) u.1 then some (y, f) else none
      .ok (({ s with evals := s.evals ++ [x], rng := u.2 } : State σ K n).push acc |>.notify P.hasCallback P.returnAll)
    else
      .ok (({ s with rng := z.2 } : State σ K n).push none |>.notify P.hasCallback P.returnAll)

/-- `for j in …` — lines 123-160. -/
def sweepW (wr : Vec (Val K) n → Vec (Val K) n) (P : Par σ K n) : List Nat → State σ K n → Except PyErr (State σ K n)
  | [], s => .ok s
  | j :: js, s => do
    let s' ← blockW wr P j s
    if s'.xs.length = P.maxiter then .ok s' else sweepW wr P js s'

/-- `while i < maxiter` — lines 122-160. -/
def loopW (wr : Vec (Val K) n → Vec (Val K) n) (P : Par σ K n) : Nat → State σ K n → Except PyErr (State σ K n)
  | 0, s => if s.xs.length < P.maxiter then .error .outOfFuel else .ok s
  | fuel + 1, s =>
    if s.xs.length < P.maxiter then do
      let s' ← sweepW wr P (starts n P.per) s
      loopW wr P fuel s'
    else .ok s

/-- Everything after the scaling of the step size — lines 90-171. -/
def restW [IntParts K] (R : Rng σ K) (fuel : Nat) (a : Args K) (fn : Vec (Val K) a.ndim → Val K)
    (wr : Vec (Val K) a.ndim → Vec (Val K) a.ndim) (step : Vec K a.ndim) (g : σ) : Except PyErr (Sampling.Output σ K a.ndim) :=
  if ¬ (0 ≤ a.perc ∧ a.perc ≤ 1) then .error .valueError
  else if a.badCallback then .error .valueError
  else do
    let s ← startW a.toArgs fn wr R (a.seeded R g)
    let s' ← loopW wr { R := R, fn := fn, lower := a.lower, upper := a.upper, step := step, per := perIter a.perc a.ndim,
                        constraints := a.constraints, maxiter := a.maxiter.toNat, hasCallback := a.callback.isSome,
                        returnAll := a.returnAll } fuel s
    .ok (finish a.maxiter a.returnAll s')

/-- `sample` for an objective that leaves `wr x` in the array it is called with — /repo/stochopy/sample/mcmc/_mcmc.py:11-171. -/
def sampleW [IntParts K] (R : Rng σ K) (fuel : Nat) (a : Args K) (wr : Vec (Val K) a.ndim → Vec (Val K) a.ndim) (g : σ) :
    Except PyErr (Sampling.Output σ K a.ndim) × StepArg K :=
  match a.fn, a.checkStart, a.stepsize.scale a.lower a.upper with
  | none, _, _ => (.error .typeError, a.stepsize)
  | _, .error e, _ => (.error e, a.stepsize)
  | _, _, .error e => (.error e, a.stepsize)
  | some fn, .ok (), .ok step => (restW R fuel a fn wr step g, a.stepsize.after a.lower a.upper)

end MCMC

namespace HMC
open Sampling
variable [NumFns K] {n : Nat}

/-- Body of the loop of `numerical_gradient` — /repo/stochopy/sample/hmc/_hmc.py:225-231: `x2` is evaluated first, then `x1`. -/
def gradStepW (fn : Vec (Val K) n → Val K) (wr : Vec (Val K) n → Vec (Val K) n) (h : K)
    (s : Vec (Val K) n × Vec (Val K) n × List (Val K) × List (Vec (Val K) n)) (i : Fin n) :
    Vec (Val K) n × Vec (Val K) n × List (Val K) × List (Vec (Val K) n) :=
  let x1 := Function.update s.1 i (s.1 i - .fin h)
  let x2 := Function.update s.2.1 i (s.2.1 i + .fin h)
  let d := fn x2 - fn x1
  let y1 := wr x1
  let y2 := wr x2
  (Function.update y1 i (y1 i + .fin h), Function.update y2 i (y2 i - .fin h),
   s.2.2.1 ++ [d], s.2.2.2 ++ [x2, x1])

/-- `numerical_gradient` — lines 217-233. -/
def numericalGradientW (fn : Vec (Val K) n → Val K) (wr : Vec (Val K) n → Vec (Val K) n) (h : K) (x : Vec (Val K) n) :
    Vec (Val K) n × List (Vec (Val K) n) :=
  let r := (List.finRange n).foldl (gradStepW fn wr h) (x, x, [], [])
  (fun j => Val.divBy (.fin (1 / 2) * r.2.2.1.getD j .nan) h, r.2.2.2)

/-- The local variable `jac` — lines 114-117. -/
def gradOfW (fn : Vec (Val K) n → Val K) (wr : Vec (Val K) n → Vec (Val K) n)
    (jac : Option (Option (Vec (Val K) n → Vec (Val K) n))) (fdStep : K) (extraArgs : Bool) : Grad K n := fun x =>
  match jac with
  | none => .ok (numericalGradientW fn wr fdStep x)
  | some _ => if extraArgs then .error .typeError else .error .recursionError

/-- Body of the loop — lines 145-187: `U = fun(q, *args)` writes into `q`, which becomes `xall[i]` if it is accepted (line 169);
`U0 = fun(q0, *args)` writes into the copy `q0` of `xall[i - 1]`. -/
def iterW (wr : Vec (Val K) n → Vec (Val K) n) (P : Par σ K n) (s : State σ K n) : Except PyErr (State σ K n) := do
  let z := drawVec P.R.randn n s.rng
  let p0 : Vec (Val K) n := fun j => .fin (z.1 j)
  let r ← leapfrog P.G P.step P.nleap s.xcur p0
  let q := r.1
  let evals := s.evals ++ r.2.2
  if truthy (inSearchSpace q P.lower P.upper P.constraints) then
    let U0 := P.fn s.xcur
    let U := P.fn q
    let y := wr q
    let u := P.R.rand z.2
    let acc := if metropolis (energyDrop U0 U (kinetic p0) (kinetic r.2.1)) u.1 then some (y, U) else none
    .ok (({ s with evals := evals ++ [s.xcur, q], rng := u.2 } : State σ K n).push acc |>.notify P.hasCallback P.returnAll)
  else
    .ok (({ s with evals := evals, rng := z.2 } : State σ K n).push none |>.notify P.hasCallback P.returnAll)

/-- `for i in range(1, maxiter)` — lines 144-187. -/
def loopW (wr : Vec (Val K) n → Vec (Val K) n) (P : Par σ K n) : Nat → State σ K n → Except PyErr (State σ K n)
  | 0, s => .ok s
  | k + 1, s => do
    let s' ← iterW wr P s
    loopW wr P k s'

/-- Everything after the scaling of the step size — lines 110-201. -/
def restW (R : Rng σ K) (a : Args K) (fn : Vec (Val K) a.ndim → Val K) (wr : Vec (Val K) a.ndim → Vec (Val K) a.ndim)
    (step : Vec K a.ndim) (g : σ) : Except PyErr (Sampling.Output σ K a.ndim) :=
  if badJac a.jac then .error .typeError
  else if a.badCallback then .error .valueError
  else do
    let s ← startW a.toArgs fn wr R (a.seeded R g)
    let s' ← loopW wr { R := R, fn := fn, G := gradOfW fn wr a.jac a.fdStep a.extraArgs, lower := a.lower, upper := a.upper,
                        step := step, nleap := a.nleap.toNat, constraints := a.constraints,
                        hasCallback := a.callback.isSome, returnAll := a.returnAll } (a.maxiter.toNat - 1) s
    finish a.maxiter a.returnAll s'

/-- `sample` for an objective that leaves `wr x` in the array it is called with — /repo/stochopy/sample/hmc/_hmc.py:11-201. -/
def sampleW (R : Rng σ K) (a : Args K) (wr : Vec (Val K) a.ndim → Vec (Val K) a.ndim) (g : σ) :
    Except PyErr (Sampling.Output σ K a.ndim) × StepArg K :=
  match a.fn, a.checkStart, decide (a.nleap < 1), a.stepsize.scale a.lower a.upper with
  | none, _, _, _ => (.error .typeError, a.stepsize)
  | _, .error e, _, _ => (.error e, a.stepsize)
  | _, _, true, _ => (.error .valueError, a.stepsize)
  | _, _, _, .error e => (.error e, a.stepsize)
  | some fn, .ok (), false, .ok step => (restW R a fn wr step g, a.stepsize.after a.lower a.upper)

end HMC
end Stochopy
