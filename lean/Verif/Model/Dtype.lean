import Verif.Model.DE
import Verif.Model.CPSO

/-!
# The type of the caller's `x0`: integer arrays and nested lists

`x0` is documented as "array_like" (/repo/stochopy/optimize/de/_de.py:43, cpso/_cpso.py:43, pso/_pso.py:39) and is used
as it is: `X = x0` (de/_de.py:208, cpso/_cpso.py:219), `pbest = X.copy()` (cpso/_cpso.py:221).  The models of `de`, `pso`
and `cpso` assume an array of floats.  Here:

* an **integer array**.  A float assigned to an element of an integer array is cast (NumPy's "unsafe" casting of indexed
  assignment: the fractional part is dropped, as by `int`).  The `…As` functions below are the functions of Model/Common,
  Model/DE and Model/CPSO with `store` applied to whatever is assigned to an element of an array of the type of `x0`;
  `store = id` gives back the original functions (Lemmas/Dtype.lean), `store = asInt` is the integer array.
  Which arrays have the type of `x0`: in `de` the population `X` (`U`, `V` are floats); in `cpso` the personal bests
  `pbest` and, in immediate mode, the swarm `X` (in deferred mode `X` is rebound to a new array of floats by the first
  iteration, line 354).  `gbest` is rebound, never written.
* a **nested list**: passes the checks (`np.ndim`, `np.shape`, `len` accept it) and the evaluation of the initial
  population, and fails in the first iteration.

Trusted: values that do not fit an int64 are not modelled; the objective returns floats (with an objective returning
integers on integer rows the arrays of values would be integer arrays as well).
-/

namespace Stochopy

section
variable {K : Type} [Zero K] [One K] [Add K] [Sub K] [Mul K] [Div K] [Neg K] [NatCast K] [IntCast K] [Pow K ℕ] [ArrayOps K] [LinearOrder K]

/-- A float assigned to an element of an integer array. -/
def asInt [IntParts K] (x : K) : K := ((pyInt x : Int) : K)

/-- `selection_sync` when `x` is an array whose elements store `store v` on assignment of `v`
— /repo/stochopy/optimize/_common.py:122-160. -/
def selectionSyncAs (store : K → K) {p n : Nat} (it : Nat) (cand : Pop K p n) (xbest : Vec K n) (x : Pop K p n)
    (xfun : Fin p → Val K) (maxiter : Int) (xtol : K) (ftol : Val K) (obj : Obj K n) :
    Except PyErr (SelSync K p n) := do
  let candfun := obj.pop cand                                               -- line 126
  let xfun' : Fin p → Val K := fun i => if candfun i < xfun i then candfun i else xfun i   -- lines 127-128
  let x' : Pop K p n := fun i => if candfun i < xfun i then fun j => store (cand i j) else x i   -- line 129
  let idx ← argmin xfun'                                                    -- line 132
  let cond1 := distLe xbest (x' idx) xtol                                   -- line 135
  let cond2 := decide (xfun' idx ≤ ftol)                                    -- line 136
  let status : Option Int :=
    if cond1 && cond2 then some 0                                           -- lines 137-140
    else if xfun' idx ≤ ftol then some 1                                    -- lines 143-146
    else if maxiter ≤ (it : Int) then some (-1)                             -- lines 149-152
    else none                                                               -- lines 155-158
  .ok { xbest := x' idx, xbestfun := xfun' idx, candfun := candfun, status := status, x := x', xfun := xfun' }

/-- `selection_async` for such an `x` — /repo/stochopy/optimize/_common.py:163-194.  Only line 170 assigns to an element
of `x`; `xbest` is a copy of `cand[i]`. -/
def selectionAsyncAs (store : K → K) {p n : Nat} (candi : Vec K n) (xbest : Vec K n) (xbestfun : Val K) (x : Pop K p n)
    (xfun : Fin p → Val K) (xtol : K) (ftol : Val K) (obj : Obj K n) (i : Fin p) : SelAsync K p n :=
  let r := selectionAsync candi xbest xbestfun x xfun xtol ftol obj i
  { r with x := if obj.one candi ≤ xfun i then Function.update x i (fun j => store (candi j)) else x }

end

namespace DE

variable {K σ : Type} [Zero K] [One K] [Add K] [Sub K] [Mul K] [Div K] [Neg K] [NatCast K] [IntCast K] [Pow K ℕ] [ArrayOps K] [LinearOrder K]

section core
variable {p n : Nat}

/-- `de_sync` — /repo/stochopy/optimize/de/_de.py:314-351. -/
def stepSyncAs (store : K → K) (P : Par σ K p n) (it : Nat) (s : State σ K p n) :
    Except PyErr (State σ K p n × Option Int) := do
  let U ← candSync P s.X s.gbest s.rng
  let r ← selectionSyncAs store it U.1 s.gbest s.X s.pbestfit P.maxiter P.xtol P.ftol P.obj   -- lines 347-349
  .ok ({ X := r.x, gbest := r.xbest, pbestfit := r.xfun, gfit := r.xbestfun, pfit := r.candfun,
         caller := s.caller.map fun _ => r.x, evals := s.evals ++ List.ofFn U.1, rng := U.2 }, r.status)

/-- Body of the loop over individuals in `de_async` — /repo/stochopy/optimize/de/_de.py:375-388. -/
def rowAsyncAs (store : K → K) (P : Par σ K p n) (r1 : Fin p → Vec K n) (acc : State σ K p n × Option Int) (i : Fin p) :
    Except PyErr (State σ K p n × Option Int) := do
  let s := acc.1
  let U ← candAsync P (r1 i) i s.X s.gbest s.rng
  let r := selectionAsyncAs store U.1 s.gbest s.gfit s.X s.pbestfit P.xtol P.ftol P.obj i   -- lines 386-388
  .ok ({ X := r.x, gbest := r.xbest, pbestfit := r.xfun, gfit := r.xbestfun,
         pfit := Function.update s.pfit i r.candfun,
         caller := s.caller.map fun _ => r.x, evals := s.evals ++ [U.1], rng := U.2 }, r.status)

/-- `de_async` — /repo/stochopy/optimize/de/_de.py:354-394. -/
def stepAsyncAs (store : K → K) (P : Par σ K p n) (it : Nat) (s : State σ K p n) :
    Except PyErr (State σ K p n × Option Int) := do
  let dr := drawMat P.R.rand p n s.rng
  let r ← (List.finRange p).foldlM (rowAsyncAs store P dr.1) ({ s with rng := dr.2 }, none)
  let status := if r.2.isNone && decide (P.maxiter ≤ (it : Int)) then some (-1) else r.2   -- lines 391-392
  .ok (r.1, status)

/-- The optimizer-specific part of the frame, for a population whose elements store `store v`. -/
def algAs (store : K → K) (P : Par σ K p n) (sync : Bool) : Alg (State σ K p n) K p n :=
  { alg P sync with step := if sync then stepSyncAs store P else stepAsyncAs store P }

/-- The optimizer-specific part of the frame, for a nested list: `popsize, ndim = X.shape` raises AttributeError
— /repo/stochopy/optimize/de/_de.py:333 and 373. -/
def algList (P : Par σ K p n) (sync : Bool) : Alg (State σ K p n) K p n :=
  { alg P sync with step := fun _ _ => .error .attributeError }

/-- `de` (undecorated) with one of these frames — /repo/stochopy/optimize/de/_de.py:177-301. -/
def deWith (A : Alg (State σ K p n) K p n) (P : Par σ K p n) (c : Cfg) (fuel : Nat) (x0 : Option (Pop K p n)) (g : σ) :
    Except PyErr (Output σ K p n) := do
  let s0 ← init P x0 g
  let r ← A.run c fuel s0
  .ok { res := r.1, cbs := r.2.cbs, evals := r.2.s.evals, x0After := r.2.s.caller, rng := r.2.s.rng }

end core

/-- `minimize` with a frame chosen by the type of `x0` — /repo/stochopy/optimize/de/_de.py:13-173. -/
def minimizeWith [IntParts K] (env : Env) (R : Rng σ K) (fuel : Nat) (a : Args K) (g : σ)
    (A : Par σ K a.p a.ndim → Alg (State σ K a.p a.ndim) K a.p a.ndim) :
    Except PyErr (Output σ K a.p a.ndim) := do
  let strat ← validate a
  match a.fn with
  | none => .error .typeError
  | some fn =>
    optimizer env fn a.sync a.workers a.backend fun obj => do
      a.unpackBounds                                                       -- line 199
      let cons ← consMap a.constraints                                     -- line 202
      let P : Par σ K a.p a.ndim :=
        { R := R, F := a.mutation, CR := a.recombination, strat := strat, cons := cons, lower := a.lower,
          upper := a.upper, maxiter := a.maxiter, xtol := a.xtol, ftol := a.ftol, obj := obj }
      deWith (A P) P a.cfg fuel a.x0Pop (a.seeded R g)

/-- `minimize` with `x0` an array whose elements store `store v`. -/
def minimizeAs [IntParts K] (store : K → K) (env : Env) (R : Rng σ K) (fuel : Nat) (a : Args K) (g : σ) :
    Except PyErr (Output σ K a.p a.ndim) :=
  minimizeWith env R fuel a g fun P => algAs store P a.sync

/-- `minimize` with `x0` an integer array. -/
def minimizeInt [IntParts K] (env : Env) (R : Rng σ K) (fuel : Nat) (a : Args K) (g : σ) :
    Except PyErr (Output σ K a.p a.ndim) :=
  minimizeAs asInt env R fuel a g

/-- `minimize` with `x0` a nested list. -/
def minimizeList [IntParts K] (env : Env) (R : Rng σ K) (fuel : Nat) (a : Args K) (g : σ) :
    Except PyErr (Output σ K a.p a.ndim) :=
  minimizeWith env R fuel a g fun P => algList P a.sync

end DE

namespace CPSO

variable {K σ : Type} [Zero K] [One K] [Add K] [Sub K] [Mul K] [Div K] [Neg K] [NatCast K] [IntCast K] [Pow K ℕ] [ArrayOps K] [LinearOrder K]

section core
variable {p n : Nat}

/-- `pso_sync` — /repo/stochopy/optimize/cpso/_cpso.py:332-361: `X` is rebound to floats, `pbest` has the type of `x0`. -/
def stepSyncAs (store : K → K) (P : Par σ K n) (it : Nat) (s : State σ K p n) :
    Except PyErr (State σ K p n × Option Int) := do
  let d1 := drawMat P.R.rand p n s.rng
  let d2 := drawMat P.R.rand p n d1.2
  let m : Fin p → Vec K n × Vec K n := fun i =>
    mutation P (s.X i) (s.V i) (s.pbest i) s.gbest (d1.1 i) (d2.1 i)
  let X : Pop K p n := fun i => (m i).1
  let V : Pop K p n := fun i => (m i).2
  let r ← selectionSyncAs store it X s.gbest s.pbest s.pbestfit P.maxiter P.xtol P.ftol P.obj
  .ok ({ X := X, V := V, pbest := r.x, gbest := r.xbest, pbestfit := r.xfun, gfit := r.xbestfun,
         pfit := r.candfun, caller := s.caller, aliased := false, evals := s.evals ++ List.ofFn X, rng := d2.2 },
       r.status)

/-- Body of the loop in `pso_async` — /repo/stochopy/optimize/cpso/_cpso.py:387-396.  `X[i] = …` stores the position
(line 389), and the stored position is evaluated. -/
def rowAsyncAs (store : K → K) (P : Par σ K n) (r1 r2 : Pop K p n) (acc : State σ K p n × Option Int) (i : Fin p) :
    State σ K p n × Option Int :=
  let s := acc.1
  let m := mutation P (s.X i) (s.V i) (s.pbest i) s.gbest (r1 i) (r2 i)
  let x : Vec K n := fun j => store (m.1 j)
  let X := Function.update s.X i x
  let r := selectionAsyncAs store x s.gbest s.gfit s.pbest s.pbestfit P.xtol P.ftol P.obj i
  ({ X := X, V := Function.update s.V i m.2, pbest := r.x, gbest := r.xbest, pbestfit := r.xfun,
     gfit := r.xbestfun, pfit := Function.update s.pfit i r.candfun,
     caller := writeThrough s.aliased s.caller X, aliased := s.aliased, evals := s.evals ++ [x], rng := s.rng },
   r.status)

/-- `pso_async` — /repo/stochopy/optimize/cpso/_cpso.py:364-402. -/
def stepAsyncAs (store : K → K) (P : Par σ K n) (it : Nat) (s : State σ K p n) :
    Except PyErr (State σ K p n × Option Int) :=
  let d1 := drawMat P.R.rand p n s.rng
  let d2 := drawMat P.R.rand p n d1.2
  let r := (List.finRange p).foldl (rowAsyncAs store P d1.1 d2.1) ({ s with rng := d2.2 }, none)
  .ok (r.1, if r.2.isNone && decide (P.maxiter ≤ (it : Int)) then some (-1) else r.2)   -- lines 399-400

variable [IntParts K] [NumFns K]

/-- Re-initialisation of the `nw` worst particles — /repo/stochopy/optimize/cpso/_cpso.py:419-424; `storeX` and `storeP`
are what the elements of `X` and of `pbest` store (lines 422 and 423). -/
def resetWorstAs (storeX storeP : K → K) (P : Par σ K n) (nw : Nat) (s : State σ K p n) : State σ K p n :=
  let pos := restartPos P.argsort s.pbestfit nw
  let d := drawMat P.R.rand nw n s.rng
  let X : Pop K p n := fun q =>
    match pos q with
    | some t => fun j => storeX (unif (P.lower j) (P.upper j) (d.1 t j))
    | none => s.X q
  { s with
    V := fun q => match pos q with
      | some _ => fun _ => 0
      | none => s.V q
    X := X
    pbest := fun q => match pos q with
      | some _ => fun j => storeP (X q j)
      | none => s.pbest q
    pbestfit := fun q => match pos q with
      | some _ => resetFit
      | none => s.pbestfit q
    caller := writeThrough s.aliased s.caller X
    rng := d.2 }

/-- `restart` — /repo/stochopy/optimize/cpso/_cpso.py:405-426. -/
def restartAs (storeX storeP : K → K) (P : Par σ K n) (gamma : K) (it : Nat) (s : State σ K p n) : State σ K p n :=
  if swarmSmall s.X s.gbest (delta p P.maxiter) then
    if 0 < numRestart p it P.maxiter gamma then
      resetWorstAs storeX storeP P (numRestart p it P.maxiter gamma).toNat s
    else s
  else s

/-- `if not converged and gamma:` — /repo/stochopy/optimize/cpso/_cpso.py:304-307. -/
def postAs (storeX storeP : K → K) (P : Par σ K n) (it : Nat) (s : State σ K p n) : State σ K p n :=
  match P.gamma with
  | none => s
  | some gamma => if gamma = 0 then s else restartAs storeX storeP P gamma it s

/-- The optimizer-specific part of the frame, for an `x0` whose elements store `store v`.  When a deferred run restarts
particles, `X` is an array of floats. -/
def algAs (store : K → K) (P : Par σ K n) (sync : Bool) : Alg (State σ K p n) K p n :=
  { alg P sync with
    step := if sync then stepSyncAs store P else stepAsyncAs store P
    post := postAs (if sync then id else store) store P }

/-- The optimizer-specific part of the frame, for a nested list: `pbest - X` and `pbest[i] - X[i]` are differences of
lists, TypeError — /repo/stochopy/optimize/cpso/_cpso.py:326, called from lines 354 and 389. -/
def algList (P : Par σ K n) (sync : Bool) : Alg (State σ K p n) K p n :=
  { alg P sync with step := fun _ _ => .error .typeError }

/-- `cpso` (undecorated) with one of these frames — /repo/stochopy/optimize/cpso/_cpso.py:183-321. -/
def cpsoWith (A : Alg (State σ K p n) K p n) (P : Par σ K n) (c : Cfg) (fuel : Nat) (x0 : Option (Pop K p n)) (g : σ) :
    Except PyErr (Output σ K p n) := do
  let s0 ← init P x0 g
  let r ← A.run c fuel s0
  .ok { res := r.1, cbs := r.2.cbs, evals := r.2.s.evals, x0After := r.2.s.caller, rng := r.2.s.rng }

end core

variable [IntParts K] [NumFns K]

/-- `minimize` with a frame chosen by the type of `x0` — /repo/stochopy/optimize/cpso/_cpso.py:12-179. -/
def minimizeWith (env : Env) (R : Rng σ K) (srt : Argsort K) (fuel : Nat) (a : Args K) (g : σ)
    (A : Par σ K a.ndim → Alg (State σ K a.p a.ndim) K a.p a.ndim) :
    Except PyErr (Output σ K a.p a.ndim) := do
  validate a
  match a.fn with
  | none => .error .typeError
  | some fn =>
    optimizer env fn a.sync a.workers a.backend fun obj => do
      a.unpackBounds                                                       -- line 206
      let cons ← consMap a.constraints                                     -- line 209
      let P : Par σ K a.ndim :=
        { R := R, argsort := srt, w := a.inertia, c1 := a.cognitivity, c2 := a.sociability,
          gamma := a.competitivity, cons := cons, lower := a.lower, upper := a.upper, maxiter := a.maxiter,
          xtol := a.xtol, ftol := a.ftol, obj := obj }
      cpsoWith (A P) P a.cfg fuel a.x0Pop (a.seeded R g)

/-- `minimize` with `x0` an array whose elements store `store v`. -/
def minimizeAs (store : K → K) (env : Env) (R : Rng σ K) (srt : Argsort K) (fuel : Nat) (a : Args K) (g : σ) :
    Except PyErr (Output σ K a.p a.ndim) :=
  minimizeWith env R srt fuel a g fun P => algAs store P a.sync

/-- `minimize` with `x0` an integer array. -/
def minimizeInt (env : Env) (R : Rng σ K) (srt : Argsort K) (fuel : Nat) (a : Args K) (g : σ) :
    Except PyErr (Output σ K a.p a.ndim) :=
  minimizeAs asInt env R srt fuel a g

/-- `minimize` with `x0` a nested list. -/
def minimizeList (env : Env) (R : Rng σ K) (srt : Argsort K) (fuel : Nat) (a : Args K) (g : σ) :
    Except PyErr (Output σ K a.p a.ndim) :=
  minimizeWith env R srt fuel a g fun P => algList P a.sync

end CPSO

namespace PSO

variable {K σ : Type} [Zero K] [One K] [Add K] [Sub K] [Mul K] [Div K] [Neg K] [NatCast K] [IntCast K] [Pow K ℕ] [ArrayOps K] [LinearOrder K]
variable [IntParts K] [NumFns K]

/-- `minimize` with `x0` an integer array — /repo/stochopy/optimize/pso/_pso.py:9-122. -/
def minimizeInt (env : Env) (R : Rng σ K) (srt : Argsort K) (fuel : Nat) (a : Args K) (g : σ) :
    Except PyErr (Output σ K a.p a.ndim) :=
  CPSO.minimizeInt env R srt fuel a.toCPSO g

/-- `minimize` with `x0` a nested list — /repo/stochopy/optimize/pso/_pso.py:9-122. -/
def minimizeList (env : Env) (R : Rng σ K) (srt : Argsort K) (fuel : Nat) (a : Args K) (g : σ) :
    Except PyErr (Output σ K a.p a.ndim) :=
  CPSO.minimizeList env R srt fuel a.toCPSO g

end PSO

end Stochopy
