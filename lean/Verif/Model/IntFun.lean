import Verif.Model.DE
import Verif.Model.CPSO
import Verif.Model.NA
import Verif.Model.CMAES
import Verif.Model.VDCMA

/-!
# Objectives that return integers

The values of a population are collected by `np.array([fun(x) ...])` (/repo/stochopy/optimize/_common.py:43, 80, 86): if the
objective returns Python integers for **all** members of a population, the result is an array of integers, otherwise an array of
floats.  (With MPI the values are written into an array of floats, lines 60-61.)

* `de`, `pso`, `cpso`, `na`: `pbestfit = pfit.copy()` (de/_de.py:213, cpso/_cpso.py:225, na/_na.py:175) keeps the type of the values of
  the initial population for the whole run, and the selection writes into it (_common.py:128 and 171): a float written into an array of
  integers loses its fractional part.  In immediate mode the same holds for `pfit[i] = …` (de/_de.py:386, cpso/_cpso.py:394), and
  in `cpso` for the `1.0e30` that a restart writes into `pbestfit` (cpso/_cpso.py:424).
* `cmaes`, `vdcma`: `arfitness += …` in `Penalize` (cmaes/_constraints.py:80) adds floats in place, which NumPy refuses for an array of
  integers (UFuncTypeError, a TypeError).

Everything else in the model assumes that values are floats; `isInt x` says here whether the objective returns an integer at `x`.
Not modelled: values that do not fit an int64, and writing infinities and NaNs into an array of integers (the theorems that use
this part assume finite values).  The integer that NumPy makes of `1.0e30` depends on the processor and is the parameter
`big` (`-2^63` on x86-64).
-/

namespace Stochopy

section
variable {K : Type} [Zero K] [One K] [Add K] [Sub K] [Mul K] [Div K] [Neg K] [NatCast K] [IntCast K] [Pow K ℕ] [ArrayOps K] [LinearOrder K]

/-- A float written into an array of integers. -/
def Val.asInt [IntParts K] : Val K → Val K
  | .fin k => .fin ((pyInt k : Int) : K)
  | v => v

/-- What an array of values stores: does it hold integers? -/
def storeVal [IntParts K] (ints : Bool) : Val K → Val K := if ints then Val.asInt else id

/-- Is the array of the values of `X` an array of integers? — /repo/stochopy/optimize/_common.py:43, 60-72, 80, 86. -/
def intValues {p n : Nat} (backend : Option String) (isInt : Vec K n → Bool) (X : Pop K p n) : Bool :=
  !(backend == some "mpi") && decide (∀ i, isInt (X i) = true)

/-- `selection_sync` when `xfun` stores `store v` on assignment of `v` — /repo/stochopy/optimize/_common.py:122-160. -/
def selectionSyncVal (store : Val K → Val K) {p n : Nat} (it : Nat) (cand : Pop K p n) (xbest : Vec K n) (x : Pop K p n)
    (xfun : Fin p → Val K) (maxiter : Int) (xtol : K) (ftol : Val K) (obj : Obj K n) :
    Except PyErr (SelSync K p n) := do
  let candfun := obj.pop cand                                               -- line 126
  let xfun' : Fin p → Val K := fun i => if candfun i < xfun i then store (candfun i) else xfun i   -- lines 127-128
  let x' : Pop K p n := fun i => if candfun i < xfun i then cand i else x i                        -- line 129
  let idx ← argmin xfun'                                                    -- line 132
  let cond1 := distLe xbest (x' idx) xtol                                   -- line 135
  let cond2 := decide (xfun' idx ≤ ftol)                                    -- line 136
  let status : Option Int :=
    if cond1 && cond2 then some 0                                           -- lines 137-140
    else if xfun' idx ≤ ftol then some 1                                    -- lines 143-146
    else if maxiter ≤ (it : Int) then some (-1)                             -- lines 149-152
    else none                                                               -- lines 155-158
  .ok { xbest := x' idx, xbestfun := xfun' idx, candfun := candfun, status := status, x := x', xfun := xfun' }

/-- `selection_async` for such an `xfun` — /repo/stochopy/optimize/_common.py:163-194.  Only line 171 writes into `xfun`. -/
def selectionAsyncVal (store : Val K → Val K) {p n : Nat} (candi : Vec K n) (xbest : Vec K n) (xbestfun : Val K) (x : Pop K p n)
    (xfun : Fin p → Val K) (xtol : K) (ftol : Val K) (obj : Obj K n) (i : Fin p) : SelAsync K p n :=
  let r := selectionAsync candi xbest xbestfun x xfun xtol ftol obj i
  { r with xfun := if obj.one candi ≤ xfun i then Function.update xfun i (store (obj.one candi)) else xfun }

end

namespace DE

variable {K σ : Type} [Zero K] [One K] [Add K] [Sub K] [Mul K] [Div K] [Neg K] [NatCast K] [IntCast K] [Pow K ℕ] [ArrayOps K] [LinearOrder K]

section core
variable {p n : Nat}

/-- `de_sync` — /repo/stochopy/optimize/de/_de.py:314-351. -/
def stepSyncVal (store : Val K → Val K) (P : Par σ K p n) (it : Nat) (s : State σ K p n) :
    Except PyErr (State σ K p n × Option Int) := do
  let U ← candSync P s.X s.gbest s.rng
  let r ← selectionSyncVal store it U.1 s.gbest s.X s.pbestfit P.maxiter P.xtol P.ftol P.obj   -- lines 347-349
  .ok ({ X := r.x, gbest := r.xbest, pbestfit := r.xfun, gfit := r.xbestfun, pfit := r.candfun,
         caller := s.caller.map fun _ => r.x, evals := s.evals ++ List.ofFn U.1, rng := U.2 }, r.status)

/-- Body of the loop over individuals in `de_async` — /repo/stochopy/optimize/de/_de.py:375-388. -/
def rowAsyncVal (store : Val K → Val K) (P : Par σ K p n) (r1 : Fin p → Vec K n) (acc : State σ K p n × Option Int) (i : Fin p) :
    Except PyErr (State σ K p n × Option Int) := do
  let s := acc.1
  let U ← candAsync P (r1 i) i s.X s.gbest s.rng
  let r := selectionAsyncVal store U.1 s.gbest s.gfit s.X s.pbestfit P.xtol P.ftol P.obj i   -- lines 386-388
  .ok ({ X := r.x, gbest := r.xbest, pbestfit := r.xfun, gfit := r.xbestfun,
         pfit := Function.update s.pfit i (store r.candfun),
         caller := s.caller.map fun _ => r.x, evals := s.evals ++ [U.1], rng := U.2 }, r.status)

/-- `de_async` — /repo/stochopy/optimize/de/_de.py:354-394. -/
def stepAsyncVal (store : Val K → Val K) (P : Par σ K p n) (it : Nat) (s : State σ K p n) :
    Except PyErr (State σ K p n × Option Int) := do
  let dr := drawMat P.R.rand p n s.rng
  let r ← (List.finRange p).foldlM (rowAsyncVal store P dr.1) ({ s with rng := dr.2 }, none)
  let status := if r.2.isNone && decide (P.maxiter ≤ (it : Int)) then some (-1) else r.2   -- lines 391-392
  .ok (r.1, status)

def algVal (store : Val K → Val K) (P : Par σ K p n) (sync : Bool) : Alg (State σ K p n) K p n :=
  { alg P sync with step := if sync then stepSyncVal store P else stepAsyncVal store P }

/-- `de` (undecorated) — /repo/stochopy/optimize/de/_de.py:177-301; the type of the values is that of the initial population. -/
def deVal [IntParts K] (P : Par σ K p n) (sync : Bool) (ints : Pop K p n → Bool) (c : Cfg) (fuel : Nat) (x0 : Option (Pop K p n)) (g : σ) :
    Except PyErr (Output σ K p n) := do
  let s0 ← init P x0 g
  let r ← (algVal (storeVal (ints s0.X)) P sync).run c fuel s0
  .ok { res := r.1, cbs := r.2.cbs, evals := r.2.s.evals, x0After := r.2.s.caller, rng := r.2.s.rng }

end core

/-- `minimize` for an objective that returns integers where `isInt` says so — /repo/stochopy/optimize/de/_de.py:13-173. -/
def minimizeVal [IntParts K] (env : Env) (R : Rng σ K) (fuel : Nat) (a : Args K) (isInt : Vec K a.ndim → Bool) (g : σ) :
    Except PyErr (Output σ K a.p a.ndim) := do
  let strat ← validate a
  match a.fn with
  | none => .error .typeError
  | some fn =>
    optimizer env fn a.sync a.workers a.backend fun obj => do
      a.unpackBounds                                                       -- line 199
      let cons ← consMap a.constraints                                     -- line 202
      deVal { R := R, F := a.mutation, CR := a.recombination, strat := strat, cons := cons, lower := a.lower,
              upper := a.upper, maxiter := a.maxiter, xtol := a.xtol, ftol := a.ftol, obj := obj }
        a.sync (intValues a.backend isInt) a.cfg fuel a.x0Pop (a.seeded R g)

end DE

namespace CPSO

variable {K σ : Type} [Zero K] [One K] [Add K] [Sub K] [Mul K] [Div K] [Neg K] [NatCast K] [IntCast K] [Pow K ℕ] [ArrayOps K] [LinearOrder K]

section core
variable {p n : Nat}

/-- `pso_sync` — /repo/stochopy/optimize/cpso/_cpso.py:332-361. -/
def stepSyncVal (store : Val K → Val K) (P : Par σ K n) (it : Nat) (s : State σ K p n) :
    Except PyErr (State σ K p n × Option Int) := do
  let d1 := drawMat P.R.rand p n s.rng
  let d2 := drawMat P.R.rand p n d1.2
  let m : Fin p → Vec K n × Vec K n := fun i =>
    mutation P (s.X i) (s.V i) (s.pbest i) s.gbest (d1.1 i) (d2.1 i)
  let X : Pop K p n := fun i => (m i).1
  let V : Pop K p n := fun i => (m i).2
  let r ← selectionSyncVal store it X s.gbest s.pbest s.pbestfit P.maxiter P.xtol P.ftol P.obj
  .ok ({ X := X, V := V, pbest := r.x, gbest := r.xbest, pbestfit := r.xfun, gfit := r.xbestfun,
         pfit := r.candfun, caller := s.caller, aliased := false, evals := s.evals ++ List.ofFn X, rng := d2.2 },
       r.status)

/-- Body of the loop in `pso_async` — /repo/stochopy/optimize/cpso/_cpso.py:387-396. -/
def rowAsyncVal (store : Val K → Val K) (P : Par σ K n) (r1 r2 : Pop K p n) (acc : State σ K p n × Option Int) (i : Fin p) :
    State σ K p n × Option Int :=
  let s := acc.1
  let m := mutation P (s.X i) (s.V i) (s.pbest i) s.gbest (r1 i) (r2 i)
  let X := Function.update s.X i m.1
  let r := selectionAsyncVal store m.1 s.gbest s.gfit s.pbest s.pbestfit P.xtol P.ftol P.obj i
  ({ X := X, V := Function.update s.V i m.2, pbest := r.x, gbest := r.xbest, pbestfit := r.xfun,
     gfit := r.xbestfun, pfit := Function.update s.pfit i (store r.candfun),
     caller := writeThrough s.aliased s.caller X, aliased := s.aliased, evals := s.evals ++ [m.1], rng := s.rng },
   r.status)

/-- `pso_async` — /repo/stochopy/optimize/cpso/_cpso.py:364-402. -/
def stepAsyncVal (store : Val K → Val K) (P : Par σ K n) (it : Nat) (s : State σ K p n) :
    Except PyErr (State σ K p n × Option Int) :=
  let d1 := drawMat P.R.rand p n s.rng
  let d2 := drawMat P.R.rand p n d1.2
  let r := (List.finRange p).foldl (rowAsyncVal store P d1.1 d2.1) ({ s with rng := d2.2 }, none)
  .ok (r.1, if r.2.isNone && decide (P.maxiter ≤ (it : Int)) then some (-1) else r.2)   -- lines 399-400

variable [IntParts K] [NumFns K]

/-- Re-initialisation of the `nw` worst particles — /repo/stochopy/optimize/cpso/_cpso.py:419-424; `reset` is what `pbestfit` stores of
`1.0e30` (line 424). -/
def resetWorstVal (reset : Val K) (P : Par σ K n) (nw : Nat) (s : State σ K p n) : State σ K p n :=
  { resetWorst P nw s with
    pbestfit := fun q => match restartPos P.argsort s.pbestfit nw q with
      | some _ => reset
      | none => s.pbestfit q }

/-- `restart` — /repo/stochopy/optimize/cpso/_cpso.py:405-426. -/
def restartVal (reset : Val K) (P : Par σ K n) (gamma : K) (it : Nat) (s : State σ K p n) : State σ K p n :=
  if swarmSmall s.X s.gbest (delta p P.maxiter) then
    if 0 < numRestart p it P.maxiter gamma then resetWorstVal reset P (numRestart p it P.maxiter gamma).toNat s else s
  else s

/-- `if not converged and gamma:` — /repo/stochopy/optimize/cpso/_cpso.py:304-307. -/
def postVal (reset : Val K) (P : Par σ K n) (it : Nat) (s : State σ K p n) : State σ K p n :=
  match P.gamma with
  | none => s
  | some gamma => if gamma = 0 then s else restartVal reset P gamma it s

def algVal (store : Val K → Val K) (reset : Val K) (P : Par σ K n) (sync : Bool) : Alg (State σ K p n) K p n :=
  { alg P sync with
    step := if sync then stepSyncVal store P else stepAsyncVal store P
    post := postVal reset P }

/-- `cpso` (undecorated) — /repo/stochopy/optimize/cpso/_cpso.py:183-321. -/
def cpsoVal (P : Par σ K n) (sync : Bool) (ints : Pop K p n → Bool) (big : Int) (c : Cfg) (fuel : Nat) (x0 : Option (Pop K p n)) (g : σ) :
    Except PyErr (Output σ K p n) := do
  let s0 ← init P x0 g
  let r ← (algVal (storeVal (ints s0.X)) (if ints s0.X then .fin (big : K) else resetFit) P sync).run c fuel s0
  .ok { res := r.1, cbs := r.2.cbs, evals := r.2.s.evals, x0After := r.2.s.caller, rng := r.2.s.rng }

end core

variable [IntParts K] [NumFns K]

/-- `minimize` for an objective that returns integers where `isInt` says so — /repo/stochopy/optimize/cpso/_cpso.py:12-179. -/
def minimizeVal (env : Env) (R : Rng σ K) (srt : Argsort K) (fuel : Nat) (big : Int) (a : Args K) (isInt : Vec K a.ndim → Bool) (g : σ) :
    Except PyErr (Output σ K a.p a.ndim) := do
  validate a
  match a.fn with
  | none => .error .typeError
  | some fn =>
    optimizer env fn a.sync a.workers a.backend fun obj => do
      a.unpackBounds                                                       -- line 206
      let cons ← consMap a.constraints                                     -- line 209
      cpsoVal { R := R, argsort := srt, w := a.inertia, c1 := a.cognitivity, c2 := a.sociability,
                gamma := a.competitivity, cons := cons, lower := a.lower, upper := a.upper, maxiter := a.maxiter,
                xtol := a.xtol, ftol := a.ftol, obj := obj }
        a.sync (intValues a.backend isInt) big a.cfg fuel a.x0Pop (a.seeded R g)

end CPSO

namespace PSO

variable {K σ : Type} [Zero K] [One K] [Add K] [Sub K] [Mul K] [Div K] [Neg K] [NatCast K] [IntCast K] [Pow K ℕ] [ArrayOps K] [LinearOrder K]

/-- `minimize` for an objective that returns integers where `isInt` says so — /repo/stochopy/optimize/pso/_pso.py:9-122 (no restarts, so
that `big` does not matter). -/
def minimizeVal [IntParts K] [NumFns K] (env : Env) (R : Rng σ K) (srt : Argsort K) (fuel : Nat) (a : Args K)
    (isInt : Vec K a.ndim → Bool) (g : σ) : Except PyErr (Output σ K a.p a.ndim) :=
  CPSO.minimizeVal env R srt fuel 0 a.toCPSO isInt g

end PSO

namespace NA

variable {K σ : Type} [Zero K] [One K] [Add K] [Sub K] [Mul K] [Div K] [Neg K] [NatCast K] [IntCast K] [Pow K ℕ] [ArrayOps K] [LinearOrder K]

section core
variable {p n : Nat}

/-- Loop body — /repo/stochopy/optimize/na/_na.py:216-224.  `Xallfit` is a new array in every iteration and keeps all values. -/
def stepVal (store : Val K → Val K) (P : Par σ K n) (it : Nat) (s : State σ K p n) : Except PyErr (State σ K p n × Option Int) := do
  let X ← mutation P.R P.argsort (spanMask P.lower P.upper) s.All p P.nr s.rng        -- line 217
  let r ← selectionSyncVal store it X.1 s.gbest s.pbest s.pbestfit P.maxiter P.xtol P.ftol P.objN   -- lines 220-222
  .ok ({ X := X.1, pbest := r.x, gbest := r.xbest, pbestfit := r.xfun, gfit := r.xbestfun, pfit := r.candfun,
         All := List.ofFn (fun i => (X.1 i, r.candfun i)) ++ s.All                     -- lines 223-224
         caller := s.caller,
         evals := s.evals ++ List.ofFn (fun i => unnormalize P.lower P.upper (X.1 i)), rng := X.2 }, r.status)

def algVal (store : Val K → Val K) (P : Par σ K n) : Alg (State σ K p n) K p n := { alg P with step := stepVal store P }

/-- `na` (undecorated) — /repo/stochopy/optimize/na/_na.py:135-262. -/
def naVal [IntParts K] (P : Par σ K n) (ints : Pop K p n → Bool) (c : Cfg) (fuel : Nat) (x0 : Option (Pop K p n)) (g : σ) :
    Except PyErr (Output σ K p n) := do
  let s0 ← init P x0 g
  let r ← (algVal (storeVal (ints fun i => unnormalize P.lower P.upper (s0.X i))) P).run c fuel s0
  .ok { res := r.1, cbs := r.2.cbs, evals := r.2.s.evals, x0After := r.2.s.caller, rng := r.2.s.rng }

end core

/-- `minimize` for an objective that returns integers where `isInt` says so — /repo/stochopy/optimize/na/_na.py:11-131. -/
def minimizeVal [IntParts K] (env : Env) (R : Rng σ K) (srt : Argsort K) (fuel : Nat) (a : Args K) (isInt : Vec K a.ndim → Bool) (g : σ) :
    Except PyErr (Output σ K a.p a.ndim) := do
  validate a
  match a.fn with
  | none => .error .typeError
  | some fn =>
    optimizer env fn true a.workers a.backend fun obj => do
      a.unpackBounds                                                        -- line 154
      naVal { R := R, argsort := srt, nr := a.nr, lower := a.lower, upper := a.upper, maxiter := a.maxiter,
              xtol := a.xtol, ftol := a.ftol, obj := obj }
        (intValues a.backend isInt) a.cfg fuel a.x0Pop (a.seeded R g)

end NA

namespace Evo

variable {K σ S : Type} [Zero K] [One K] [Add K] [Sub K] [Mul K] [Div K] [Neg K] [NatCast K] [IntCast K] [Pow K ℕ] [ArrayOps K] [LinearOrder K]

/-- `Penalize` raises TypeError on an array of integers — /repo/stochopy/optimize/cmaes/_constraints.py:80.  The model raises already when
the population to be evaluated (clipped, in the coordinates of the user) has been drawn; nothing observable lies in between but other
exceptions. -/
def Gauss.checked {p n : Nat} (G : Gauss S K p n) (P : Par K n) (ints : Pop K p n → Bool) : Gauss S K p n :=
  { G with
    sample := fun s => do
      let a ← G.sample s
      if P.penalized && ints (fun i => unstandardize P.lower P.upper (clip (a.1 i))) then .error .typeError else .ok a }

end Evo

namespace CMAES
open Evo

variable {K σ : Type} [Zero K] [One K] [Add K] [Sub K] [Mul K] [Div K] [Neg K] [NatCast K] [IntCast K] [Pow K ℕ] [ArrayOps K] [LinearOrder K] [NumFns K]

/-- `minimize` for an objective that returns integers where `isInt` says so — /repo/stochopy/optimize/cmaes/_cmaes.py:12-357. -/
def minimizeVal [IntParts K] (env : Env) (R : Rng σ K) (srt : Argsort K) (eigh : Eigh K) (fuel : Nat) (a : Args K)
    (isInt : Vec K a.ndim → Bool) (junk : Vec K a.ndim) (g : σ) : Except PyErr (Output σ K a.p a.ndim) := do
  a.validate
  match a.fn with
  | none => .error .typeError
  | some fn =>
    optimizer env fn true a.workers a.backend fun obj => do
      a.unpackBounds                                                       -- line 165
      let pen ← consMap a.constraints
      let m ← a.firstMean R (a.seeded R g)
      if h : 0 < a.ndim ∧ 0 < a.p ∧ 0 < a.mu ∧ a.mu ≤ a.p then
        let P : Par σ K a.p a.ndim := { R := R, srt := srt, eigh := eigh, mu := a.mu, hmu := h.2.2.2 }
        run (a.par srt obj pen) ((gauss P).checked (a.par srt obj pen) (intValues a.backend isInt)) a.cfg State.rng fuel
          (start m.1 junk a.sigma m.2)
      else .error .unmodelled

end CMAES

namespace VDCMA
open Evo

variable {K σ : Type} [Zero K] [One K] [Add K] [Sub K] [Mul K] [Div K] [Neg K] [NatCast K] [IntCast K] [Pow K ℕ] [ArrayOps K] [LinearOrder K] [NumFns K]

/-- `minimize` for an objective that returns integers where `isInt` says so — /repo/stochopy/optimize/vdcma/_vdcma.py:13-423. -/
def minimizeVal [IntParts K] (env : Env) (R : Rng σ K) (srt : Argsort K) (fuel : Nat) (a : Args K)
    (isInt : Vec K a.ndim → Bool) (junk : Vec K a.ndim) (g : σ) : Except PyErr (Output σ K a.p a.ndim) := do
  a.validate
  match a.fn with
  | none => .error .typeError
  | some fn =>
    optimizer env fn true a.workers a.backend fun obj => do
      a.unpackBounds                                                       -- line 166
      let pen ← consMap a.constraints
      let m ← a.firstMean R (a.seeded R g)
      if h : 0 < a.ndim ∧ 0 < a.p ∧ 0 < a.mu ∧ a.mu ≤ a.p then
        let P : Par σ K a.p a.ndim := { R := R, mu := a.mu, hmu := h.2.2.2 }
        run (a.par srt obj pen) ((gauss P).checked (a.par srt obj pen) (intValues a.backend isInt)) a.cfg State.rng fuel
          (start R m.1 junk a.sigma m.2)
      else .error .unmodelled

end VDCMA

end Stochopy
