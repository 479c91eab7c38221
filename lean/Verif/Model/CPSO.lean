import Verif.Model.Driver
import Mathlib.Data.List.MinMax

/-!
# Model of `stochopy/optimize/cpso` and `stochopy/optimize/pso`
-/

namespace Stochopy.CPSO

variable {K σ : Type} [Zero K] [One K] [Add K] [Sub K] [Mul K] [Div K] [Neg K] [NatCast K] [IntCast K] [Pow K ℕ] [ArrayOps K] [LinearOrder K]

section core
variable {p n : Nat}

/-- `_constraints_map` — /repo/stochopy/optimize/cpso/_constraints.py:69-72. -/
inductive Cons where
  | none
  | shrink
  deriving DecidableEq

def consMap (name : Option String) : Except PyErr Cons :=
  match name with
  | .none => .ok .none
  | some s => if s = "Shrink" then .ok .shrink else .error .keyError

/-- `shrink(X, V, maskl, masku)` — /repo/stochopy/optimize/cpso/_constraints.py:22-40, with the masks of lines 45-47/58-60.
A zero denominator can only occur for a coordinate that is infeasible before the move; NumPy then yields inf/nan where
Lean's division yields 0, so the model is meaningful for feasible `X` only (all theorems about Shrink assume that). -/
def shrinkBeta (lower upper X V : Vec K n) : K :=
  let bl := (List.finRange n).filterMap fun j =>
    if X j + V j < lower j then some ((lower j - X j) / V j) else none
  let bu := (List.finRange n).filterMap fun j =>
    if upper j < X j + V j then some ((upper j - X j) / V j) else none
  match bl.min?, bu.min? with
  | some l, some u => min l u       -- lines 26-29
  | some l, none => l               -- lines 31-33
  | none, some u => u               -- lines 35-37
  | none, none => 1                 -- lines 39-40

/-- `cons(X, V)` on one row: the new position and velocity — /repo/stochopy/optimize/cpso/_constraints.py:7-8 (None),
44-53 (Shrink, row of the deferred version) and 57-64 (Shrink, immediate version). -/
def consRow (c : Cons) (lower upper X V : Vec K n) : Vec K n × Vec K n :=
  match c with
  | .none => (fun j => X j + V j, V)
  | .shrink =>
    let beta := shrinkBeta lower upper X V
    let V' : Vec K n := fun j => V j * beta
    (fun j => X j + V' j, V')

/-- Parameters of the iteration. -/
structure Par (σ K : Type) (n : Nat) where
  R : Rng σ K
  argsort : Argsort K
  w : K
  c1 : K
  c2 : K
  gamma : Option K
  cons : Cons
  lower : Vec K n
  upper : Vec K n
  maxiter : Int
  xtol : K
  ftol : Val K
  obj : Obj K n

/-- `mutation(X, V, pbest, gbest, w, c1, c2, r1, r2, cons)` on one row — /repo/stochopy/optimize/cpso/_cpso.py:324-329. -/
def mutation (P : Par σ K n) (X V pbest gbest r1 r2 : Vec K n) : Vec K n × Vec K n :=
  let V' : Vec K n := fun j =>
    P.w * V j + P.c1 * r1 j * (pbest j - X j) + P.c2 * r2 j * (gbest j - X j)
  consRow P.cons P.lower P.upper X V'

/-- The variables of `cpso` that live across iterations.  `caller` is the content of the caller's `x0` array (`none`
if `x0` is None); `aliased` says whether `X` is that very array. -/
structure State (σ K : Type) (p n : Nat) where
  X : Pop K p n
  V : Pop K p n
  pbest : Pop K p n
  gbest : Vec K n
  pbestfit : Fin p → Val K
  gfit : Val K
  pfit : Fin p → Val K
  caller : Option (Pop K p n)
  aliased : Bool
  evals : List (Vec K n)
  rng : σ

/-- The caller's array after an in-place write that turned `X` into `X'`. -/
def writeThrough (aliased : Bool) (caller : Option (Pop K p n)) (X' : Pop K p n) : Option (Pop K p n) :=
  if aliased then caller.map fun _ => X' else caller

/-- `pso_sync` — /repo/stochopy/optimize/cpso/_cpso.py:332-361 (with the draws of `r1`, `r2`, lines 262-263).
`X` and `V` are rebound to fresh arrays (line 354). -/
def stepSync (P : Par σ K n) (it : Nat) (s : State σ K p n) : Except PyErr (State σ K p n × Option Int) := do
  let d1 := drawMat P.R.rand p n s.rng
  let d2 := drawMat P.R.rand p n d1.2
  let m : Fin p → Vec K n × Vec K n := fun i =>
    mutation P (s.X i) (s.V i) (s.pbest i) s.gbest (d1.1 i) (d2.1 i)
  let X : Pop K p n := fun i => (m i).1
  let V : Pop K p n := fun i => (m i).2
  let r ← selectionSync it X s.gbest s.pbest s.pbestfit P.maxiter P.xtol P.ftol P.obj
  .ok ({ X := X, V := V, pbest := r.x, gbest := r.xbest, pbestfit := r.xfun, gfit := r.xbestfun,
         pfit := r.candfun, caller := s.caller, aliased := false, evals := s.evals ++ List.ofFn X, rng := d2.2 },
       r.status)

/-- Body of the loop in `pso_async` — /repo/stochopy/optimize/cpso/_cpso.py:387-396.  `X[i]` and `V[i]` are written in
place. -/
def rowAsync (P : Par σ K n) (r1 r2 : Pop K p n) (acc : State σ K p n × Option Int) (i : Fin p) :
    State σ K p n × Option Int :=
  let s := acc.1
  let m := mutation P (s.X i) (s.V i) (s.pbest i) s.gbest (r1 i) (r2 i)
  let X := Function.update s.X i m.1
  let r := selectionAsync m.1 s.gbest s.gfit s.pbest s.pbestfit P.xtol P.ftol P.obj i
  ({ X := X, V := Function.update s.V i m.2, pbest := r.x, gbest := r.xbest, pbestfit := r.xfun,
     gfit := r.xbestfun, pfit := Function.update s.pfit i r.candfun,
     caller := writeThrough s.aliased s.caller X, aliased := s.aliased, evals := s.evals ++ [m.1], rng := s.rng },
   r.status)

/-- `pso_async` — /repo/stochopy/optimize/cpso/_cpso.py:364-402 (with the draws of `r1`, `r2`, lines 262-263). -/
def stepAsync (P : Par σ K n) (it : Nat) (s : State σ K p n) : Except PyErr (State σ K p n × Option Int) :=
  let d1 := drawMat P.R.rand p n s.rng
  let d2 := drawMat P.R.rand p n d1.2
  let r := (List.finRange p).foldl (rowAsync P d1.1 d2.1) ({ s with rng := d2.2 }, none)
  .ok (r.1, if r.2.isNone && decide (P.maxiter ≤ (it : Int)) then some (-1) else r.2)   -- lines 399-400

variable [IntParts K] [NumFns K]

/-- `delta` — /repo/stochopy/optimize/cpso/_cpso.py:216. (Only used while `it < maxiter`, hence for `maxiter >= 3`.) -/
def delta (p : Nat) (maxiter : Int) : K :=
  NumFns.log (1 + 3 / 1000 * (p : K)) / max (2 / 10) (NumFns.log (1 / 100 * (maxiter : K)))

/-- `swarm_radius < delta` — /repo/stochopy/optimize/cpso/_cpso.py:410-414 (there is at least one particle; for
`ndim >= 1`, otherwise NumPy's 0/0 is nan).  `np.linalg.norm` of a vector is the root of the sum of the squares. -/
def swarmSmall (X : Pop K p n) (gbest : Vec K n) (dl : K) : Bool :=
  match (List.ofFn fun i => NumFns.sqrt (ArrayOps.sum fun j => (X i j - gbest j) ^ 2)).max? with
  | some r => decide (r / NumFns.sqrt (4 * (n : K)) < dl)
  | none => false

/-- `nw` — /repo/stochopy/optimize/cpso/_cpso.py:415-416. -/
def numRestart (p it : Nat) (maxiter : Int) (gamma : K) : Int :=
  pyInt (((p : K) - 1) / (1 + NumFns.exp (1 / (9 / 100) * ((it : K) / (maxiter : K) - gamma + 1 / 2))))

/-- The value written into the personal best of a restarted particle — /repo/stochopy/optimize/cpso/_cpso.py:424. -/
def resetFit : Val K := .fin (10 ^ 30)

/-- Position of particle `q` in `idx = pbestfit.argsort()[: -nw - 1 : -1]` (the `nw` last of the sorted order, from the
last), if any — /repo/stochopy/optimize/cpso/_cpso.py:420. -/
def restartPos (srt : Argsort K) (pbestfit : Fin p → Val K) (nw : Nat) (q : Fin p) : Option (Fin nw) :=
  let k := ((srt p pbestfit).symm q).val
  if h : p - 1 - k < nw then some ⟨p - 1 - k, h⟩ else none

/-- Re-initialisation of the `nw` worst particles — /repo/stochopy/optimize/cpso/_cpso.py:419-424.
`X[idx] = ...` writes in place. -/
def resetWorst (P : Par σ K n) (nw : Nat) (s : State σ K p n) : State σ K p n :=
  let pos := restartPos P.argsort s.pbestfit nw
  let d := drawMat P.R.rand nw n s.rng
  let X : Pop K p n := fun q =>
    match pos q with
    | some t => fun j => unif (P.lower j) (P.upper j) (d.1 t j)
    | none => s.X q
  { s with
    V := fun q => match pos q with
      | some _ => fun _ => 0
      | none => s.V q
    X := X
    pbest := fun q => match pos q with
      | some _ => X q
      | none => s.pbest q
    pbestfit := fun q => match pos q with
      | some _ => resetFit
      | none => s.pbestfit q
    caller := writeThrough s.aliased s.caller X
    rng := d.2 }

/-- `restart` — /repo/stochopy/optimize/cpso/_cpso.py:405-426. -/
def restart (P : Par σ K n) (gamma : K) (it : Nat) (s : State σ K p n) : State σ K p n :=
  if swarmSmall s.X s.gbest (delta p P.maxiter) then
    if 0 < numRestart p it P.maxiter gamma then resetWorst P (numRestart p it P.maxiter gamma).toNat s else s
  else s

/-- `if not converged and gamma:` — /repo/stochopy/optimize/cpso/_cpso.py:304-307 (None and 0.0 are falsy). -/
def post (P : Par σ K n) (it : Nat) (s : State σ K p n) : State σ K p n :=
  match P.gamma with
  | none => s
  | some gamma => if gamma = 0 then s else restart P gamma it s

/-- The optimizer-specific part of the frame. -/
def alg (P : Par σ K n) (sync : Bool) : Alg (State σ K p n) K p n :=
  { step := if sync then stepSync P else stepAsync P,                     -- line 212
    post := post P,
    cbX := State.X, best := State.gbest, bestFun := State.gfit,
    rec0X := State.X, rec0Best := State.gbest, recX := State.X, pfit := State.pfit }

/-- Initial population, velocities and personal bests — /repo/stochopy/optimize/cpso/_cpso.py:219-230. -/
def init (P : Par σ K n) (x0 : Option (Pop K p n)) (g : σ) : Except PyErr (State σ K p n) := do
  let X : Pop K p n × σ := match x0 with
    | some x => (x, g)
    | none => lhs P.R p P.lower P.upper g
  let pfit := P.obj.pop X.1
  let gbidx ← argmin pfit
  .ok { X := X.1, V := fun _ _ => 0, pbest := X.1, gbest := X.1 gbidx, pbestfit := pfit, gfit := pfit gbidx,
        pfit := pfit, caller := x0, aliased := x0.isSome, evals := List.ofFn X.1, rng := X.2 }

/-- `cpso` (undecorated) — /repo/stochopy/optimize/cpso/_cpso.py:183-321. -/
def cpso (P : Par σ K n) (sync : Bool) (c : Cfg) (fuel : Nat) (x0 : Option (Pop K p n)) (g : σ) :
    Except PyErr (Output σ K p n) := do
  let s0 ← init P x0 g
  let r ← (alg P sync).run c fuel s0
  .ok { res := r.1, cbs := r.2.cbs, evals := r.2.s.evals, x0After := r.2.s.caller, rng := r.2.s.rng }

end core

/-- Arguments of `minimize` — /repo/stochopy/optimize/cpso/_cpso.py:12-33. -/
structure Args (K : Type) extends CommonArgs K where
  inertia : K
  cognitivity : K
  sociability : K
  competitivity : Option K
  constraints : Option String
  updating : String

/-- `sync` — /repo/stochopy/optimize/cpso/_cpso.py:148-150. -/
def Args.sync (a : Args K) : Bool :=
  a.updating == "deferred" || !(a.workers == 0 || a.workers == 1) || a.backend == some "mpi"

/-- `competitivity is not None and not 0.0 <= competitivity <= 2.0` — /repo/stochopy/optimize/cpso/_cpso.py:136. -/
def Args.badCompetitivity (a : Args K) : Bool :=
  match a.competitivity with
  | none => false
  | some gm => !(decide (0 ≤ gm) && decide (gm ≤ 2))

/-- Argument checks in code order — /repo/stochopy/optimize/cpso/_cpso.py:107-158. -/
def validate (a : Args K) : Except PyErr Unit :=
  if a.fn.isNone then .error .typeError                                          -- lines 107-108
  else if a.bounds.ndim ≠ 2 then .error .valueError                              -- lines 111-112
  else if a.badX0Shape then .error .valueError                                   -- lines 115-117
  else if a.popsize < 2 then .error .valueError                                  -- lines 120-121
  else if a.badX0Len then .error .valueError                                     -- lines 123-124
  else if ¬ (0 ≤ a.inertia ∧ a.inertia ≤ 1) then .error .valueError              -- lines 127-128
  else if ¬ (0 ≤ a.cognitivity ∧ a.cognitivity ≤ 4) then .error .valueError      -- lines 130-131
  else if ¬ (0 ≤ a.sociability ∧ a.sociability ≤ 4) then .error .valueError      -- lines 133-134
  else if a.badCompetitivity then .error .valueError                             -- lines 136-137
  else if ¬ (a.updating = "immediate" ∨ a.updating = "deferred") then .error .valueError   -- lines 139-140
  else if a.badCallback then .error .valueError                                  -- lines 157-158
  else .ok ()

/-- `minimize` — /repo/stochopy/optimize/cpso/_cpso.py:12-179. -/
def minimize [IntParts K] [NumFns K] (env : Env) (R : Rng σ K) (srt : Argsort K) (fuel : Nat) (a : Args K)
    (g : σ) : Except PyErr (Output σ K a.p a.ndim) := do
  validate a
  match a.fn with
  | none => .error .typeError
  | some fn =>
    optimizer env fn a.sync a.workers a.backend fun obj => do
      a.unpackBounds                                                       -- line 206
      let cons ← consMap a.constraints                                     -- line 209
      cpso { R := R, argsort := srt, w := a.inertia, c1 := a.cognitivity, c2 := a.sociability,
             gamma := a.competitivity, cons := cons, lower := a.lower, upper := a.upper, maxiter := a.maxiter,
             xtol := a.xtol, ftol := a.ftol, obj := obj }
        a.sync a.cfg fuel a.x0Pop (a.seeded R g)

end Stochopy.CPSO

namespace Stochopy.PSO

variable {K σ : Type} [Zero K] [One K] [Add K] [Sub K] [Mul K] [Div K] [Neg K] [NatCast K] [IntCast K] [Pow K ℕ] [ArrayOps K] [LinearOrder K]

/-- Arguments of `minimize` — /repo/stochopy/optimize/pso/_pso.py:9-29. -/
structure Args (K : Type) extends CommonArgs K where
  inertia : K
  cognitivity : K
  sociability : K
  constraints : Option String
  updating : String

/-- The arguments `pso.minimize` passes on to `cpso` — /repo/stochopy/optimize/pso/_pso.py:99-122
(positional, in the order of `cpso.minimize`'s signature). -/
def Args.toCPSO (a : Args K) : CPSO.Args K :=
  { toCommonArgs := a.toCommonArgs, inertia := a.inertia, cognitivity := a.cognitivity, sociability := a.sociability,
    competitivity := none, constraints := a.constraints, updating := a.updating }

/-- `minimize` — /repo/stochopy/optimize/pso/_pso.py:9-122. -/
def minimize [IntParts K] [NumFns K] (env : Env) (R : Rng σ K) (srt : Argsort K) (fuel : Nat) (a : Args K)
    (g : σ) : Except PyErr (Output σ K a.p a.ndim) :=
  CPSO.minimize env R srt fuel a.toCPSO g

end Stochopy.PSO
