import Verif.Base.Num

/-!
# Model of `stochopy/optimize/_common.py`
-/

namespace Stochopy

variable {K σ : Type} [Zero K] [One K] [Add K] [Sub K] [Mul K] [Div K] [Neg K] [NatCast K] [IntCast K] [Pow K ℕ] [ArrayOps K] [LinearOrder K]

/-- `messages` — /repo/stochopy/optimize/_common.py:13-24.  `none` is a missing key (KeyError). -/
def messages (status : Int) : Option String :=
  if status = -8 then some "TolX"
  else if status = -7 then some "TolFun"
  else if status = -6 then some "TolXUp"
  else if status = -5 then some "EqualFunValues"
  else if status = -4 then some "ConditionCov"
  else if status = -3 then some "NoEffectCoord"
  else if status = -2 then some "NoEffectAxis"
  else if status = -1 then some "maximum number of iterations is reached"
  else if status = 0 then some "best solution changes less than xtol"
  else if status = 1 then some "best solution value is lower than ftol"
  else none

/-- `prefer` — /repo/stochopy/optimize/_common.py:6-9 (membership test only; the values select joblib's
process/thread preference, which does not affect results). -/
def prefer (backend : String) : Bool := backend == "loky" || backend == "threading"

/-- The part of the environment the decorator depends on: whether `mpi4py` can be imported, the size of
`MPI.COMM_WORLD` and the order in which `Allreduce` adds the contributions of the ranks. -/
structure Env where
  mpi4py : Bool
  mpiSize : Nat
  reduceOrder : List Nat

/-- `Allreduce` adds the contribution of every rank exactly once, in some order; there is at least one rank. -/
structure Env.Ok (env : Env) : Prop where
  pos : 0 < env.mpiSize
  order : env.reduceOrder.Perm (List.range env.mpiSize)

/-- The wrapped objective handed to an optimizer: on a population and on a single vector
(the two shapes of `x` the wrappers are called with). -/
structure Obj (K : Type) (n : Nat) where
  pop : {p : Nat} → Pop K p n → Fin p → Val K
  one : Vec K n → Val K

/-- Membership in `np.arange(rank, popsize, size)` for an index `i < popsize`
— /repo/stochopy/optimize/_common.py:64. -/
def mpiMine (rank size i : Nat) : Bool := rank ≤ i && (i - rank) % size == 0

/-- The local contribution `fmpi` of one rank — /repo/stochopy/optimize/_common.py:60-65.
All ranks hold the root's `x` after `Bcast` (line 63). -/
def mpiLocal {n : Nat} (fn : Vec K n → Val K) (rank size : Nat) {p : Nat} (x : Pop K p n) (i : Fin p) : Val K :=
  if mpiMine rank size i then fn (x i) else .fin 0

/-- The MPI wrapper: `Allreduce(fmpi, f, op=SUM)` — /repo/stochopy/optimize/_common.py:58-72. -/
def mpiPop {n : Nat} (env : Env) (fn : Vec K n → Val K) {p : Nat} (x : Pop K p n) (i : Fin p) : Val K :=
  env.reduceOrder.foldl (fun acc r => acc + mpiLocal fn r env.mpiSize x i) (.fin 0)

/-- inner `wrapper` — /repo/stochopy/optimize/_common.py:34-90.  `fn x` is `fun(x, *args)`.
`parallel` is the truth value of the `parallel` argument (a joblib `Parallel` object is truthy).
joblib returns the results in submission order (trusted), so its wrapper is the pointwise map. The `sync`
wrappers are never called on a single vector; `one` is given the plain objective there. -/
def wrapper {n : Nat} (env : Env) (fn : Vec K n → Val K) (sync : Bool) (backend : String) (parallel : Bool) :
    Except PyErr (Obj K n) :=
  if sync then
    if parallel then
      if prefer backend then
        .ok { pop := fun x i => fn (x i), one := fn }                 -- lines 38-43
      else if backend == "mpi" then
        if env.mpi4py then .ok { pop := fun x i => mpiPop env fn x i, one := fn }   -- lines 45-72
        else .error .importError                                      -- lines 48-51
      else .error .valueError                                         -- line 75
    else .ok { pop := fun x i => fn (x i), one := fn }                -- lines 79-80
  else .ok { pop := fun x i => fn (x i), one := fn }                  -- lines 84-88

/-- `backend if backend else "threading"` (None and "" are falsy) — /repo/stochopy/optimize/_common.py:92. -/
def effBackend (backend : Option String) : String :=
  match backend with
  | none => "threading"
  | some b => if b == "" then "threading" else b

/-- decorator `optimizer` — /repo/stochopy/optimize/_common.py:27-106. -/
def optimizer {n : Nat} {α : Type} (env : Env) (fn : Vec K n → Val K) (sync : Bool) (workers : Int)
    (backend : Option String) (optfun : Obj K n → Except PyErr α) : Except PyErr α :=
  let backend := effBackend backend                                   -- line 92
  if prefer backend && !(workers == 0 || workers == 1) then do        -- lines 94-97
    let fn' ← wrapper env fn sync backend true
    optfun fn'
  else do                                                             -- lines 99-102
    let parallel := backend == "mpi"
    let fn' ← wrapper env fn sync backend parallel
    optfun fn'

/-- The affine map of `lhs` to the bounds — /repo/stochopy/optimize/_common.py:116-118. -/
def lhsScale (lower upper x : K) : K := x * ((1 / 2) * (upper - lower)) + (1 / 2) * (upper + lower)

/-- `lhs(popsize, ndim, bounds)` — /repo/stochopy/optimize/_common.py:109-120.
Draw order: all uniforms (line 111), then one permutation per dimension (line 113).
`np.linspace(-1.0, 1.0, popsize, endpoint=False)[k] = k * (2 / popsize) + -1` (line 112). -/
def lhs {n : Nat} (R : Rng σ K) (p : Nat) (lower upper : Vec K n) (g : σ) : Pop K p n × σ :=
  let du := drawMat R.rand p n g
  let x : Pop K p n := fun k i => du.1 k i / (p : K) + ((k.val : K) * (2 / (p : K)) + -1)
  let dp := drawVec (R.perm p) n du.2
  (fun k i => lhsScale (lower i) (upper i) (x (dp.1 i k) i), dp.2)

/-- What `selection_sync` leaves behind: the returned tuple and the arrays `x`, `xfun` it updated in place. -/
structure SelSync (K : Type) (p n : Nat) where
  xbest : Vec K n
  xbestfun : Val K
  candfun : Fin p → Val K
  status : Option Int
  x : Pop K p n
  xfun : Fin p → Val K

/-- `selection_sync` — /repo/stochopy/optimize/_common.py:123-160. -/
def selectionSync {p n : Nat} (it : Nat) (cand : Pop K p n) (xbest : Vec K n) (x : Pop K p n)
    (xfun : Fin p → Val K) (maxiter : Int) (xtol : K) (ftol : Val K) (obj : Obj K n) :
    Except PyErr (SelSync K p n) := do
  let candfun := obj.pop cand                                               -- line 126
  let xfun' : Fin p → Val K := fun i => if candfun i < xfun i then candfun i else xfun i   -- lines 127-128
  let x' : Pop K p n := fun i => if candfun i < xfun i then cand i else x i                -- line 129
  let idx ← argmin xfun'                                                    -- line 132
  let cond1 := distLe xbest (x' idx) xtol                                   -- line 135
  let cond2 := decide (xfun' idx ≤ ftol)                                    -- line 136
  let status : Option Int :=
    if cond1 && cond2 then some 0                                           -- lines 137-140
    else if xfun' idx ≤ ftol then some 1                                    -- lines 143-146
    else if maxiter ≤ (it : Int) then some (-1)                             -- lines 149-152
    else none                                                               -- lines 155-158
  .ok { xbest := x' idx, xbestfun := xfun' idx, candfun := candfun, status := status, x := x', xfun := xfun' }

/-- What `selection_async` leaves behind. -/
structure SelAsync (K : Type) (p n : Nat) where
  xbest : Vec K n
  xbestfun : Val K
  candfun : Val K
  status : Option Int
  x : Pop K p n
  xfun : Fin p → Val K

/-- `selection_async` — /repo/stochopy/optimize/_common.py:163-194; `candi` is `cand[i]`.
The arguments `it` and `maxiter` are not used by the code and are dropped. -/
def selectionAsync {p n : Nat} (candi : Vec K n) (xbest : Vec K n) (xbestfun : Val K) (x : Pop K p n)
    (xfun : Fin p → Val K) (xtol : K) (ftol : Val K) (obj : Obj K n) (i : Fin p) : SelAsync K p n :=
  let candfun := obj.one candi                                              -- line 166
  if candfun ≤ xfun i then                                                  -- line 169
    let x' := Function.update x i candi                                     -- line 170
    let xfun' := Function.update xfun i candfun                             -- line 171
    if candfun ≤ xbestfun then                                              -- line 174
      let cond1 := distLe xbest candi xtol                                  -- line 176
      let cond2 := decide (candfun ≤ ftol)                                  -- line 177
      let status : Option Int :=
        if cond1 && cond2 then some 0                                       -- lines 178-181
        else if candfun ≤ ftol then some 1                                  -- lines 184-187
        else none                                                           -- lines 190-192
      { xbest := candi, xbestfun := candfun, candfun := candfun, status := status, x := x', xfun := xfun' }
    else
      { xbest := xbest, xbestfun := xbestfun, candfun := candfun, status := none, x := x', xfun := xfun' }
  else
    { xbest := xbest, xbestfun := xbestfun, candfun := candfun, status := none, x := x, xfun := xfun }

end Stochopy
