import Verif.Model.Driver

/-!
# Model of `stochopy/optimize/de`
-/

namespace Stochopy.DE

variable {K σ : Type} [Zero K] [One K] [Add K] [Sub K] [Mul K] [Div K] [Neg K] [NatCast K] [IntCast K] [Pow K ℕ] [ArrayOps K] [LinearOrder K]

section core
variable {p n : Nat}

/-- `np.delete(np.arange(popsize), i)[k]` — /repo/stochopy/optimize/de/_de.py:311. -/
def del (i : Fin p) (k : Fin (p - 1)) : Fin p :=
  if k.val < i.val then ⟨k.val, by omega⟩ else ⟨k.val + 1, by omega⟩

/-- `delete_shuffle_async(i, popsize)` for a drawn permutation — /repo/stochopy/optimize/de/_de.py:309-311.
Column `i` of `delete_shuffle_sync(popsize)` (lines 304-306) is the same. -/
def donors (i : Fin p) (π : Equiv.Perm (Fin (p - 1))) : Fin (p - 1) → Fin p := fun k => del i (π k)

/-- `i[k]` on the donor array: IndexError when `k >= popsize - 1`. -/
def donor (i : Fin (p - 1) → Fin p) (k : Nat) : Except PyErr (Fin p) :=
  if h : k < p - 1 then .ok (i ⟨k, h⟩) else .error .indexError

/-- A mutation strategy, row by row: donors, F, X, gbest. -/
abbrev Strategy (K : Type) (p n : Nat) := (Fin (p - 1) → Fin p) → K → Pop K p n → Vec K n → Except PyErr (Vec K n)

/-- /repo/stochopy/optimize/de/_strategy.py:1-8 -/
def rand1bin : Strategy K p n := fun i F X _ => do
  let i0 ← donor i 0
  let i1 ← donor i 1
  let i2 ← donor i 2
  .ok fun j => X i0 j + F * (X i1 j - X i2 j)

/-- /repo/stochopy/optimize/de/_strategy.py:11-18 -/
def rand2bin : Strategy K p n := fun i F X _ => do
  let i0 ← donor i 0
  let i1 ← donor i 1
  let i2 ← donor i 2
  let i3 ← donor i 3
  let i4 ← donor i 4
  .ok fun j => X i0 j + F * (X i1 j + X i2 j - X i3 j - X i4 j)

/-- /repo/stochopy/optimize/de/_strategy.py:21-28 -/
def best1bin : Strategy K p n := fun i F X gbest => do
  let i0 ← donor i 0
  let i1 ← donor i 1
  .ok fun j => gbest j + F * (X i0 j - X i1 j)

/-- /repo/stochopy/optimize/de/_strategy.py:31-38 -/
def best2bin : Strategy K p n := fun i F X gbest => do
  let i0 ← donor i 0
  let i1 ← donor i 1
  let i2 ← donor i 2
  let i3 ← donor i 3
  .ok fun j => gbest j + F * (X i0 j + X i1 j - X i2 j - X i3 j)

/-- `_strategy_map[strategy]` — /repo/stochopy/optimize/de/_strategy.py:41-46. -/
def strategyMap (name : String) : Except PyErr (Strategy K p n) :=
  if name = "rand1bin" then .ok rand1bin
  else if name = "rand2bin" then .ok rand2bin
  else if name = "best1bin" then .ok best1bin
  else if name = "best2bin" then .ok best2bin
  else .error .keyError

/-- The two constraint handlers — /repo/stochopy/optimize/de/_constraints.py:31-34. -/
inductive Cons where
  | none
  | random
  deriving DecidableEq

/-- `_constraints_map[constraints]`. -/
def consMap (name : Option String) : Except PyErr Cons :=
  match name with
  | .none => .ok .none
  | some s => if s = "Random" then .ok .random else .error .keyError

/-- `Random.cons` on one row, with `u` the uniform draws behind `np.random.uniform(lower, upper, U.shape)`
— /repo/stochopy/optimize/de/_constraints.py:21-26. -/
def randomRow (lower upper U u : Vec K n) : Vec K n := fun j =>
  if U j < lower j ∨ upper j < U j then unif (lower j) (upper j) (u j) else U j

/-- `cons(U)` on a single vector (immediate updating), drawing only for `Random`
— /repo/stochopy/optimize/de/_constraints.py:7-8, 21-26. -/
def consOne (R : Rng σ K) (c : Cons) (lower upper U : Vec K n) (g : σ) : Vec K n × σ :=
  match c with
  | .none => (U, g)
  | .random =>
    let d := drawVec R.rand n g
    (randomRow lower upper U d.1, d.2)

/-- `cons(U)` on the whole population (deferred updating). -/
def consPop (R : Rng σ K) (c : Cons) (lower upper : Vec K n) (U : Pop K p n) (g : σ) : Pop K p n × σ :=
  match c with
  | .none => (U, g)
  | .random =>
    let d := drawMat R.rand p n g
    (fun i => randomRow lower upper (U i) (d.1 i), d.2)

/-- Recombination of one row: `np.where(np.logical_or(mask, r1 <= CR), V, X)`, where `mask` is True at `irand` only
— /repo/stochopy/optimize/de/_de.py:339-344 and 380-383. -/
def crossover (irand : Nat) (r1 : Vec K n) (CR : K) (V X : Vec K n) : Vec K n := fun j =>
  if j.val = irand ∨ r1 j ≤ CR then V j else X j

/-- The variables of `de` that live across iterations.  `U` is scratch space and `pfit` holds the values of the
last candidates.  `caller` is the content of the caller's `x0` array, `none` if `x0` is None. `evals` logs the points on
which the objective has been called. -/
structure State (σ K : Type) (p n : Nat) where
  X : Pop K p n
  gbest : Vec K n
  pbestfit : Fin p → Val K
  gfit : Val K
  pfit : Fin p → Val K
  caller : Option (Pop K p n)
  evals : List (Vec K n)
  rng : σ

/-- Parameters of the iteration. -/
structure Par (σ K : Type) (p n : Nat) where
  R : Rng σ K
  F : K
  CR : K
  strat : Strategy K p n
  cons : Cons
  lower : Vec K n
  upper : Vec K n
  maxiter : Int
  xtol : K
  ftol : Val K
  obj : Obj K n

/-- `np.random.randint(ndim)` raises ValueError when `ndim = 0`. -/
def checkDim (n : Nat) : Except PyErr Unit := if n = 0 then .error .valueError else .ok ()

/-- The candidates `U` of a deferred iteration and the generator state after drawing them
— /repo/stochopy/optimize/de/_de.py:250 and 336-344. -/
def candSync (P : Par σ K p n) (X : Pop K p n) (gbest : Vec K n) (g : σ) : Except PyErr (Pop K p n × σ) := do
  let dr := drawMat P.R.rand p n g                                        -- r1, line 250
  let dp := drawVec (P.R.perm (p - 1)) p dr.2                             -- line 336
  let V ← seqFin fun i => P.strat (donors i (dp.1 i)) P.F X gbest           -- line 336
  checkDim n
  let di := drawVec (P.R.randint n) p dp.2                                -- line 340
  .ok (consPop P.R P.cons P.lower P.upper                                 -- line 344
        (fun i => crossover (di.1 i) (dr.1 i) P.CR (V i) (X i)) di.2)

/-- `de_sync` — /repo/stochopy/optimize/de/_de.py:314-351 (with the draw of `r1`, line 250).
`selection_sync` writes the improved rows into `X` in place (line 129 of _common.py); `X` is the caller's array when
`x0` was given (line 208), hence the update of `caller`. -/
def stepSync (P : Par σ K p n) (it : Nat) (s : State σ K p n) : Except PyErr (State σ K p n × Option Int) := do
  let U ← candSync P s.X s.gbest s.rng
  let r ← selectionSync it U.1 s.gbest s.X s.pbestfit P.maxiter P.xtol P.ftol P.obj   -- lines 347-349
  .ok ({ X := r.x, gbest := r.xbest, pbestfit := r.xfun, gfit := r.xbestfun, pfit := r.candfun,
         caller := s.caller.map fun _ => r.x, evals := s.evals ++ List.ofFn U.1, rng := U.2 }, r.status)

/-- The candidate `U[i]` of an immediate iteration — /repo/stochopy/optimize/de/_de.py:377-383. -/
def candAsync (P : Par σ K p n) (r1 : Vec K n) (i : Fin p) (X : Pop K p n) (gbest : Vec K n) (g : σ) :
    Except PyErr (Vec K n × σ) := do
  let dp := P.R.perm (p - 1) g                                            -- line 377
  let V ← P.strat (donors i dp.1) P.F X gbest
  checkDim n
  let di := P.R.randint n dp.2                                            -- line 381
  .ok (consOne P.R P.cons P.lower P.upper (crossover di.1 r1 P.CR V (X i)) di.2)   -- line 383

/-- Body of the loop over individuals in `de_async` — /repo/stochopy/optimize/de/_de.py:375-388. `x[i] = cand[i]`
(line 170 of _common.py) writes into `X`, which is the caller's array when `x0` was given. -/
def rowAsync (P : Par σ K p n) (r1 : Fin p → Vec K n) (acc : State σ K p n × Option Int) (i : Fin p) :
    Except PyErr (State σ K p n × Option Int) := do
  let s := acc.1
  let U ← candAsync P (r1 i) i s.X s.gbest s.rng
  let r := selectionAsync U.1 s.gbest s.gfit s.X s.pbestfit P.xtol P.ftol P.obj i   -- lines 386-388
  .ok ({ X := r.x, gbest := r.xbest, pbestfit := r.xfun, gfit := r.xbestfun,
         pfit := Function.update s.pfit i r.candfun,
         caller := s.caller.map fun _ => r.x, evals := s.evals ++ [U.1], rng := U.2 }, r.status)

/-- `de_async` — /repo/stochopy/optimize/de/_de.py:354-394 (with the draw of `r1`, line 250). -/
def stepAsync (P : Par σ K p n) (it : Nat) (s : State σ K p n) : Except PyErr (State σ K p n × Option Int) := do
  let dr := drawMat P.R.rand p n s.rng
  let r ← (List.finRange p).foldlM (rowAsync P dr.1) ({ s with rng := dr.2 }, none)
  let status := if r.2.isNone && decide (P.maxiter ≤ (it : Int)) then some (-1) else r.2   -- lines 391-392
  .ok (r.1, status)

/-- The optimizer-specific part of the frame. -/
def alg (P : Par σ K p n) (sync : Bool) : Alg (State σ K p n) K p n :=
  { step := if sync then stepSync P else stepAsync P,                     -- line 205
    post := fun _ s => s,
    cbX := State.X, best := State.gbest, bestFun := State.gfit,
    rec0X := State.X, rec0Best := State.gbest, recX := State.X, pfit := State.pfit }

/-- Evaluation of the initial population — /repo/stochopy/optimize/de/_de.py:208-218. -/
def init (P : Par σ K p n) (x0 : Option (Pop K p n)) (g : σ) : Except PyErr (State σ K p n) := do
  let X : Pop K p n × σ := match x0 with
    | some x => (x, g)
    | none => lhs P.R p P.lower P.upper g
  let pfit := P.obj.pop X.1
  let gbidx ← argmin pfit
  .ok { X := X.1, gbest := X.1 gbidx, pbestfit := pfit, gfit := pfit gbidx, pfit := pfit,
        caller := x0, evals := List.ofFn X.1, rng := X.2 }

/-- `de` (undecorated) — /repo/stochopy/optimize/de/_de.py:177-301. -/
def de (P : Par σ K p n) (sync : Bool) (c : Cfg) (fuel : Nat) (x0 : Option (Pop K p n)) (g : σ) :
    Except PyErr (Output σ K p n) := do
  let s0 ← init P x0 g
  let r ← (alg P sync).run c fuel s0
  .ok { res := r.1, cbs := r.2.cbs, evals := r.2.s.evals, x0After := r.2.s.caller, rng := r.2.s.rng }

end core

/-- Arguments of `minimize` — /repo/stochopy/optimize/de/_de.py:13-33. -/
structure Args (K : Type) extends CommonArgs K where
  mutation : K
  recombination : K
  strategy : String
  constraints : Option String
  updating : String

/-- `sync` — /repo/stochopy/optimize/de/_de.py:143-145. -/
def Args.sync (a : Args K) : Bool :=
  a.updating == "deferred" || !(a.workers == 0 || a.workers == 1) || a.backend == some "mpi"

/-- Argument checks in code order — /repo/stochopy/optimize/de/_de.py:109-153; returns the strategy.
(`np.random.seed`, lines 148-149, comes before the last check; it only matters for a normal return.) -/
def validate (a : Args K) : Except PyErr (Strategy K a.p a.ndim) :=
  if a.fn.isNone then .error .typeError                                          -- lines 109-110
  else if a.bounds.ndim ≠ 2 then .error .valueError                              -- lines 113-114
  else if a.badX0Shape then .error .valueError                                   -- lines 117-119
  else if a.popsize < 2 then .error .valueError                                  -- lines 122-123
  else if a.badX0Len then .error .valueError                                     -- lines 125-126
  else if ¬ (0 ≤ a.mutation ∧ a.mutation ≤ 2) then .error .valueError            -- lines 129-130
  else if ¬ (0 ≤ a.recombination ∧ a.recombination ≤ 1) then .error .valueError  -- lines 132-133
  else if ¬ (a.updating = "immediate" ∨ a.updating = "deferred") then .error .valueError   -- lines 135-136
  else
    match strategyMap a.strategy with                                            -- line 140
    | .error e => .error e
    | .ok strat => if a.badCallback then .error .valueError else .ok strat       -- lines 152-153

/-- `minimize` — /repo/stochopy/optimize/de/_de.py:13-173. -/
def minimize [IntParts K] (env : Env) (R : Rng σ K) (fuel : Nat) (a : Args K) (g : σ) :
    Except PyErr (Output σ K a.p a.ndim) := do
  let strat ← validate a
  match a.fn with
  | none => .error .typeError
  | some fn =>
    optimizer env fn a.sync a.workers a.backend fun obj => do
      a.unpackBounds                                                       -- line 199
      let cons ← consMap a.constraints                                     -- line 202
      de { R := R, F := a.mutation, CR := a.recombination, strat := strat, cons := cons, lower := a.lower,
           upper := a.upper, maxiter := a.maxiter, xtol := a.xtol, ftol := a.ftol, obj := obj }
        a.sync a.cfg fuel a.x0Pop (a.seeded R g)

end Stochopy.DE
