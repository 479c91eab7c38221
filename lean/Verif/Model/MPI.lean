import Verif.Model.DE
import Verif.Model.CPSO
import Verif.Model.NA
import Verif.Model.CMAES
import Verif.Model.VDCMA

/-!
# Model of runs with `backend="mpi"`: one process per rank

With `backend="mpi"` every rank of `MPI.COMM_WORLD` runs the whole program.  The ranks meet in the objective wrapper
(/repo/stochopy/optimize/_common.py:58-72), where `Bcast` overwrites the array `x` of every rank by the one of rank 0 and
`Allreduce` gives every rank all values.  Everything else, in particular the global generator of NumPy, is local to a rank.

The other models describe one process, for which the wrapper is a function; they describe rank 0.  Here a rank is a program
that stops at every call of the wrapper, and `mpirun` executes the ranks together.  The definitions repeat the other models
except that the result of the wrapper is handed in from outside, and that the array it overwrites is the one that is passed to it:
`X` (`de`, `cpso`, initial population), `U` (`de`), `X` (`cpso`), but a temporary array in `na`, `cmaes` and `vdcma`, where
`unnormalize(x)` and `unstandardize(x)` are passed.
-/

namespace Stochopy

section
variable {K σ S : Type} [Zero K] [One K] [Add K] [Sub K] [Mul K] [Div K] [Neg K] [NatCast K] [IntCast K] [Pow K ℕ] [ArrayOps K] [LinearOrder K] {p n : Nat}

/-- The program of a rank: it returns, raises, or calls the wrapper with the array `x` and goes on with what the array contains
afterwards and with the values. -/
inductive Proc (K : Type) (p n : Nat) (α : Type) where
  | ret (a : α)
  | fail (e : PyErr)
  | call (x : Pop K p n) (k : Pop K p n → (Fin p → Val K) → Proc K p n α)

namespace Proc
variable {α β : Type}

def bind : Proc K p n α → (α → Proc K p n β) → Proc K p n β
  | ret a, f => f a
  | fail e, _ => fail e
  | call x k, f => call x fun x' v => (k x' v).bind f

instance : Monad (Proc K p n) where
  pure := ret
  bind := bind

/-- A computation of the rank alone. -/
def lift : Except PyErr α → Proc K p n α
  | .ok a => ret a
  | .error e => fail e

/-- The call of the wrapper — /repo/stochopy/optimize/_common.py:58-72. -/
def collective (x : Pop K p n) : Proc K p n (Pop K p n × (Fin p → Val K)) := call x fun x' v => ret (x', v)

/-- The rank is inside the wrapper. -/
def waiting : Proc K p n α → Bool
  | call _ _ => true
  | _ => false

/-- The rank leaves the wrapper. -/
def resume (x : Pop K p n) (v : Fin p → Val K) : Proc K p n α → Proc K p n α
  | call _ k => k x v
  | q => q

/-- How a rank that is not waiting has ended. -/
def outcome : Proc K p n α → Except PyErr α
  | ret a => .ok a
  | fail e => .error e
  | call _ _ => .error .outOfFuel

end Proc

/-- How a parallel run ends: every rank has returned or raised, or some ranks wait in the wrapper for ranks that have left the
loop. -/
inductive Ending (α : Type) (m : Nat) where
  | done (root : Except PyErr α) (others : Fin m → Except PyErr α)
  | deadlock

/-- The ranks together.  When all of them are inside the wrapper they continue with the array of rank 0 and with the values of its
rows. -/
def mpirun {α : Type} {m : Nat} (values : Pop K p n → Fin p → Val K) : Proc K p n α → (Fin m → Proc K p n α) → Ending α m
  | .ret a, others => if ∀ r, (others r).waiting = false then .done (.ok a) fun r => (others r).outcome else .deadlock
  | .fail e, others => if ∀ r, (others r).waiting = false then .done (.error e) fun r => (others r).outcome else .deadlock
  | .call x k, others =>
    if ∀ r, (others r).waiting = true then mpirun values (k x (values x)) fun r => (others r).resume x (values x) else .deadlock

/-- The values computed by the wrapper: `fmpi` of every rank and `Allreduce`. -/
def CommonArgs.mpiValues (env : Env) (a : CommonArgs K) : Pop K a.p a.ndim → Fin a.p → Val K :=
  match a.fn with
  | some fn => fun x i => mpiPop env fn x i
  | none => fun _ _ => .nan

/-- A wrapper that returns the given values. -/
def given (v : Fin p → Val K) : Obj K n :=
  { pop := fun _ i => (List.ofFn v).getD i.val .nan, one := fun _ => .nan }

/-- The objective of rank 0. -/
def mpiObj (env : Env) (fn : Vec K n → Val K) : Obj K n := { pop := fun x i => mpiPop env fn x i, one := fn }

/-! ## The frame of `de`, `cpso` and `na` -/

namespace Alg

/-- As `Alg.body`; `step` is the loop body up to and including the selection. -/
def rankBody (A : Alg S K p n) (step : Nat → S → Proc K p n (S × Option Int)) (c : Cfg) (L : Loop S K p n) :
    Proc K p n (Loop S K p n × Bool) := do
  let r ← step (L.it + 1) L.s
  Proc.lift (({ A with step := fun _ _ => .ok r } : Alg S K p n).body c L)

def rankLoop (A : Alg S K p n) (step : Nat → S → Proc K p n (S × Option Int)) (c : Cfg) :
    Nat → Loop S K p n → Proc K p n (Loop S K p n)
  | 0, _ => .fail .outOfFuel
  | fuel + 1, L => do
    let r ← A.rankBody step c L
    if r.2 then pure r.1 else A.rankLoop step c fuel r.1

def rankRun (A : Alg S K p n) (step : Nat → S → Proc K p n (S × Option Int)) (c : Cfg) (fuel : Nat) (s0 : S) :
    Proc K p n (Result K n × Loop S K p n) := do
  let L0 ← Proc.lift (A.start c s0)
  let L ← A.rankLoop step c fuel L0
  let res ← Proc.lift (A.finish c L)
  pure (res, L)

end Alg

/-! ## `de` -/

namespace DE

/-- As `DE.init` — /repo/stochopy/optimize/de/_de.py:208-218; the wrapper overwrites `X`, which is the caller's array when `x0` is
given. -/
def rankInit (P : Par σ K p n) (x0 : Option (Pop K p n)) (g : σ) : Proc K p n (State σ K p n) := do
  let X : Pop K p n × σ := match x0 with
    | some x => (x, g)
    | none => lhs P.R p P.lower P.upper g
  let r ← Proc.collective X.1
  let gbidx ← Proc.lift (argmin r.2)
  pure { X := r.1, gbest := r.1 gbidx, pbestfit := r.2, gfit := r.2 gbidx, pfit := r.2,
         caller := x0.map fun _ => r.1, evals := List.ofFn r.1, rng := X.2 }

/-- As `DE.stepSync` — /repo/stochopy/optimize/de/_de.py:314-351; the wrapper overwrites `U`. -/
def rankStep (P : Par σ K p n) (it : Nat) (s : State σ K p n) : Proc K p n (State σ K p n × Option Int) := do
  let U ← Proc.lift (candSync P s.X s.gbest s.rng)
  let w ← Proc.collective U.1
  let r ← Proc.lift (selectionSync it w.1 s.gbest s.X s.pbestfit P.maxiter P.xtol P.ftol (given w.2))
  pure ({ X := r.x, gbest := r.xbest, pbestfit := r.xfun, gfit := r.xbestfun, pfit := r.candfun,
          caller := s.caller.map fun _ => r.x, evals := s.evals ++ List.ofFn w.1, rng := U.2 }, r.status)

/-- `minimize(..., backend="mpi")` on one rank — /repo/stochopy/optimize/de/_de.py:13-301. -/
def rank [IntParts K] (env : Env) (R : Rng σ K) (fuel : Nat) (a : Args K) (g : σ) : Proc K a.p a.ndim (Output σ K a.p a.ndim) := do
  let strat ← Proc.lift (validate a)
  match a.fn with
  | none => .fail .typeError
  | some fn =>
    if env.mpi4py then do
      Proc.lift a.unpackBounds
      let cons ← Proc.lift (consMap a.constraints)
      let P : Par σ K a.p a.ndim :=
        { R := R, F := a.mutation, CR := a.recombination, strat := strat, cons := cons, lower := a.lower,
          upper := a.upper, maxiter := a.maxiter, xtol := a.xtol, ftol := a.ftol, obj := mpiObj env fn }
      let s0 ← rankInit P a.x0Pop (a.seeded R g)
      let r ← (alg P true).rankRun (rankStep P) a.cfg fuel s0
      pure { res := r.1, cbs := r.2.cbs, evals := r.2.s.evals, x0After := r.2.s.caller, rng := r.2.s.rng }
    else .fail .importError

/-- All ranks; `g` is the state of the generator of rank 0 and `gs` of the others. -/
def launch [IntParts K] (env : Env) (R : Rng σ K) (fuel : Nat) (a : Args K) (g : σ) (gs : Fin (env.mpiSize - 1) → σ) :
    Ending (Output σ K a.p a.ndim) (env.mpiSize - 1) :=
  mpirun (a.mpiValues env) (rank env R fuel a g) fun r => rank env R fuel a (gs r)

end DE

/-! ## `cpso` and `pso` -/

namespace CPSO

/-- As `CPSO.init` — /repo/stochopy/optimize/cpso/_cpso.py:219-230.  `pbest = X.copy()` (line 221) comes before the wrapper is called
(line 224) and overwrites `X`. -/
def rankInit (P : Par σ K n) (x0 : Option (Pop K p n)) (g : σ) : Proc K p n (State σ K p n) := do
  let X : Pop K p n × σ := match x0 with
    | some x => (x, g)
    | none => lhs P.R p P.lower P.upper g
  let r ← Proc.collective X.1
  let gbidx ← Proc.lift (argmin r.2)
  pure { X := r.1, V := fun _ _ => 0, pbest := X.1, gbest := r.1 gbidx, pbestfit := r.2, gfit := r.2 gbidx,
         pfit := r.2, caller := x0.map fun _ => r.1, aliased := x0.isSome, evals := List.ofFn r.1, rng := X.2 }

/-- As `CPSO.stepSync` — /repo/stochopy/optimize/cpso/_cpso.py:332-361; the wrapper overwrites `X`. -/
def rankStep (P : Par σ K n) (it : Nat) (s : State σ K p n) : Proc K p n (State σ K p n × Option Int) := do
  let d1 := drawMat P.R.rand p n s.rng
  let d2 := drawMat P.R.rand p n d1.2
  let m : Fin p → Vec K n × Vec K n := fun i =>
    mutation P (s.X i) (s.V i) (s.pbest i) s.gbest (d1.1 i) (d2.1 i)
  let w ← Proc.collective fun i => (m i).1
  let r ← Proc.lift (selectionSync it w.1 s.gbest s.pbest s.pbestfit P.maxiter P.xtol P.ftol (given w.2))
  pure ({ X := w.1, V := fun i => (m i).2, pbest := r.x, gbest := r.xbest, pbestfit := r.xfun, gfit := r.xbestfun,
          pfit := r.candfun, caller := s.caller, aliased := false, evals := s.evals ++ List.ofFn w.1, rng := d2.2 },
        r.status)

/-- `minimize(..., backend="mpi")` on one rank — /repo/stochopy/optimize/cpso/_cpso.py:12-321. -/
def rank [IntParts K] [NumFns K] (env : Env) (R : Rng σ K) (srt : Argsort K) (fuel : Nat) (a : Args K) (g : σ) :
    Proc K a.p a.ndim (Output σ K a.p a.ndim) := do
  Proc.lift (validate a)
  match a.fn with
  | none => .fail .typeError
  | some fn =>
    if env.mpi4py then do
      Proc.lift a.unpackBounds
      let cons ← Proc.lift (consMap a.constraints)
      let P : Par σ K a.ndim :=
        { R := R, argsort := srt, w := a.inertia, c1 := a.cognitivity, c2 := a.sociability, gamma := a.competitivity,
          cons := cons, lower := a.lower, upper := a.upper, maxiter := a.maxiter, xtol := a.xtol, ftol := a.ftol,
          obj := mpiObj env fn }
      let s0 ← rankInit P a.x0Pop (a.seeded R g)
      let r ← (alg P true).rankRun (rankStep P) a.cfg fuel s0
      pure { res := r.1, cbs := r.2.cbs, evals := r.2.s.evals, x0After := r.2.s.caller, rng := r.2.s.rng }
    else .fail .importError

def launch [IntParts K] [NumFns K] (env : Env) (R : Rng σ K) (srt : Argsort K) (fuel : Nat) (a : Args K) (g : σ)
    (gs : Fin (env.mpiSize - 1) → σ) : Ending (Output σ K a.p a.ndim) (env.mpiSize - 1) :=
  mpirun (a.mpiValues env) (rank env R srt fuel a g) fun r => rank env R srt fuel a (gs r)

end CPSO

/-- /repo/stochopy/optimize/pso/_pso.py:99-122 -/
def PSO.launch [IntParts K] [NumFns K] (env : Env) (R : Rng σ K) (srt : Argsort K) (fuel : Nat) (a : PSO.Args K) (g : σ)
    (gs : Fin (env.mpiSize - 1) → σ) : Ending (Output σ K a.p a.ndim) (env.mpiSize - 1) :=
  CPSO.launch env R srt fuel a.toCPSO g gs

/-! ## `na` -/

namespace NA

/-- As `NA.init` — /repo/stochopy/optimize/na/_na.py:169-184; the wrapper overwrites a temporary array. -/
def rankInit (P : Par σ K n) (x0 : Option (Pop K p n)) (g : σ) : Proc K p n (State σ K p n) := do
  let X0 : Pop K p n := match x0 with
    | some x => x
    | none => (lhs P.R p P.lower P.upper g).1
  let w ← Proc.collective fun i => unnormalize P.lower P.upper (normalize P.lower P.upper (X0 i))
  let s ← Proc.lift (init { P with obj := given w.2 } x0 g)
  pure { s with evals := List.ofFn w.1 }

/-- As `NA.step` — /repo/stochopy/optimize/na/_na.py:216-224; the wrapper overwrites a temporary array. -/
def rankStep (P : Par σ K n) (it : Nat) (s : State σ K p n) : Proc K p n (State σ K p n × Option Int) := do
  let X ← Proc.lift (mutation P.R P.argsort (spanMask P.lower P.upper) s.All p P.nr s.rng)
  let w ← Proc.collective fun i => unnormalize P.lower P.upper (X.1 i)
  let r ← Proc.lift (step { P with obj := given w.2 } it s)
  pure ({ r.1 with evals := s.evals ++ List.ofFn w.1 }, r.2)

/-- `minimize(..., backend="mpi")` on one rank — /repo/stochopy/optimize/na/_na.py:11-262. -/
def rank [IntParts K] (env : Env) (R : Rng σ K) (srt : Argsort K) (fuel : Nat) (a : Args K) (g : σ) :
    Proc K a.p a.ndim (Output σ K a.p a.ndim) := do
  Proc.lift (validate a)
  match a.fn with
  | none => .fail .typeError
  | some fn =>
    if env.mpi4py then do
      Proc.lift a.unpackBounds
      let P : Par σ K a.ndim :=
        { R := R, argsort := srt, nr := a.nr, lower := a.lower, upper := a.upper, maxiter := a.maxiter,
          xtol := a.xtol, ftol := a.ftol, obj := mpiObj env fn }
      let s0 ← rankInit P a.x0Pop (a.seeded R g)
      let r ← (alg P).rankRun (rankStep P) a.cfg fuel s0
      pure { res := r.1, cbs := r.2.cbs, evals := r.2.s.evals, x0After := r.2.s.caller, rng := r.2.s.rng }
    else .fail .importError

def launch [IntParts K] (env : Env) (R : Rng σ K) (srt : Argsort K) (fuel : Nat) (a : Args K) (g : σ)
    (gs : Fin (env.mpiSize - 1) → σ) : Ending (Output σ K a.p a.ndim) (env.mpiSize - 1) :=
  mpirun (a.mpiValues env) (rank env R srt fuel a g) fun r => rank env R srt fuel a (gs r)

end NA

end

section
variable {K σ S : Type} [Zero K] [One K] [Add K] [Sub K] [Mul K] [Div K] [Neg K] [NatCast K] [IntCast K] [Pow K ℕ] [ArrayOps K] [LinearOrder K] {p n : Nat}

/-! ## `cmaes` and `vdcma` -/

namespace Evo
variable [NumFns K] [IntParts K]

/-- The array passed to the wrapper — /repo/stochopy/optimize/cmaes/_cmaes.py:173 and 258, _constraints.py:28-32. -/
def points (P : Par K n) (arx : Pop K p n) : Pop K p n := fun i =>
  unstandardize P.lower P.upper (if P.penalized then clip (arx i) else arx i)

/-- As `Evo.body`; the wrapper overwrites a temporary array. -/
def rankBody (P : Par K n) (G : Gauss S K p n) (c : Cfg) (L : St S K p n) : Proc K p n (St S K p n × Gen K p n) := do
  let a ← Proc.lift (G.sample L.s)
  let w ← Proc.collective (points P a.1)
  let r ← Proc.lift (body { P with obj := given w.2 } G c L)
  pure ({ r.1 with evals := L.evals ++ List.ofFn w.1 }, r.2)

def rankLoop (P : Par K n) (G : Gauss S K p n) (c : Cfg) : Nat → St S K p n → Proc K p n (St S K p n × Gen K p n)
  | 0, _ => .fail .outOfFuel
  | fuel + 1, L => do
    let r ← rankBody P G c L
    if r.2.status.isSome then pure r else rankLoop P G c fuel r.1

def rankRun (P : Par K n) (G : Gauss S K p n) (c : Cfg) (rng : S → σ) (fuel : Nat) (s0 : S) :
    Proc K p n (Output σ K p n) := do
  if c.maxiter < 0 then .fail .valueError
  else do
    let r ← rankLoop P G c fuel { s := s0, it := 0, nfev := 0, pen := Pen.start n,
                                  arbest := List.replicate c.maxiter.toNat (.fin 0), rowsX := [], rowsF := [], cbs := [], evals := [] }
    let res ← Proc.lift (finish c r)
    pure { res := res, cbs := r.1.cbs, evals := r.1.evals, x0After := none, rng := rng r.1.s }

end Evo

/-- `minimize(..., backend="mpi")` on one rank — /repo/stochopy/optimize/cmaes/_cmaes.py:12-357. -/
def CMAES.rank [NumFns K] [IntParts K] (env : Env) (R : Rng σ K) (srt : Argsort K) (eigh : Eigh K) (fuel : Nat) (a : Evo.Args K)
    (junk : Vec K a.ndim) (g : σ) : Proc K a.p a.ndim (Output σ K a.p a.ndim) := do
  Proc.lift a.validate
  match a.fn with
  | none => .fail .typeError
  | some fn =>
    if env.mpi4py then do
      Proc.lift a.unpackBounds
      let pen ← Proc.lift (Evo.consMap a.constraints)
      let m ← Proc.lift (a.firstMean R (a.seeded R g))
      if h : 0 < a.ndim ∧ 0 < a.p ∧ 0 < a.mu ∧ a.mu ≤ a.p then
        let P : Par σ K a.p a.ndim := { R := R, srt := srt, eigh := eigh, mu := a.mu, hmu := h.2.2.2 }
        Evo.rankRun (a.par srt (mpiObj env fn) pen) (gauss P) a.cfg State.rng fuel (start m.1 junk a.sigma m.2)
      else .fail .unmodelled
    else .fail .importError

/-- `junk` and `junks` are the contents of the uninitialised arrays of the ranks. -/
def CMAES.launch [NumFns K] [IntParts K] (env : Env) (R : Rng σ K) (srt : Argsort K) (eigh : Eigh K) (fuel : Nat) (a : Evo.Args K)
    (junk : Vec K a.ndim) (g : σ) (junks : Fin (env.mpiSize - 1) → Vec K a.ndim) (gs : Fin (env.mpiSize - 1) → σ) :
    Ending (Output σ K a.p a.ndim) (env.mpiSize - 1) :=
  mpirun (a.mpiValues env) (rank env R srt eigh fuel a junk g) fun r => rank env R srt eigh fuel a (junks r) (gs r)

/-- `minimize(..., backend="mpi")` on one rank — /repo/stochopy/optimize/vdcma/_vdcma.py:13-423. -/
def VDCMA.rank [NumFns K] [IntParts K] (env : Env) (R : Rng σ K) (srt : Argsort K) (fuel : Nat) (a : Evo.Args K)
    (junk : Vec K a.ndim) (g : σ) : Proc K a.p a.ndim (Output σ K a.p a.ndim) := do
  Proc.lift a.validate
  match a.fn with
  | none => .fail .typeError
  | some fn =>
    if env.mpi4py then do
      Proc.lift a.unpackBounds
      let pen ← Proc.lift (Evo.consMap a.constraints)
      let m ← Proc.lift (a.firstMean R (a.seeded R g))
      if h : 0 < a.ndim ∧ 0 < a.p ∧ 0 < a.mu ∧ a.mu ≤ a.p then
        let P : Par σ K a.p a.ndim := { R := R, mu := a.mu, hmu := h.2.2.2 }
        Evo.rankRun (a.par srt (mpiObj env fn) pen) (gauss P) a.cfg State.rng fuel (start R m.1 junk a.sigma m.2)
      else .fail .unmodelled
    else .fail .importError

def VDCMA.launch [NumFns K] [IntParts K] (env : Env) (R : Rng σ K) (srt : Argsort K) (fuel : Nat) (a : Evo.Args K)
    (junk : Vec K a.ndim) (g : σ) (junks : Fin (env.mpiSize - 1) → Vec K a.ndim) (gs : Fin (env.mpiSize - 1) → σ) :
    Ending (Output σ K a.p a.ndim) (env.mpiSize - 1) :=
  mpirun (a.mpiValues env) (rank env R srt fuel a junk g) fun r => rank env R srt fuel a (junks r) (gs r)

end

end Stochopy
