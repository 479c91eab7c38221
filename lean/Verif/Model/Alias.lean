import Verif.Model.DE
import Verif.Model.CPSO
import Verif.Model.NA

/-!
# Arrays and references

The callback is called with the array that the name `X` refers to, not with a copy (/repo/stochopy/optimize/de/_de.py:242 and
287, cpso/_cpso.py:254 and 302; `na` passes the new array `unnormalize(X)`, na/_na.py:208 and 248).  If the callback keeps
what it is given, later writes to that array are visible to it.  The frame of `Driver.lean` carries values only; here a
memory runs along with it: the arrays that `X` has been bound to, and which of them the callback has been given.
-/

namespace Stochopy

/-- The arrays that `X` has been bound to, with their present contents, the current one last; `kept` are the positions in that
list of the arrays that the callback was called with, in the order of the calls. -/
structure Mem (K : Type) (p n : Nat) where
  arrays : List (Pop K p n)
  kept : List Nat

namespace Mem
variable {K : Type} {p n : Nat}

/-- `X = <new array>` -/
def bind (m : Mem K p n) (X : Pop K p n) : Mem K p n := { m with arrays := m.arrays ++ [X] }
/-- `X[...] = ...` -/
def write (m : Mem K p n) (X : Pop K p n) : Mem K p n := { m with arrays := m.arrays.dropLast ++ [X] }
/-- `callback(X, res)`, if there is a callback -/
def call (m : Mem K p n) (hasCallback : Bool) : Mem K p n :=
  if hasCallback then { m with kept := m.kept ++ [m.arrays.length - 1] } else m

/-- The present contents of the arrays that the callback was given. -/
def contents (m : Mem K p n) : List (Pop K p n) := m.kept.filterMap (m.arrays[·]?)

/-- The first array and the first call. -/
def start (X : Pop K p n) (hasCallback : Bool) : Mem K p n := Mem.call { arrays := [X], kept := [] } hasCallback

end Mem

variable {K σ S : Type} [Zero K] [One K] [Add K] [Sub K] [Mul K] [Div K] [Neg K] [NatCast K] [IntCast K] [Pow K ℕ] [ArrayOps K] [LinearOrder K]

/-- The frame with a memory.  `fresh`: the generation binds `X` to a new array; otherwise it writes into the current one. What is
done after the callback (the restarts of `cpso`) writes into the current array. -/
def Alg.withMem {p n : Nat} (A : Alg S K p n) (fresh hasCallback : Bool) : Alg (S × Mem K p n) K p n :=
  { step := fun it t => do
      let r ← A.step it t.1
      let m := if fresh then t.2.bind (A.cbX r.1) else t.2.write (A.cbX r.1)
      .ok ((r.1, m.call hasCallback), r.2)
    post := fun it t => (A.post it t.1, t.2.write (A.cbX (A.post it t.1)))
    cbX := fun t => A.cbX t.1
    best := fun t => A.best t.1
    bestFun := fun t => A.bestFun t.1
    rec0X := fun t => A.rec0X t.1
    rec0Best := fun t => A.rec0Best t.1
    recX := fun t => A.recX t.1
    pfit := fun t => A.pfit t.1 }

namespace DE

/-- `de` with its memory.  `selection_sync` (/repo/stochopy/optimize/_common.py:129) and `selection_async` (line 170) write the
improved rows into `X`, which is never bound again. -/
def deMem {p n : Nat} (P : Par σ K p n) (sync : Bool) (c : Cfg) (fuel : Nat) (x0 : Option (Pop K p n)) (g : σ) :
    Except PyErr (Output σ K p n × Mem K p n) := do
  let s0 ← init P x0 g
  let r ← ((alg P sync).withMem false c.hasCallback).run c fuel (s0, Mem.start s0.X c.hasCallback)
  .ok ({ res := r.1, cbs := r.2.cbs, evals := r.2.s.1.evals, x0After := r.2.s.1.caller, rng := r.2.s.1.rng }, r.2.s.2)

/-- `minimize` with its memory — /repo/stochopy/optimize/de/_de.py:13-173. -/
def minimizeMem [IntParts K] (env : Env) (R : Rng σ K) (fuel : Nat) (a : Args K) (g : σ) :
    Except PyErr (Output σ K a.p a.ndim × Mem K a.p a.ndim) := do
  let strat ← validate a
  match a.fn with
  | none => .error .typeError
  | some fn =>
    optimizer env fn a.sync a.workers a.backend fun obj => do
      a.unpackBounds
      let cons ← consMap a.constraints
      deMem { R := R, F := a.mutation, CR := a.recombination, strat := strat, cons := cons, lower := a.lower,
              upper := a.upper, maxiter := a.maxiter, xtol := a.xtol, ftol := a.ftol, obj := obj }
        a.sync a.cfg fuel a.x0Pop (a.seeded R g)

end DE

namespace CPSO

/-- `cpso` with its memory.  `pso_sync` binds `X` to the new array that the constraint handler returns
(/repo/stochopy/optimize/cpso/_cpso.py:354, _constraints.py:8 and 56), `pso_async` writes row by row (_cpso.py:388), and `restart`
writes into the current array (line 421). -/
def cpsoMem [IntParts K] [NumFns K] {p n : Nat} (P : Par σ K n) (sync : Bool) (c : Cfg) (fuel : Nat) (x0 : Option (Pop K p n))
    (g : σ) : Except PyErr (Output σ K p n × Mem K p n) := do
  let s0 ← init P x0 g
  let r ← ((alg P sync).withMem sync c.hasCallback).run c fuel (s0, Mem.start s0.X c.hasCallback)
  .ok ({ res := r.1, cbs := r.2.cbs, evals := r.2.s.1.evals, x0After := r.2.s.1.caller, rng := r.2.s.1.rng }, r.2.s.2)

/-- `minimize` with its memory — /repo/stochopy/optimize/cpso/_cpso.py:12-179. -/
def minimizeMem [IntParts K] [NumFns K] (env : Env) (R : Rng σ K) (srt : Argsort K) (fuel : Nat) (a : Args K)
    (g : σ) : Except PyErr (Output σ K a.p a.ndim × Mem K a.p a.ndim) := do
  validate a
  match a.fn with
  | none => .error .typeError
  | some fn =>
    optimizer env fn a.sync a.workers a.backend fun obj => do
      a.unpackBounds
      let cons ← consMap a.constraints
      cpsoMem { R := R, argsort := srt, w := a.inertia, c1 := a.cognitivity, c2 := a.sociability,
                gamma := a.competitivity, cons := cons, lower := a.lower, upper := a.upper, maxiter := a.maxiter,
                xtol := a.xtol, ftol := a.ftol, obj := obj }
        a.sync a.cfg fuel a.x0Pop (a.seeded R g)

end CPSO

/-- `minimize` of `pso` with its memory — /repo/stochopy/optimize/pso/_pso.py:9-122. -/
def PSO.minimizeMem [IntParts K] [NumFns K] (env : Env) (R : Rng σ K) (srt : Argsort K) (fuel : Nat) (a : PSO.Args K)
    (g : σ) : Except PyErr (Output σ K a.p a.ndim × Mem K a.p a.ndim) :=
  CPSO.minimizeMem env R srt fuel a.toCPSO g

namespace NA

/-- `na` with the memory of the arrays `unnormalize(X)`: a new one for every call of the callback
(/repo/stochopy/optimize/na/_na.py:161, 208 and 248). -/
def naMem {p n : Nat} (P : Par σ K n) (c : Cfg) (fuel : Nat) (x0 : Option (Pop K p n)) (g : σ) :
    Except PyErr (Output σ K p n × Mem K p n) := do
  let s0 ← init P x0 g
  let r ← ((alg P).withMem true c.hasCallback).run c fuel (s0, Mem.start ((alg P).cbX s0) c.hasCallback)
  .ok ({ res := r.1, cbs := r.2.cbs, evals := r.2.s.1.evals, x0After := r.2.s.1.caller, rng := r.2.s.1.rng }, r.2.s.2)

/-- `minimize` with its memory — /repo/stochopy/optimize/na/_na.py:11-131. -/
def minimizeMem [IntParts K] (env : Env) (R : Rng σ K) (srt : Argsort K) (fuel : Nat) (a : Args K) (g : σ) :
    Except PyErr (Output σ K a.p a.ndim × Mem K a.p a.ndim) := do
  validate a
  match a.fn with
  | none => .error .typeError
  | some fn =>
    optimizer env fn true a.workers a.backend fun obj => do
      a.unpackBounds
      naMem { R := R, argsort := srt, nr := a.nr, lower := a.lower, upper := a.upper, maxiter := a.maxiter,
              xtol := a.xtol, ftol := a.ftol, obj := obj }
        a.cfg fuel a.x0Pop (a.seeded R g)

end NA
end Stochopy
