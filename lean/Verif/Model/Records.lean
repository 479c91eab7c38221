import Verif.Model.DE
import Verif.Model.CPSO
import Verif.Model.NA
import Verif.Model.CMAES
import Verif.Model.VDCMA

/-!
# Callbacks of optimizers that write into the history

With `return_all=True` the callback is given the views `xall[:it]` and `funall[:it]` of the arrays that are returned at the end
(/repo/stochopy/optimize/de/_de.py:240 and 285, cpso/_cpso.py:252 and 300, na/_na.py:206 and 246, cmaes/_cmaes.py:341, vdcma/_vdcma.py:407).
`w.x k h i j v` is what the `k`-th call (from 0), shown the history `h`, leaves in `xall[i, j]`, which held `v`; likewise `w.f` for `funall[i, j]`.
A view has the shape of the rows so far, so that writing in place changes neither the number nor the length of the rows.  The iterations are those of
the other models; after each call of the callback the rows are those it leaves.
-/

namespace Stochopy

variable {S K σ : Type} {p n : Nat}

/-- Rows of `xall` and of `funall`. -/
abbrev Hist (K : Type) (n : Nat) := List (List (Vec K n)) × List (List (Val K))

structure HistWrites (K : Type) (n : Nat) where
  x : Nat → Hist K n → Nat → Nat → Vec K n → Vec K n
  f : Nat → Hist K n → Nat → Nat → Val K → Val K

/-- The arrays after call `k` was shown `h`. -/
def HistWrites.on (w : HistWrites K n) (k : Nat) (h : Hist K n) : Hist K n :=
  (h.1.mapIdx fun i row => row.mapIdx (w.x k h i), h.2.mapIdx fun i row => row.mapIdx (w.f k h i))

section optimizers
variable [Zero K] [One K] [Add K] [Sub K] [Mul K] [Div K] [Neg K] [NatCast K] [IntCast K] [Pow K ℕ] [ArrayOps K] [LinearOrder K]

/-- `callback(X, res)` has returned. -/
def Loop.written (c : Cfg) (w : HistWrites K n) (L : Loop S K p n) : Loop S K p n :=
  if c.hasCallback then
    let h := w.on (L.cbs.length - 1) (L.rowsX, L.rowsF)
    { L with rowsX := h.1, rowsF := h.2 }
  else L

/-- `while not converged` — /repo/stochopy/optimize/de/_de.py:247-287, cpso/_cpso.py:259-307, na/_na.py:213-248. -/
def Alg.loopH (A : Alg S K p n) (w : HistWrites K n) (c : Cfg) : Nat → Loop S K p n → Except PyErr (Loop S K p n)
  | 0, _ => .error .outOfFuel
  | fuel + 1, L => do
    let r ← A.body c L
    if r.2 then .ok (r.1.written c w) else A.loopH w c fuel (r.1.written c w)

/-- Everything after the initial evaluation. -/
def Alg.runH (A : Alg S K p n) (w : HistWrites K n) (c : Cfg) (fuel : Nat) (s0 : S) : Except PyErr (Result K n × Loop S K p n) := do
  let L0 ← A.start c s0
  let L ← A.loopH w c fuel (L0.written c w)
  let res ← A.finish c L
  .ok (res, L)

/-- `de` — /repo/stochopy/optimize/de/_de.py:13-301. -/
def DE.minimizeH [IntParts K] (env : Env) (R : Rng σ K) (fuel : Nat) (a : DE.Args K) (w : HistWrites K a.ndim) (g : σ) :
    Except PyErr (Output σ K a.p a.ndim) := do
  let strat ← DE.validate a
  match a.fn with
  | none => .error .typeError
  | some fn =>
    optimizer env fn a.sync a.workers a.backend fun obj => do
      a.unpackBounds
      let cons ← DE.consMap a.constraints
      let P : DE.Par σ K a.p a.ndim :=
        { R := R, F := a.mutation, CR := a.recombination, strat := strat, cons := cons, lower := a.lower,
          upper := a.upper, maxiter := a.maxiter, xtol := a.xtol, ftol := a.ftol, obj := obj }
      let s0 ← DE.init P a.x0Pop (a.seeded R g)
      let r ← (DE.alg P a.sync).runH w a.cfg fuel s0
      .ok { res := r.1, cbs := r.2.cbs, evals := r.2.s.evals, x0After := r.2.s.caller, rng := r.2.s.rng }

/-- `cpso` — /repo/stochopy/optimize/cpso/_cpso.py:12-321. -/
def CPSO.minimizeH [IntParts K] [NumFns K] (env : Env) (R : Rng σ K) (srt : Argsort K) (fuel : Nat) (a : CPSO.Args K)
    (w : HistWrites K a.ndim) (g : σ) :
    Except PyErr (Output σ K a.p a.ndim) := do
  CPSO.validate a
  match a.fn with
  | none => .error .typeError
  | some fn =>
    optimizer env fn a.sync a.workers a.backend fun obj => do
      a.unpackBounds
      let cons ← CPSO.consMap a.constraints
      let P : CPSO.Par σ K a.ndim :=
        { R := R, argsort := srt, w := a.inertia, c1 := a.cognitivity, c2 := a.sociability,
          gamma := a.competitivity, cons := cons, lower := a.lower, upper := a.upper, maxiter := a.maxiter,
          xtol := a.xtol, ftol := a.ftol, obj := obj }
      let s0 ← CPSO.init (p := a.p) P a.x0Pop (a.seeded R g)
      let r ← (CPSO.alg P a.sync).runH w a.cfg fuel s0
      .ok { res := r.1, cbs := r.2.cbs, evals := r.2.s.evals, x0After := r.2.s.caller, rng := r.2.s.rng }

/-- `pso` — /repo/stochopy/optimize/pso/_pso.py:9-122. -/
def PSO.minimizeH [IntParts K] [NumFns K] (env : Env) (R : Rng σ K) (srt : Argsort K) (fuel : Nat) (a : PSO.Args K)
    (w : HistWrites K a.toCPSO.ndim) (g : σ) :
    Except PyErr (Output σ K a.toCPSO.p a.toCPSO.ndim) :=
  CPSO.minimizeH env R srt fuel a.toCPSO w g

/-- `na` — /repo/stochopy/optimize/na/_na.py:11-262. -/
def NA.minimizeH [IntParts K] (env : Env) (R : Rng σ K) (srt : Argsort K) (fuel : Nat) (a : NA.Args K)
    (w : HistWrites K a.ndim) (g : σ) :
    Except PyErr (Output σ K a.p a.ndim) := do
  NA.validate a
  match a.fn with
  | none => .error .typeError
  | some fn =>
    optimizer env fn true a.workers a.backend fun obj => do
      a.unpackBounds
      let P : NA.Par σ K a.ndim :=
        { R := R, argsort := srt, nr := a.nr, lower := a.lower, upper := a.upper, maxiter := a.maxiter,
          xtol := a.xtol, ftol := a.ftol, obj := obj }
      let s0 ← NA.init (p := a.p) P a.x0Pop (a.seeded R g)
      let r ← (NA.alg P).runH w a.cfg fuel s0
      .ok { res := r.1, cbs := r.2.cbs, evals := r.2.s.evals, x0After := r.2.s.caller, rng := r.2.s.rng }

namespace Evo
variable [NumFns K] [IntParts K]

/-- `callback(X, res)` has returned. -/
def St.written (c : Cfg) (w : HistWrites K n) (L : St S K p n) : St S K p n :=
  if c.hasCallback then
    let h := w.on (L.cbs.length - 1) (L.rowsX, L.rowsF)
    { L with rowsX := h.1, rowsF := h.2 }
  else L

/-- `while not converged` — /repo/stochopy/optimize/cmaes/_cmaes.py:229-343, vdcma/_vdcma.py:236-409. -/
def loopH (P : Par K n) (G : Gauss S K p n) (w : HistWrites K n) (c : Cfg) : Nat → St S K p n → Except PyErr (St S K p n × Gen K p n)
  | 0, _ => .error .outOfFuel
  | fuel + 1, L => do
    let r ← body P G c L
    if r.2.status.isSome then .ok (r.1.written c w, r.2) else loopH P G w c fuel (r.1.written c w)

/-- The frame — /repo/stochopy/optimize/cmaes/_cmaes.py:212-357, vdcma/_vdcma.py:220-423. -/
def runH (P : Par K n) (G : Gauss S K p n) (w : HistWrites K n) (c : Cfg) (rng : S → σ) (fuel : Nat) (s0 : S) :
    Except PyErr (Output σ K p n) :=
  if c.maxiter < 0 then .error .valueError
  else do
    let r ← loopH P G w c fuel
      { s := s0, it := 0, nfev := 0, pen := Pen.start n, arbest := List.replicate c.maxiter.toNat (.fin 0), rowsX := [], rowsF := [],
        cbs := [], evals := [] }
    let res ← finish c r
    .ok { res := res, cbs := r.1.cbs, evals := r.1.evals, x0After := none, rng := rng r.1.s }

end Evo

/-- `cmaes` — /repo/stochopy/optimize/cmaes/_cmaes.py:12-357. -/
def CMAES.minimizeH [NumFns K] [IntParts K] (env : Env) (R : Rng σ K) (srt : Argsort K) (eigh : Eigh K) (fuel : Nat) (a : Evo.Args K)
    (w : HistWrites K a.ndim) (junk : Vec K a.ndim) (g : σ) :
    Except PyErr (Output σ K a.p a.ndim) := do
  a.validate
  match a.fn with
  | none => .error .typeError
  | some fn =>
    optimizer env fn true a.workers a.backend fun obj => do
      a.unpackBounds
      let pen ← Evo.consMap a.constraints
      let m ← a.firstMean R (a.seeded R g)
      if h : 0 < a.ndim ∧ 0 < a.p ∧ 0 < a.mu ∧ a.mu ≤ a.p then
        Evo.runH (a.par srt obj pen) (CMAES.gauss { R := R, srt := srt, eigh := eigh, mu := a.mu, hmu := h.2.2.2 }) w a.cfg
          CMAES.State.rng fuel (CMAES.start m.1 junk a.sigma m.2)
      else .error .unmodelled

/-- `vdcma` — /repo/stochopy/optimize/vdcma/_vdcma.py:13-423. -/
def VDCMA.minimizeH [NumFns K] [IntParts K] (env : Env) (R : Rng σ K) (srt : Argsort K) (fuel : Nat) (a : Evo.Args K)
    (w : HistWrites K a.ndim) (junk : Vec K a.ndim) (g : σ) :
    Except PyErr (Output σ K a.p a.ndim) := do
  a.validate
  match a.fn with
  | none => .error .typeError
  | some fn =>
    optimizer env fn true a.workers a.backend fun obj => do
      a.unpackBounds
      let pen ← Evo.consMap a.constraints
      let m ← a.firstMean R (a.seeded R g)
      if h : 0 < a.ndim ∧ 0 < a.p ∧ 0 < a.mu ∧ a.mu ≤ a.p then
        Evo.runH (a.par srt obj pen) (VDCMA.gauss { R := R, mu := a.mu, hmu := h.2.2.2 }) w a.cfg
          VDCMA.State.rng fuel (VDCMA.start R m.1 junk a.sigma m.2)
      else .error .unmodelled

end optimizers

end Stochopy
