import Verif.Model.CMAES
import Verif.Model.VDCMA

/-!
# `sigma` as an array in `cmaes` and `vdcma`

`sigma` is documented as "scalar or array_like" (/repo/stochopy/optimize/cmaes/_cmaes.py:48, vdcma/_vdcma.py:49).  Everywhere else
in the model it is a number.  Here it may also be a list or a one-dimensional array of floats.

* `if sigma <= 0.0` (cmaes line 109, vdcma line 110) raises TypeError for a list and ValueError for an array with more than one entry:
  its truth value is ambiguous.  (The empty array is not modelled: the answer depends on the version of NumPy.)
* An array with one entry is accepted and acts as that entry in every formula, by broadcasting.
* `insigma = sigma` (cmaes line 222, vdcma line 229) makes no copy and `sigma *= ...` (cmaes line 298, vdcma line 303) works in
  place.  So `insigma`, the initial step size of `converge`, always is the current step size, and the array of the caller is overwritten.
-/

namespace Stochopy.Evo

/-- What is passed as `sigma`. -/
inductive SigmaArg (K : Type) where
  | scalar (s : K)
  | list (l : List K)
  | array (l : List K)

variable {K σ S : Type} [Zero K] [One K] [Add K] [Sub K] [Mul K] [Div K] [Neg K] [NatCast K] [IntCast K] [Pow K ℕ]
  [ArrayOps K] [LinearOrder K]

/-- `if sigma <= 0.0: raise ValueError()` — cmaes lines 109-110, vdcma lines 110-111. -/
def SigmaArg.check : SigmaArg K → Except PyErr Unit
  | .scalar s => if s ≤ 0 then .error .valueError else .ok ()
  | .list _ => .error .typeError
  | .array [] => .error .unmodelled
  | .array [s] => if s ≤ 0 then .error .valueError else .ok ()
  | .array (_ :: _ :: _) => .error .valueError

/-- The step size of the first generation. -/
def SigmaArg.first : SigmaArg K → K
  | .scalar s => s
  | .list l => l.headD 0
  | .array l => l.headD 0

/-- `insigma` at the call of `converge`, when `sigma` is `cur` — cmaes lines 222, 298, 323-324. -/
def SigmaArg.insigma (a : SigmaArg K) (cur : K) : K :=
  match a with
  | .array _ => cur
  | a => a.first

/-- The caller's object after the run, when `sigma` is `cur` at its end. -/
def SigmaArg.left (a : SigmaArg K) (cur : K) : SigmaArg K :=
  match a with
  | .array _ => .array [cur]
  | a => a

/-- Argument checks in code order — /repo/stochopy/optimize/cmaes/_cmaes.py:96-121, vdcma/_vdcma.py:97-122. -/
def Args.validateSigma (a : Args K) (sg : SigmaArg K) : Except PyErr Unit :=
  if a.fn.isNone then .error .typeError
  else if a.bounds.ndim ≠ 2 then .error .valueError
  else if a.badX0 then .error .valueError
  else do
    sg.check
    if ¬ (0 < a.muperc ∧ a.muperc ≤ 1) then .error .valueError
    else if a.badCallback then .error .valueError
    else .ok ()

section
variable [NumFns K] [IntParts K] {p n : Nat}

/-- One iteration: `converge` is called with `ins` of the current state as `insigma`; the rest is `body`. -/
def bodyBy (ins : S → K) (P : Par K n) (G : Gauss S K p n) (c : Cfg) (L : St S K p n) : Except PyErr (St S K p n × Gen K p n) := do
  let r ← body P G c L
  .ok (r.1, { r.2 with
    status := converge r.1.it c.maxiter (G.mean r.1.s) (G.old r.1.s) r.1.arbest r.2.fit (r.2.fit r.2.best) (G.sigma r.1.s)
      (ins r.1.s) P.ilim (G.pc r.1.s) P.xtol P.ftol (G.diagConv r.1.s) (G.axes r.1.s) })

def loopBy (ins : S → K) (P : Par K n) (G : Gauss S K p n) (c : Cfg) : Nat → St S K p n → Except PyErr (St S K p n × Gen K p n)
  | 0, _ => .error .outOfFuel
  | fuel + 1, L => do
    let r ← bodyBy ins P G c L
    if r.2.status.isSome then .ok r else loopBy ins P G c fuel r.1

/-- `run` with `insigma` from `sg`; also returns what is left in the caller's `sigma`. -/
def runBy (sg : SigmaArg K) (P : Par K n) (G : Gauss S K p n) (c : Cfg) (rng : S → σ) (fuel : Nat) (s0 : S) :
    Except PyErr (Output σ K p n × SigmaArg K) := do
  if c.maxiter < 0 then .error .valueError
  else do
    let r ← loopBy (fun s => sg.insigma (G.sigma s)) P G c fuel
      { s := s0, it := 0, nfev := 0, pen := Pen.start n, arbest := List.replicate c.maxiter.toNat (.fin 0), rowsX := [], rowsF := [],
        cbs := [], evals := [] }
    let res ← finish c r
    .ok ({ res := res, cbs := r.1.cbs, evals := r.1.evals, x0After := none, rng := rng r.1.s }, sg.left (G.sigma r.1.s))

end

end Stochopy.Evo

namespace Stochopy

open Evo

variable {K σ : Type} [Zero K] [One K] [Add K] [Sub K] [Mul K] [Div K] [Neg K] [NatCast K] [IntCast K] [Pow K ℕ]
  [ArrayOps K] [LinearOrder K] [NumFns K] [IntParts K]

/-- `cmaes.minimize(..., sigma=sg)` — /repo/stochopy/optimize/cmaes/_cmaes.py:12-357; `a.sigma` is not used. -/
def CMAES.minimizeSigma (env : Env) (R : Rng σ K) (srt : Argsort K) (eigh : Eigh K) (fuel : Nat) (a : Evo.Args K) (sg : SigmaArg K)
    (junk : Vec K a.ndim) (g : σ) : Except PyErr (Output σ K a.p a.ndim × SigmaArg K) := do
  a.validateSigma sg
  match a.fn with
  | none => .error .typeError
  | some fn =>
    optimizer env fn true a.workers a.backend fun obj => do
      a.unpackBounds
      let pen ← consMap a.constraints
      let m ← a.firstMean R (a.seeded R g)
      if h : 0 < a.ndim ∧ 0 < a.p ∧ 0 < a.mu ∧ a.mu ≤ a.p then
        let P : Par σ K a.p a.ndim := { R := R, srt := srt, eigh := eigh, mu := a.mu, hmu := h.2.2.2 }
        runBy sg (a.par srt obj pen) (gauss P) a.cfg State.rng fuel (start m.1 junk sg.first m.2)
      else .error .unmodelled

/-- `vdcma.minimize(..., sigma=sg)` — /repo/stochopy/optimize/vdcma/_vdcma.py:13-423; `a.sigma` is not used. -/
def VDCMA.minimizeSigma (env : Env) (R : Rng σ K) (srt : Argsort K) (fuel : Nat) (a : Evo.Args K) (sg : SigmaArg K)
    (junk : Vec K a.ndim) (g : σ) : Except PyErr (Output σ K a.p a.ndim × SigmaArg K) := do
  a.validateSigma sg
  match a.fn with
  | none => .error .typeError
  | some fn =>
    optimizer env fn true a.workers a.backend fun obj => do
      a.unpackBounds
      let pen ← consMap a.constraints
      let m ← a.firstMean R (a.seeded R g)
      if h : 0 < a.ndim ∧ 0 < a.p ∧ 0 < a.mu ∧ a.mu ≤ a.p then
        let P : Par σ K a.p a.ndim := { R := R, mu := a.mu, hmu := h.2.2.2 }
        runBy sg (a.par srt obj pen) (gauss P) a.cfg State.rng fuel (start R m.1 junk sg.first m.2)
      else .error .unmodelled

end Stochopy
