import Verif.Model.VDCMA
import Verif.Model.CMAES

/-!
# The first generation of `cmaes` and `vdcma` in floats that may be NaN or infinite

`Evo.Args.firstMean` gives up (`.unmodelled`) when `x0` is given and the bounds of a variable coincide, because `standardize` then
divides by zero.  NumPy does not: `0.0 / 0.0` is NaN and `c / 0.0` is infinite, with a warning.  Here the first generation is
computed with these rules.  Sources: /repo/stochopy/optimize/cmaes/_cmaes.py:168-174, 180, 229-239 and
/repo/stochopy/optimize/cmaes/_constraints.py:29-32; vdcma/_vdcma.py:169-175, 181, 236-255 and the same `Penalize`.
-/

namespace Stochopy.Evo

variable {K : Type} [Zero K] [One K] [Add K] [Sub K] [Mul K] [Div K] [Neg K] [NatCast K] [LinearOrder K] {p n : Nat}

/-- `standardize(x0)` — cmaes lines 168-170, 180. -/
def standardizeV (lower upper x : Vec K n) : Vec (Val K) n := fun j =>
  Val.divBy (.fin (x j - 1 / 2 * (upper j + lower j))) (1 / 2 * (upper j - lower j))

/-- `unstandardize` — cmaes line 171. -/
def unstandardizeV (lower upper : Vec K n) (x : Vec (Val K) n) : Vec (Val K) n := fun j =>
  x j * .fin (1 / 2 * (upper j - lower j)) + .fin (1 / 2 * (upper j + lower j))

/-- Clipping — _constraints.py lines 30-31: comparisons with NaN are false. -/
def clipV (x : Vec (Val K) n) : Vec (Val K) n := fun j =>
  let y := if x j < .fin (-1) then .fin (-1) else x j
  if .fin 1 < y then .fin 1 else y

/-- The points at which the objective is evaluated first: `xmean + steps`, clipped under `Penalize` — cmaes lines 229-239. -/
def firstPoints (lower upper : Vec K n) (penalized : Bool) (x : Vec K n) (steps : Pop K p n) : Pop (Val K) p n := fun i =>
  let y : Vec (Val K) n := fun j => standardizeV lower upper x j + .fin (steps i j)
  unstandardizeV lower upper (if penalized then clipV y else y)

end Stochopy.Evo

namespace Stochopy
variable {K σ : Type} [Zero K] [One K] [Add K] [Sub K] [Mul K] [Div K] [Neg K] [NatCast K] [ArrayOps K] [LinearOrder K]

/-- `sigma * np.dot(B, D * np.random.randn(ndim))` with the initial `B` and `D` — cmaes lines 199-200, 232. -/
def CMAES.firstSteps (R : Rng σ K) (p n : Nat) (sigma : K) (g : σ) : Pop K p n := fun i j =>
  sigma * ArrayOps.dot ((1 : Matrix (Fin n) (Fin n) K) j) fun k => 1 * (drawMat R.randn p n g).1 i k

/-- `sigma * ary` with the initial `dvec` and `vvec`, without an injected direction — vdcma lines 207-208, 239-253. -/
def VDCMA.firstSteps [NumFns K] (R : Rng σ K) (p n : Nat) (sigma : K) (g : σ) : Pop K p n := fun i j =>
  let v := drawVec R.randn n g
  sigma * VDCMA.spread (fun _ => 1) (fun j => v.1 j / NumFns.sqrt (n : K)) ((drawMat R.randn p n v.2).1 i) j

end Stochopy
