import Verif.Spec.Rotation
import Verif.Spec.Mirror
import Verif.Spec.Sampler
import Verif.Spec.Chain

/-!
# Rotated problems for the samplers (C100)

Independent of the algorithms.
-/

namespace Stochopy
open Spec
variable {n : Nat}

noncomputable section

open Classical in
/-- A map of points applied to the floats of a point; a point with an infinite or NaN coordinate is left alone. -/
def onFinite (ψ : Vec ℝ n → Vec ℝ n) (x : Vec (Val ℝ) n) : Vec (Val ℝ) n :=
  if h : Finite x then point (ψ fun j => (h j).choose) else x

/-- The box of a sampler. -/
def Sampling.Args.low (a : Sampling.Args ℝ) : Vec ℝ a.ndim := fun j => a.bounds.get [j, 0]
def Sampling.Args.high (a : Sampling.Args ℝ) : Vec ℝ a.ndim := fun j => a.bounds.get [j, 1]

/-- The turned problem: the objective turns its argument back, the starting point is turned, everything else is as before. -/
def Sampling.Args.turn (a : Sampling.Args ℝ) (Q : Matrix (Fin a.ndim) (Fin a.ndim) ℝ) : Sampling.Args ℝ :=
  { bounds := a.bounds, fn := a.fn.map fun f x => f (onFinite (Stochopy.turn a.low a.high Q.transpose) x),
    x0 := a.x0.map fun x => x.turn a.low a.high Q, maxiter := a.maxiter, stepsize := a.stepsize, seed := a.seed,
    constraints := a.constraints, returnAll := a.returnAll, callback := a.callback }

def MCMC.Args.turn (a : MCMC.Args ℝ) (Q : Matrix (Fin a.ndim) (Fin a.ndim) ℝ) : MCMC.Args ℝ :=
  { toArgs := a.toArgs.turn Q, perc := a.perc }

/-- Only for problems without a given gradient. -/
def HMC.Args.turn (a : HMC.Args ℝ) (Q : Matrix (Fin a.ndim) (Fin a.ndim) ℝ) : HMC.Args ℝ :=
  { toArgs := a.toArgs.turn Q, nleap := a.nleap, jac := none, fdStep := a.fdStep, extraArgs := a.extraArgs }

/-- From the state `T g` on, the numbers are those from the state `g` on, but every group of `n` normal numbers (each followed by one
uniform number) is turned by `Q`. -/
structure Rng.Turns {σ : Type} (R : Rng σ ℝ) (Q : Matrix (Fin n) (Fin n) ℝ) (T T' : σ → σ) : Prop where
  normals : ∀ g, drawVec R.randn n (T g) = (Q.mulVec (drawVec R.randn n g).1, T' (drawVec R.randn n g).2)
  rand : ∀ g, R.rand (T' g) = ((R.rand g).1, T (R.rand g).2)

end

end Stochopy
