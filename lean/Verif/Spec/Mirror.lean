import Verif.Spec.Symmetry
import Verif.Model.HMC
import Verif.Model.MCMC

/-!
# Mirror images (C98)

`mirror t` reflects every coordinate: `x ↦ t - x`.  Independent of the algorithms.
-/

namespace Stochopy
variable {K σ : Type} [Field K] {n : Nat}

/-- The reflection that exchanges `0` and `t j` in coordinate `j`. -/
def mirror (t : Nat → K) (x : Vec K n) : Vec K n := fun j => t j - x j

/-- The reflected box: the upper bound becomes the lower one. -/
def NdArr.mirrorBounds (b : NdArr K) (t : Nat → K) : NdArr K :=
  { shape := b.shape, get := fun l => t (l.getD 0 0) - b.get [l.getD 0 0, 1 - l.getD 1 0] }

/-- Reflected points; `axis` is the axis that runs over the coordinates. -/
def NdArr.mirror (a : NdArr K) (t : Nat → K) (axis : Nat) : NdArr K :=
  { shape := a.shape, get := fun l => t (l.getD axis 0) - a.get l }

/-- The reflected problem: box and starting points are reflected, and the objective reflects its argument back. -/
def CommonArgs.mirror (a : CommonArgs K) (t : Nat → K) (axis : Nat) : CommonArgs K :=
  { bounds := a.bounds.mirrorBounds t, fn := a.fn.map fun f x => f (Stochopy.mirror t x), x0 := a.x0.map fun x => x.mirror t axis,
    maxiter := a.maxiter, popsize := a.popsize, seed := a.seed, xtol := a.xtol, ftol := a.ftol, workers := a.workers,
    backend := a.backend, returnAll := a.returnAll, verbosity := a.verbosity, callback := a.callback }

def DE.Args.mirror (a : DE.Args K) (t : Nat → K) : DE.Args K :=
  { toCommonArgs := a.toCommonArgs.mirror t 1, mutation := a.mutation, recombination := a.recombination,
    strategy := a.strategy, constraints := a.constraints, updating := a.updating }

def CPSO.Args.mirror (a : CPSO.Args K) (t : Nat → K) : CPSO.Args K :=
  { toCommonArgs := a.toCommonArgs.mirror t 1, inertia := a.inertia, cognitivity := a.cognitivity,
    sociability := a.sociability, competitivity := a.competitivity, constraints := a.constraints, updating := a.updating }

def PSO.Args.mirror (a : PSO.Args K) (t : Nat → K) : PSO.Args K :=
  { toCommonArgs := a.toCommonArgs.mirror t 1, inertia := a.inertia, cognitivity := a.cognitivity,
    sociability := a.sociability, constraints := a.constraints, updating := a.updating }

def NA.Args.mirror (a : NA.Args K) (t : Nat → K) : NA.Args K :=
  { toCommonArgs := a.toCommonArgs.mirror t 1, nrperc := a.nrperc }

/-- Here `x0` is a point. -/
def Evo.Args.mirror (a : Evo.Args K) (t : Nat → K) : Evo.Args K :=
  { toCommonArgs := a.toCommonArgs.mirror t 0, sigma := a.sigma, muperc := a.muperc, constraints := a.constraints }

/-- The same with floats. -/
def vmirror (t : Nat → K) (x : Vec (Val K) n) : Vec (Val K) n := fun j => .fin (t j) - x j

def Sampling.Args.mirror (a : Sampling.Args K) (t : Nat → K) : Sampling.Args K :=
  { bounds := a.bounds.mirrorBounds t, fn := a.fn.map fun f x => f (vmirror t x), x0 := a.x0.map fun x => x.mirror t 0,
    maxiter := a.maxiter, stepsize := a.stepsize, seed := a.seed, constraints := a.constraints, returnAll := a.returnAll,
    callback := a.callback }

def MCMC.Args.mirror (a : MCMC.Args K) (t : Nat → K) : MCMC.Args K := { toArgs := a.toArgs.mirror t, perc := a.perc }

/-- The gradient, if one is given, is that of the reflected objective. -/
def HMC.Args.mirror (a : HMC.Args K) (t : Nat → K) : HMC.Args K :=
  { toArgs := a.toArgs.mirror t, nleap := a.nleap,
    jac := a.jac.map (Option.map fun f x => fun j => .fin 0 - f (vmirror t x) j), fdStep := a.fdStep, extraArgs := a.extraArgs }

/-- Floats in other units and from another origin. -/
def vaffine [LinearOrder K] (s t : Nat → K) (x : Vec (Val K) n) : Vec (Val K) n := fun j => .fin (s j) * x j + .fin (t j)

/-- The same problem in other coordinates; step sizes are relative to the box. -/
def Sampling.Args.affine [LinearOrder K] (a : Sampling.Args K) (s t : Nat → K) : Sampling.Args K :=
  { bounds := a.bounds.affine s t 0, fn := a.fn.map fun f x => f fun j => Val.divBy (x j - .fin (t j)) (s j),
    x0 := a.x0.map fun x => x.affine s t 0, maxiter := a.maxiter, stepsize := a.stepsize, seed := a.seed,
    constraints := a.constraints, returnAll := a.returnAll, callback := a.callback }

def MCMC.Args.affine [LinearOrder K] (a : MCMC.Args K) (s t : Nat → K) : MCMC.Args K :=
  { toArgs := a.toArgs.affine s t, perc := a.perc }

/-- The step of the numerical gradient is a length; a given gradient is one of the new function of the new coordinates. -/
def HMC.Args.affine [LinearOrder K] (a : HMC.Args K) (c : K) (t : Nat → K) : HMC.Args K :=
  { toArgs := a.toArgs.affine (fun _ => c) t, nleap := a.nleap,
    jac := a.jac.map (Option.map fun f x => fun j => Val.divBy (f (fun j => Val.divBy (x j - .fin (t j)) c) j) c),
    fdStep := c * a.fdStep, extraArgs := a.extraArgs }

/-- The observable results of a sampler with the points changed by `ψ` and the generator by `T`. -/
def Sampling.CB.map (ψ : Vec (Val K) n → Vec (Val K) n) (c : Sampling.CB K n) : Sampling.CB K n :=
  { xk := ψ c.xk, x := ψ c.x, fval := c.fval, nit := c.nit, acceptRatio := c.acceptRatio,
    xall := c.xall.map (List.map ψ), funall := c.funall }

def Sampling.Output.map (ψ : Vec (Val K) n → Vec (Val K) n) (T : σ → σ) (o : Sampling.Output σ K n) : Sampling.Output σ K n :=
  { x := ψ o.x, fval := o.fval, nfev := o.nfev, nit := o.nit, acceptRatio := o.acceptRatio, xall := o.xall.map (List.map ψ),
    funall := o.funall, cbs := o.cbs.map (Sampling.CB.map ψ), evals := o.evals.map ψ, rng := T o.rng }

/-- In the state `T g` the generator continues with the opposite of every normal number that it continues with in the state `g`,
and with the image under `ρ` of every uniform one. -/
structure Rng.Mirrors (R : Rng σ K) (T : σ → σ) (ρ : K → K) : Prop where
  randn : ∀ g, R.randn (T g) = (-(R.randn g).1, T (R.randn g).2)
  rand : ∀ g, R.rand (T g) = (ρ (R.rand g).1, T (R.rand g).2)

/-- The mirror image of a completed call of `minimize`. -/
def Output.mirror {p : Nat} (o : Output σ K p n) (t : Nat → K) (T : σ → σ) : Output σ K p n :=
  { o.map id (Stochopy.mirror t) (Stochopy.mirror t) with rng := T o.rng }

end Stochopy
