import Verif.Spec.Mirror
import Mathlib.Logic.Equiv.Fin.Basic

/-!
# The order of the variables (C104)

`reorder π` lists the coordinates of a point in another order.  Independent of the algorithms.
-/

namespace Stochopy
variable {K σ α : Type} {p n : Nat}

/-- The same point with the variables in another order: variable `π j` comes at place `j`. -/
def reorder (π : Equiv.Perm (Fin n)) (x : Fin n → α) : Fin n → α := fun j => x (π j)

/-- A permutation of `0, …, n - 1` as a function of natural numbers. -/
def natPerm (π : Equiv.Perm (Fin n)) (k : Nat) : Nat := if h : k < n then (π ⟨k, h⟩).val else k

/-- A user supplied array with the places along one axis in another order. -/
def NdArr.reorder (a : NdArr K) (π : Equiv.Perm (Fin n)) (axis : Nat) : NdArr K :=
  { shape := a.shape, get := fun l => a.get (l.modify axis (natPerm π)) }

/-- The same problem with the variables in another order: so are the bounds and the starting points, and the objective puts its
argument back into the old order. -/
def CommonArgs.reorder (a : CommonArgs K) (π : Equiv.Perm (Fin a.ndim)) (axis : Nat) : CommonArgs K :=
  { bounds := a.bounds.reorder π 0, fn := a.fn.map fun f x => f (Stochopy.reorder π.symm x), x0 := a.x0.map fun x => x.reorder π axis,
    maxiter := a.maxiter, popsize := a.popsize, seed := a.seed, xtol := a.xtol, ftol := a.ftol, workers := a.workers,
    backend := a.backend, returnAll := a.returnAll, verbosity := a.verbosity, callback := a.callback }

def DE.Args.reorder (a : DE.Args K) (π : Equiv.Perm (Fin a.ndim)) : DE.Args K :=
  { toCommonArgs := a.toCommonArgs.reorder π 1, mutation := a.mutation, recombination := a.recombination,
    strategy := a.strategy, constraints := a.constraints, updating := a.updating }

def CPSO.Args.reorder (a : CPSO.Args K) (π : Equiv.Perm (Fin a.ndim)) : CPSO.Args K :=
  { toCommonArgs := a.toCommonArgs.reorder π 1, inertia := a.inertia, cognitivity := a.cognitivity,
    sociability := a.sociability, competitivity := a.competitivity, constraints := a.constraints, updating := a.updating }

def PSO.Args.reorder (a : PSO.Args K) (π : Equiv.Perm (Fin a.ndim)) : PSO.Args K :=
  { toCommonArgs := a.toCommonArgs.reorder π 1, inertia := a.inertia, cognitivity := a.cognitivity,
    sociability := a.sociability, constraints := a.constraints, updating := a.updating }

def NA.Args.reorder (a : NA.Args K) (π : Equiv.Perm (Fin a.ndim)) : NA.Args K :=
  { toCommonArgs := a.toCommonArgs.reorder π 1, nrperc := a.nrperc }

/-- Here `x0` is a point. -/
def Evo.Args.reorder (a : Evo.Args K) (π : Equiv.Perm (Fin a.ndim)) : Evo.Args K :=
  { toCommonArgs := a.toCommonArgs.reorder π 0, sigma := a.sigma, muperc := a.muperc, constraints := a.constraints }

/-- A sequence with one step size per variable. -/
def Sampling.StepArg.reorder [Zero K] (s : Sampling.StepArg K) (π : Equiv.Perm (Fin n)) : Sampling.StepArg K :=
  match s with
  | .scalar b k => .scalar b k
  | .seq kind v => .seq kind (if v.length = n then List.ofFn fun j => v.getD (π j).val 0 else v)

def Sampling.Args.reorder [Zero K] (a : Sampling.Args K) (π : Equiv.Perm (Fin a.ndim)) : Sampling.Args K :=
  { bounds := a.bounds.reorder π 0, fn := a.fn.map fun f x => f (Stochopy.reorder π.symm x), x0 := a.x0.map fun x => x.reorder π 0,
    maxiter := a.maxiter, stepsize := a.stepsize.reorder π, seed := a.seed, constraints := a.constraints, returnAll := a.returnAll,
    callback := a.callback }

def MCMC.Args.reorder [Zero K] (a : MCMC.Args K) (π : Equiv.Perm (Fin a.ndim)) : MCMC.Args K :=
  { toArgs := a.toArgs.reorder π, perc := a.perc }

/-- The gradient, if one is given, is that of the objective with the variables in the new order. -/
def HMC.Args.reorder [Zero K] (a : HMC.Args K) (π : Equiv.Perm (Fin a.ndim)) : HMC.Args K :=
  { toArgs := a.toArgs.reorder π, nleap := a.nleap,
    jac := a.jac.map (Option.map fun f x => Stochopy.reorder π (f (Stochopy.reorder π.symm x))), fdStep := a.fdStep,
    extraArgs := a.extraArgs }

/-- From the state `T g` on, a group of `n` draws with `d` holds the same items as from `g` on, dealt to the places in the other
order; the generator is then in the state `T'` of the one it would be in. -/
def Deals (d : σ → α × σ) (π : Equiv.Perm (Fin n)) (T T' : σ → σ) : Prop :=
  ∀ g, drawVec d n (T g) = (reorder π (drawVec d n g).1, T' (drawVec d n g).2)

/-- Everything observable about a completed call of `minimize`, with the variables in another order. -/
def Output.reorder (o : Output σ K p n) (π : Equiv.Perm (Fin n)) (T : σ → σ) : Output σ K p n :=
  { o.map id (Stochopy.reorder π) (Stochopy.reorder π) with rng := T o.rng }

end Stochopy
