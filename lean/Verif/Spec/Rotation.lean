import Mathlib.Analysis.SpecialFunctions.Sqrt
import Verif.Spec.Box
import Verif.Spec.Gauss

/-!
# Rotated problems (C99)

Independent of the algorithms.
-/

namespace Stochopy
open Spec
variable {p n : Nat}

noncomputable section

/-- Turns `x` by `Q` about the middle of the box, lengths being measured in half widths of the box. -/
def turn (lower upper : Vec ℝ n) (Q : Matrix (Fin n) (Fin n) ℝ) (x : Vec ℝ n) : Vec ℝ n := fun j =>
  (lower j + upper j) / 2 + (upper j - lower j) / 2 *
    ∑ k, Q j k * ((x k - (lower k + upper k) / 2) / ((upper k - lower k) / 2))

/-- A turned point. -/
def NdArr.turn (x : NdArr ℝ) (lower upper : Vec ℝ n) (Q : Matrix (Fin n) (Fin n) ℝ) : NdArr ℝ :=
  { shape := x.shape, get := fun l =>
      if h : l.getD 0 0 < n then Stochopy.turn lower upper Q (fun j => x.get [j]) ⟨l.getD 0 0, h⟩ else x.get l }

/-- The rotated problem: the objective turns its argument back, the starting point is turned, everything else is as before. -/
def Evo.Args.turn (a : Evo.Args ℝ) (Q : Matrix (Fin a.ndim) (Fin a.ndim) ℝ) : Evo.Args ℝ :=
  { bounds := a.bounds, fn := a.fn.map fun f x => f (Stochopy.turn (lo a.toCommonArgs) (hi a.toCommonArgs) Q.transpose x),
    x0 := a.x0.map fun x => x.turn (lo a.toCommonArgs) (hi a.toCommonArgs) Q,
    maxiter := a.maxiter, popsize := a.popsize, seed := a.seed, xtol := a.xtol, ftol := a.ftol, workers := a.workers,
    backend := a.backend, returnAll := a.returnAll, verbosity := a.verbosity, callback := a.callback, sigma := a.sigma,
    muperc := a.muperc, constraints := a.constraints }

/-- The normal numbers of generation `k`, when every generation takes `n` of them for each of `p` individuals. -/
def Rng.normals {σ : Type} (R : Rng σ ℝ) (p n : Nat) (g : σ) (k : Nat) : Fin p → Vec ℝ n :=
  (drawMat R.randn p n ((fun g => (drawMat R.randn p n g).2)^[k] g)).1

/-- The numbers of `z` are those of generation `k` of a run, turned by a matrix that depends on the earlier generations. -/
def TurnedBy (U : List (Fin p → Vec ℝ n) → Matrix (Fin n) (Fin n) ℝ) (z z' : Nat → Fin p → Vec ℝ n) : Prop :=
  ∀ k i, z' k i = (U ((List.range k).map z)).mulVec (z k i)

/-- The second run is the first one turned, until one of the two ends.  The rules -2, -3, -6 and -8 for ending a run look at single
coordinates; a run that ends by another rule is not shorter than the other run. -/
structure SameTurned {σ τ : Type} (ψ : Vec ℝ n → Vec ℝ n) (o : Output σ ℝ p n) (o' : Output τ ℝ p n) : Prop where
  points : ∀ k, k < o.res.nit → k < o'.res.nit → ∀ i : Fin p, ∃ x, o.evals[k * p + i.val]? = some x ∧
    o'.evals[k * p + i.val]? = some (ψ x)
  result : o'.res.nit = o.res.nit → o'.res.x = ψ o.res.x ∧ o'.res.fval = o.res.fval
  stop : o.res.status ∈ [-1, 0, 1, -4, -5, -7] → o'.res.nit ≤ o.res.nit
  stop' : o'.res.status ∈ [-1, 0, 1, -4, -5, -7] → o.res.nit ≤ o'.res.nit

end

end Stochopy
