import Verif.Model.DE
import Verif.Model.CPSO
import Verif.Model.NA
import Verif.Model.Evo

/-! # Spec: two runs that differ by a change of the values or of the coordinates only -/

namespace Stochopy
variable {K σ : Type} {p n : Nat}

/-- A strictly increasing change of the objective values.  (NaN compares with nothing, so NaN goes to NaN.) -/
def Rising [LE K] (φ : Val K → Val K) : Prop := ∀ a b, φ a ≤ φ b ↔ a ≤ b

/-- The recorded points: `ψ0` is applied to the first record, `ψ` to the others. -/
def mapRows (ψ0 ψ : Vec K n → Vec K n) : List (List (Vec K n)) → List (List (Vec K n))
  | [] => []
  | r :: rs => r.map ψ0 :: rs.map (List.map ψ)

/-- A callback call with the values changed by `φ` and the points by `ψ`. -/
def CB.map (φ : Val K → Val K) (ψ0 ψ : Vec K n → Vec K n) (c : CB K p n) : CB K p n :=
  { X := fun i => ψ (c.X i), x := ψ c.x, fval := φ c.fval, nfev := c.nfev, nit := c.nit,
    xall := c.xall.map (mapRows ψ0 ψ), funall := c.funall.map (List.map (List.map φ)) }

def Result.map (φ : Val K → Val K) (ψ0 ψ : Vec K n → Vec K n) (r : Result K n) : Result K n :=
  { x := ψ r.x, success := r.success, status := r.status, message := r.message, fval := φ r.fval, nfev := r.nfev,
    nit := r.nit, xall := r.xall.map (mapRows ψ0 ψ), funall := r.funall.map (List.map (List.map φ)) }

/-- Everything observable about a run, with the values changed by `φ` and the points by `ψ`. -/
def Output.map (φ : Val K → Val K) (ψ0 ψ : Vec K n → Vec K n) (o : Output σ K p n) : Output σ K p n :=
  { res := o.res.map φ ψ0 ψ, cbs := o.cbs.map (CB.map φ ψ0 ψ), evals := o.evals.map ψ,
    x0After := o.x0After.map fun x i => ψ (x i), rng := o.rng }

/-- The same problem with the objective values changed by `φ` (and the threshold `ftol` with them). -/
def CommonArgs.revalue (a : CommonArgs K) (φ : Val K → Val K) : CommonArgs K :=
  { a with fn := a.fn.map fun f x => φ (f x), ftol := φ a.ftol }

def DE.Args.revalue (a : DE.Args K) (φ : Val K → Val K) : DE.Args K :=
  { toCommonArgs := a.toCommonArgs.revalue φ, mutation := a.mutation, recombination := a.recombination, strategy := a.strategy,
    constraints := a.constraints, updating := a.updating }

def CPSO.Args.revalue (a : CPSO.Args K) (φ : Val K → Val K) : CPSO.Args K :=
  { toCommonArgs := a.toCommonArgs.revalue φ, inertia := a.inertia, cognitivity := a.cognitivity, sociability := a.sociability,
    competitivity := a.competitivity, constraints := a.constraints, updating := a.updating }

def PSO.Args.revalue (a : PSO.Args K) (φ : Val K → Val K) : PSO.Args K :=
  { toCommonArgs := a.toCommonArgs.revalue φ, inertia := a.inertia, cognitivity := a.cognitivity, sociability := a.sociability,
    constraints := a.constraints, updating := a.updating }

def NA.Args.revalue (a : NA.Args K) (φ : Val K → Val K) : NA.Args K :=
  { toCommonArgs := a.toCommonArgs.revalue φ, nrperc := a.nrperc }

/-- What is needed of `np.argsort`: it decides by comparisons, so that it cannot see a change of the values that keeps their
order. -/
def Comparing (srt : Argsort K) (φ : Val K → Val K) : Prop := ∀ m (v : Fin m → Val K), srt m (fun i => φ (v i)) = srt m v

variable [Field K]

/-- A change of origin and units of every coordinate: coordinate `j` is counted in units `1 / s j` from the origin `- t j / s j`. -/
def affine (s t : Nat → K) (x : Vec K n) : Vec K n := fun j => s j * x j + t j

/-- A user supplied array in the new coordinates; `axis` is the axis that runs over the coordinates. -/
def NdArr.affine (a : NdArr K) (s t : Nat → K) (axis : Nat) : NdArr K :=
  { shape := a.shape, get := fun l => s (l.getD axis 0) * a.get l + t (l.getD axis 0) }

/-- The same problem in the new coordinates: the bounds and the starting population are converted, and the objective converts its
argument back. -/
def CommonArgs.affine (a : CommonArgs K) (s t : Nat → K) (xtol : K) (axis : Nat) : CommonArgs K :=
  { bounds := a.bounds.affine s t 0, fn := a.fn.map fun f x => f fun j => (x j - t j) / s j, x0 := a.x0.map fun x => x.affine s t axis,
    maxiter := a.maxiter, popsize := a.popsize, seed := a.seed, xtol := xtol, ftol := a.ftol, workers := a.workers,
    backend := a.backend, returnAll := a.returnAll, verbosity := a.verbosity, callback := a.callback }

/-- All coordinates are counted in units `1 / c`; so is `xtol`, a distance between points. -/
def DE.Args.affine (a : DE.Args K) (c : K) (t : Nat → K) : DE.Args K :=
  { toCommonArgs := a.toCommonArgs.affine (fun _ => c) t (c * a.xtol) 1, mutation := a.mutation, recombination := a.recombination,
    strategy := a.strategy, constraints := a.constraints, updating := a.updating }

def CPSO.Args.affine (a : CPSO.Args K) (c : K) (t : Nat → K) : CPSO.Args K :=
  { toCommonArgs := a.toCommonArgs.affine (fun _ => c) t (c * a.xtol) 1, inertia := a.inertia, cognitivity := a.cognitivity,
    sociability := a.sociability, competitivity := a.competitivity, constraints := a.constraints, updating := a.updating }

def PSO.Args.affine (a : PSO.Args K) (c : K) (t : Nat → K) : PSO.Args K :=
  { toCommonArgs := a.toCommonArgs.affine (fun _ => c) t (c * a.xtol) 1, inertia := a.inertia, cognitivity := a.cognitivity,
    sociability := a.sociability, constraints := a.constraints, updating := a.updating }

/-- `na` measures `xtol` in the unit cube, so that every coordinate can have its own units. -/
def NA.Args.affine (a : NA.Args K) (s t : Nat → K) : NA.Args K :=
  { toCommonArgs := a.toCommonArgs.affine s t a.xtol 1, nrperc := a.nrperc }

/-- So do `cmaes` and `vdcma` (in the cube `[-1, 1]^n`); `x0` is a point. -/
def Evo.Args.affine (a : Evo.Args K) (s t : Nat → K) : Evo.Args K :=
  { toCommonArgs := a.toCommonArgs.affine s t a.xtol 0, sigma := a.sigma, muperc := a.muperc, constraints := a.constraints }

end Stochopy
