import Verif.Spec.Symmetry

/-! # Spec: two runs that do the same until one of them stops -/

namespace Stochopy
variable {K σ : Type} {p n : Nat}

/-- The run `o` is the beginning of the run `o'`: the points evaluated by `o` are the first ones evaluated by `o'`, the callbacks of
the same iteration receive the same, the result of `o` is what `o'` has at that iteration, and if the runs are equally long they end
in the same state.  The values of the two runs become equal when `φ` is applied to those of `o` and `φ'` to those of `o'`. -/
structure Begins (φ φ' : Val K → Val K) (o o' : Output σ K p n) : Prop where
  evals : o.evals <+: o'.evals
  calls : ∀ b ∈ o.cbs, ∀ b' ∈ o'.cbs, b'.nit = b.nit →
    b'.X = b.X ∧ b'.x = b.x ∧ φ' b'.fval = φ b.fval ∧ b'.nfev = b.nfev
  result : ∀ b' ∈ o'.cbs, b'.nit = o.res.nit → b'.x = o.res.x ∧ φ' b'.fval = φ o.res.fval ∧ b'.nfev = o.res.nfev
  last : o'.res.nit = o.res.nit → o'.res.x = o.res.x ∧ φ' o'.res.fval = φ o.res.fval ∧ o'.res.nfev = o.res.nfev ∧
    o'.evals = o.evals ∧ o'.rng = o.rng ∧ o'.x0After = o.x0After

/-- The same of the recorded history. -/
structure BeginsRecord (φ φ' : Val K → Val K) (o o' : Output σ K p n) : Prop where
  xall : ∀ xs xs', o.res.xall = some xs → o'.res.xall = some xs' → xs <+: xs'
  funall : ∀ fs fs', o.res.funall = some fs → o'.res.funall = some fs' → fs.map (List.map φ) <+: fs'.map (List.map φ')

/-- The shorter of the two runs is the beginning of the longer one; the values of `o'` are those of `o` changed by `φ`. -/
def SameSearch (φ : Val K → Val K) (o o' : Output σ K p n) : Prop :=
  (o.res.nit ≤ o'.res.nit → Begins φ id o o') ∧ (o'.res.nit ≤ o.res.nit → Begins id φ o' o)

def SameRecords (φ : Val K → Val K) (o o' : Output σ K p n) : Prop :=
  (o.res.nit ≤ o'.res.nit → BeginsRecord φ id o o') ∧ (o'.res.nit ≤ o.res.nit → BeginsRecord id φ o' o)

/-- The options of `minimize` that say when to stop and what to report. -/
structure Reporting (K : Type) where
  maxiter : Int
  xtol : K
  ftol : Val K
  returnAll : Bool
  verbosity : K
  callback : Option Bool

/-- The same call with these options replaced. -/
def CommonArgs.report (a : CommonArgs K) (r : Reporting K) : CommonArgs K :=
  { a with maxiter := r.maxiter, xtol := r.xtol, ftol := r.ftol, returnAll := r.returnAll, verbosity := r.verbosity,
           callback := r.callback }

def DE.Args.report (a : DE.Args K) (r : Reporting K) : DE.Args K :=
  { toCommonArgs := a.toCommonArgs.report r, mutation := a.mutation, recombination := a.recombination, strategy := a.strategy,
    constraints := a.constraints, updating := a.updating }

def CPSO.Args.report (a : CPSO.Args K) (r : Reporting K) : CPSO.Args K :=
  { toCommonArgs := a.toCommonArgs.report r, inertia := a.inertia, cognitivity := a.cognitivity, sociability := a.sociability,
    competitivity := a.competitivity, constraints := a.constraints, updating := a.updating }

def PSO.Args.report (a : PSO.Args K) (r : Reporting K) : PSO.Args K :=
  { toCommonArgs := a.toCommonArgs.report r, inertia := a.inertia, cognitivity := a.cognitivity, sociability := a.sociability,
    constraints := a.constraints, updating := a.updating }

def NA.Args.report (a : NA.Args K) (r : Reporting K) : NA.Args K :=
  { toCommonArgs := a.toCommonArgs.report r, nrperc := a.nrperc }

def Evo.Args.report (a : Evo.Args K) (r : Reporting K) : Evo.Args K :=
  { toCommonArgs := a.toCommonArgs.report r, sigma := a.sigma, muperc := a.muperc, constraints := a.constraints }

/-- The same call with the values of the objective changed by `φ`; `ftol` stays. -/
def Evo.Args.revalue (a : Evo.Args K) (φ : Val K → Val K) : Evo.Args K :=
  { toCommonArgs := { a.toCommonArgs with fn := a.fn.map fun f x => φ (f x) }, sigma := a.sigma, muperc := a.muperc,
    constraints := a.constraints }

end Stochopy
