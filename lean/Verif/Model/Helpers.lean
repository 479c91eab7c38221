import Verif.Model.PyDict

/-!
# Model of `stochopy/optimize/_helpers.py` and `stochopy/sample/_helpers.py`

Both modules have the same registry and the same dispatching function.  `V` is the type of Python values, `α` the type
of results.
-/

namespace Stochopy.Helpers

variable {V α : Type}

/-- A callable that takes keyword arguments only. -/
abbrev Callable (V α : Type) := Dict V → Except PyErr α

/-- `_optimizer_map` (/repo/stochopy/optimize/_helpers.py:8) and `_sampler_map` (/repo/stochopy/sample/_helpers.py:8). -/
abbrev Registry (V α : Type) := Dict (Callable V α)

/-- `register(name, minimize)` — /repo/stochopy/optimize/_helpers.py:39-41, /repo/stochopy/sample/_helpers.py:33-35. -/
def register (m : Registry V α) (name : String) (f : Callable V α) : Registry V α := Dict.set m name f

/-- The explicit keyword arguments — /repo/stochopy/optimize/_helpers.py:93, /repo/stochopy/sample/_helpers.py:82. -/
def explicit (fn bounds x0 args callback : V) : Dict V :=
  [("fun", fn), ("bounds", bounds), ("x0", x0), ("args", args), ("callback", callback)]

/-- `f(**d, **e)`: TypeError when a keyword is given twice. -/
def callKw (f : Callable V α) (d e : Dict V) : Except PyErr α :=
  if e.keys.any fun k => d.keys.contains k then .error .typeError else f (d ++ e)

/-- `minimize` — /repo/stochopy/optimize/_helpers.py:44-94; `sample` — /repo/stochopy/sample/_helpers.py:38-83.
`options = options if options else {}` (line 90 resp. 79): None and the empty dictionary are both falsy. -/
def dispatch (m : Registry V α) (fn bounds x0 args : V) (method : String) (options : Option (Dict V)) (callback : V) :
    Except PyErr α := do
  let options : Dict V := match options with
    | none => []
    | some d => d
  let f ← m.getItem method
  callKw f (explicit fn bounds x0 args callback) options

/-- A Python function with named parameters, some with defaults: unknown and missing keywords are TypeErrors. -/
def ofSig (sig : List (String × Option V)) (body : (String → Option V) → Except PyErr α) : Callable V α := fun kw =>
  if kw.keys.any fun k => !(sig.map Prod.fst).contains k then .error .typeError
  else if sig.any fun q => q.2.isNone && (kw.get? q.1).isNone then .error .typeError
  else body fun k => match kw.get? k with
    | some v => some v
    | none => (Dict.get? sig k).join

/-- Parameter names of the optimizers — /repo/stochopy/optimize/cmaes/_cmaes.py:12-30, cpso/_cpso.py:12-33,
de/_de.py:13-33, na/_na.py:11-27, pso/_pso.py:9-29, vdcma/_vdcma.py:13-31.  `fun` and `bounds` have no default.
In order of registration (/repo/stochopy/optimize/__init__.py:2-7; pso imports cpso, which is registered before). -/
def optimizers : List (String × List String) :=
  [("cmaes", ["fun", "bounds", "x0", "args", "maxiter", "popsize", "sigma", "muperc", "seed", "xtol", "ftol",
      "constraints", "workers", "backend", "return_all", "verbosity", "callback"]),
   ("cpso", ["fun", "bounds", "x0", "args", "maxiter", "popsize", "inertia", "cognitivity", "sociability",
      "competitivity", "seed", "xtol", "ftol", "constraints", "updating", "workers", "backend", "return_all", "verbosity",
      "callback"]),
   ("de", ["fun", "bounds", "x0", "args", "maxiter", "popsize", "mutation", "recombination", "strategy", "seed", "xtol",
      "ftol", "constraints", "updating", "workers", "backend", "return_all", "verbosity", "callback"]),
   ("na", ["fun", "bounds", "x0", "args", "maxiter", "popsize", "nrperc", "seed", "xtol", "ftol", "workers", "backend",
      "return_all", "verbosity", "callback"]),
   ("pso", ["fun", "bounds", "x0", "args", "maxiter", "popsize", "inertia", "cognitivity", "sociability", "seed", "xtol",
      "ftol", "constraints", "updating", "workers", "backend", "return_all", "verbosity", "callback"]),
   ("vdcma", ["fun", "bounds", "x0", "args", "maxiter", "popsize", "sigma", "muperc", "seed", "xtol", "ftol",
      "constraints", "workers", "backend", "return_all", "verbosity", "callback"])]

/-- Parameter names of the samplers — /repo/stochopy/sample/hmc/_hmc.py:11-25, mcmc/_mcmc.py:11-23. -/
def samplers : List (String × List String) :=
  [("hmc", ["fun", "bounds", "x0", "args", "maxiter", "nleap", "stepsize", "seed", "jac", "finite_diff_abs_step",
      "constraints", "return_all", "callback"]),
   ("mcmc", ["fun", "bounds", "x0", "args", "maxiter", "stepsize", "perc", "seed", "constraints", "return_all",
      "callback"])]

/-- The signature: `fun` and `bounds` are required, the others have the given defaults. -/
def signature (dflt : String → V) (names : List String) : List (String × Option V) :=
  names.map fun k => (k, if k = "fun" ∨ k = "bounds" then none else some (dflt k))

/-- The registry after importing the package: `dflt m k` is the default of parameter `k` of method `m`, `body m` what
the method does with its bound parameters. -/
def imported (methods : List (String × List String)) (dflt : String → String → V)
    (body : String → (String → Option V) → Except PyErr α) : Registry V α :=
  methods.foldl (fun m q => register m q.1 (ofSig (signature (dflt q.1) q.2) (body q.1))) []

end Stochopy.Helpers
