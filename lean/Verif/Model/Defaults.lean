import Verif.Model.DE
import Verif.Model.CPSO
import Verif.Model.NA
import Verif.Model.Evo

/-!
# Default arguments

The arguments of an optimizer called with only `fun` and `bounds`.
-/

namespace Stochopy
variable {K : Type} [Field K] [LinearOrder K]

/-- Defaults shared by the population optimizers — /repo/stochopy/optimize/de/_de.py:16-32, cpso/_cpso.py:15-32,
pso/_pso.py:12-28, na/_na.py:14-25, cmaes/_cmaes.py:14-30, vdcma/_vdcma.py:15-31. -/
def defaultCommon (bounds : NdArr K) (fn : Vec K bounds.len → Val K) : CommonArgs K :=
  { bounds := bounds, fn := some fn, x0 := none, maxiter := 100, popsize := 10, seed := none, xtol := 1 / 100000000,
    ftol := .fin (1 / 100000000), workers := 1, backend := none, returnAll := false, verbosity := 1, callback := none }

/-- /repo/stochopy/optimize/de/_de.py:13-33. -/
def DE.defaults (bounds : NdArr K) (fn : Vec K bounds.len → Val K) : DE.Args K :=
  { defaultCommon bounds fn with mutation := 5 / 10, recombination := 9 / 10, strategy := "best1bin",
                                 constraints := none, updating := "immediate" }

/-- /repo/stochopy/optimize/cpso/_cpso.py:12-33. -/
def CPSO.defaults (bounds : NdArr K) (fn : Vec K bounds.len → Val K) : CPSO.Args K :=
  { defaultCommon bounds fn with inertia := 7298 / 10000, cognitivity := 149618 / 100000,
                                 sociability := 149618 / 100000, competitivity := some 1, constraints := none,
                                 updating := "immediate" }

/-- /repo/stochopy/optimize/pso/_pso.py:9-29. -/
def PSO.defaults (bounds : NdArr K) (fn : Vec K bounds.len → Val K) : PSO.Args K :=
  { defaultCommon bounds fn with inertia := 7298 / 10000, cognitivity := 149618 / 100000,
                                 sociability := 149618 / 100000, constraints := none, updating := "immediate" }

/-- /repo/stochopy/optimize/na/_na.py:11-27; `callback=True` (line 26) is neither None nor callable. -/
def NA.defaults (bounds : NdArr K) (fn : Vec K bounds.len → Val K) : NA.Args K :=
  { defaultCommon bounds fn with nrperc := 5 / 10, callback := some false }

/-- /repo/stochopy/optimize/cmaes/_cmaes.py:12-30, vdcma/_vdcma.py:13-31. -/
def Evo.defaults (bounds : NdArr K) (fn : Vec K bounds.len → Val K) : Evo.Args K :=
  { defaultCommon bounds fn with sigma := 1 / 10, muperc := 5 / 10, constraints := none }

end Stochopy
