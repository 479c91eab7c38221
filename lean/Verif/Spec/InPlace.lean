import Verif.Spec.Run
import Verif.Model.Sampling

/-!
# Vocabulary for objectives that write into their argument (C103)

`fn y` is the value the objective returns for `y`, `wr y` what the array it was called with holds afterwards.
-/

namespace Stochopy.Spec

variable {X V : Type}

/-- The objective does not change any of these points. -/
def LeavesAlone (wr : X → X) (evals : List X) : Prop := ∀ y ∈ evals, wr y = y

/-- `v` is the value returned for a point `y` of the list, and `x` is `y` or what the objective left in its place. -/
def Touched (fn : X → V) (wr : X → X) (evals : List X) (x : X) (v : V) : Prop :=
  ∃ y ∈ evals, v = fn y ∧ (x = wr y ∨ x = y)

variable {σ K : Type} [LinearOrder K] {p n : Nat}

/-- The reported value was returned for a point that is reported, or that the objective turned into the reported one. -/
def ReportsTouched (fn : Vec K n → Val K) (wr : Vec K n → Vec K n) (o : Output σ K p n) : Prop :=
  Touched fn wr o.evals o.res.x o.res.fval

/-- No value returned in the run is below the reported one. -/
def LeastOfRun (fn : Vec K n → Val K) (o : Output σ K p n) : Prop := ∀ y ∈ o.evals, o.res.fval ≤ fn y

/-- The values returned in the run are numbers. -/
def Numbers (fn : Vec K n → Val K) (o : Output σ K p n) : Prop := ∀ y ∈ o.evals, fn y ≠ .nan

/-- A sampler's history and result: recorded values were returned for the recorded points, or for points that the objective
turned into them. -/
structure SamplesTouched (fn : Vec (Val K) n → Val K) (wr : Vec (Val K) n → Vec (Val K) n) (o : Sampling.Output σ K n) : Prop where
  recorded : ∀ xs fs, o.xall = some xs → o.funall = some fs → xs.length = fs.length ∧ ∀ q ∈ xs.zip fs, Touched fn wr o.evals q.1 q.2
  result : Touched fn wr o.evals o.x o.fval ∨ o.fval = .pinf

end Stochopy.Spec
