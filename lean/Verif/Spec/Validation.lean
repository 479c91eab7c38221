import Verif.Spec.Evolution
import Verif.Model.DE
import Verif.Model.CPSO
import Verif.Model.NA

/-!
# Vocabulary: valid calls and misuse

Which argument combinations are valid, and which exception which misuse leads to; stated in terms of shapes, ranges
and names only.
-/

namespace Stochopy.Spec

variable {K : Type} [AddZeroClass K] [One K] [Sub K] [Mul K] [Div K] [Neg K] [NatCast K] [IntCast K] [Pow K ℕ] [ArrayOps K] [LinearOrder K]

/-- Valid arguments as far as all population optimizers agree. -/
structure ValidCommon (env : Env) (a : CommonArgs K) : Prop where
  objective : a.fn.isSome
  bounds : a.bounds.shape = [a.bounds.len, 2]
  x0 : ∀ x, a.x0 = some x → x.shape = [a.popsize.toNat, a.bounds.len]
  popsize : 2 ≤ a.popsize
  callback : a.callback ≠ some false
  history : a.returnAll = true → 2 ≤ a.maxiter ∧ a.verbosity ≤ 1
  mpi : a.backend = some "mpi" → env.mpi4py = true

/-- `e` is a justified exception. -/
def MisuseCommon (env : Env) (a : CommonArgs K) : PyErr → Prop
  | .typeError => a.fn = none
  | .valueError => a.bounds.shape ≠ [a.bounds.len, 2] ∨
      (∃ x, a.x0 = some x ∧ x.shape ≠ [a.popsize.toNat, a.bounds.len]) ∨ a.popsize < 2 ∨ a.callback = some false ∨
      (a.returnAll = true ∧ (a.maxiter < 0 ∨ 1 < a.verbosity))
  | .indexError => a.returnAll = true ∧ a.maxiter < 2
  | .importError => a.backend = some "mpi" ∧ env.mpi4py = false
  | _ => False

/-- Valid arguments for 'de'. -/
structure ValidDE (env : Env) (a : DE.Args K) : Prop extends ValidCommon env a.toCommonArgs where
  mutation : 0 ≤ a.mutation ∧ a.mutation ≤ 2
  recombination : 0 ≤ a.recombination ∧ a.recombination ≤ 1
  updating : a.updating ∈ ["immediate", "deferred"]
  strategy : a.strategy ∈ ["rand1bin", "rand2bin", "best1bin", "best2bin"]
  constraints : a.constraints ∈ [none, some "Random"]
  size : (needed a.strategy : Int) ≤ a.popsize
  dim : 0 < a.bounds.len

def MisuseDE (env : Env) (a : DE.Args K) (e : PyErr) : Prop :=
  MisuseCommon env a.toCommonArgs e ∨
  (e = .valueError ∧ (¬ (0 ≤ a.mutation ∧ a.mutation ≤ 2) ∨ ¬ (0 ≤ a.recombination ∧ a.recombination ≤ 1) ∨
    a.updating ∉ ["immediate", "deferred"] ∨ a.bounds.len = 0)) ∨
  (e = .keyError ∧ (a.strategy ∉ ["rand1bin", "rand2bin", "best1bin", "best2bin"] ∨
    a.constraints ∉ [none, some "Random"])) ∨
  (e = .indexError ∧ a.popsize < needed a.strategy)

/-- The misuse that the documentation of 'de' names. -/
def DocumentedDE (a : DE.Args K) : Prop :=
  a.bounds.shape ≠ [a.bounds.len, 2] ∨ (∃ x, a.x0 = some x ∧ x.shape ≠ [a.popsize.toNat, a.bounds.len]) ∨
  a.popsize < 2 ∨ a.callback = some false ∨ ¬ (0 ≤ a.mutation ∧ a.mutation ≤ 2) ∨
  ¬ (0 ≤ a.recombination ∧ a.recombination ≤ 1) ∨ a.updating ∉ ["immediate", "deferred"] ∨
  a.strategy ∉ ["rand1bin", "rand2bin", "best1bin", "best2bin"] ∨ a.constraints ∉ [none, some "Random"]

/-- Valid arguments for 'cpso' ('pso' is 'cpso' without competitivity). -/
structure ValidCPSO (env : Env) (a : CPSO.Args K) : Prop extends ValidCommon env a.toCommonArgs where
  inertia : 0 ≤ a.inertia ∧ a.inertia ≤ 1
  cognitivity : 0 ≤ a.cognitivity ∧ a.cognitivity ≤ 4
  sociability : 0 ≤ a.sociability ∧ a.sociability ≤ 4
  competitivity : ∀ gm, a.competitivity = some gm → 0 ≤ gm ∧ gm ≤ 2
  updating : a.updating ∈ ["immediate", "deferred"]
  constraints : a.constraints ∈ [none, some "Shrink"]

def MisuseCPSO (env : Env) (a : CPSO.Args K) (e : PyErr) : Prop :=
  MisuseCommon env a.toCommonArgs e ∨
  (e = .valueError ∧ (¬ (0 ≤ a.inertia ∧ a.inertia ≤ 1) ∨ ¬ (0 ≤ a.cognitivity ∧ a.cognitivity ≤ 4) ∨
    ¬ (0 ≤ a.sociability ∧ a.sociability ≤ 4) ∨ (∃ gm, a.competitivity = some gm ∧ ¬ (0 ≤ gm ∧ gm ≤ 2)) ∨
    a.updating ∉ ["immediate", "deferred"])) ∨
  (e = .keyError ∧ a.constraints ∉ [none, some "Shrink"])

def DocumentedCPSO (a : CPSO.Args K) : Prop :=
  a.bounds.shape ≠ [a.bounds.len, 2] ∨ (∃ x, a.x0 = some x ∧ x.shape ≠ [a.popsize.toNat, a.bounds.len]) ∨
  a.popsize < 2 ∨ a.callback = some false ∨ ¬ (0 ≤ a.inertia ∧ a.inertia ≤ 1) ∨
  ¬ (0 ≤ a.cognitivity ∧ a.cognitivity ≤ 4) ∨ ¬ (0 ≤ a.sociability ∧ a.sociability ≤ 4) ∨
  (∃ gm, a.competitivity = some gm ∧ ¬ (0 ≤ gm ∧ gm ≤ 2)) ∨ a.updating ∉ ["immediate", "deferred"] ∨
  a.constraints ∉ [none, some "Shrink"]

/-- Valid arguments for 'na'. -/
structure ValidNA (env : Env) (a : NA.Args K) : Prop extends ValidCommon env a.toCommonArgs where
  nrperc : 0 < a.nrperc ∧ a.nrperc ≤ 1

def MisuseNA (env : Env) (a : NA.Args K) (e : PyErr) : Prop :=
  MisuseCommon env a.toCommonArgs e ∨ (e = .valueError ∧ ¬ (0 < a.nrperc ∧ a.nrperc ≤ 1))

def DocumentedNA (a : NA.Args K) : Prop :=
  a.bounds.shape ≠ [a.bounds.len, 2] ∨ (∃ x, a.x0 = some x ∧ x.shape ≠ [a.popsize.toNat, a.bounds.len]) ∨
  a.popsize < 2 ∨ a.callback = some false ∨ ¬ (0 < a.nrperc ∧ a.nrperc ≤ 1)

end Stochopy.Spec
