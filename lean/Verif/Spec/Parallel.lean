import Verif.Spec.Run

/-! # Vocabulary: parallel calls -/

namespace Stochopy.Spec

/-- The call is documented to run in parallel: some number of workers on a joblib backend, or MPI. -/
def Parallel (workers : Int) (backend : Option String) : Prop :=
  (workers ≠ 0 ∧ workers ≠ 1 ∧ backend ∈ [none, some "threading", some "loky"]) ∨ backend = some "mpi"

end Stochopy.Spec
