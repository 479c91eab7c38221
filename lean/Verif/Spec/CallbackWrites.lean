import Verif.Model.Sampling
import Verif.Spec.Run

/-!
# C110: what a callback that writes into its first argument must not spoil
-/

namespace Stochopy.Spec

variable {K σ : Type} {n : Nat}

/-- The writes leave every population that was shown as it is. -/
def LeavesShown {p : Nat} (wr : Nat → (Fin p → Fin n → K) → Fin p → Fin n → K) (o : Output σ K p n) : Prop :=
  ∀ b ∈ o.cbs, wr b.nit b.X = b.X

/-- The same for the samples shown by a sampler. -/
def LeavesSamples (wr : Nat → (Fin n → Val K) → Fin n → Val K) (o : Sampling.Output σ K n) : Prop :=
  ∀ b ∈ o.cbs, wr b.nit b.xk = b.xk

/-- Every recorded value is the value of the recorded sample, and the reported value the value of the reported sample (`inf` if no
proposal was accepted). -/
def SamplesPaired (fn : (Fin n → Val K) → Val K) (o : Sampling.Output σ K n) : Prop :=
  (∀ xs fs, o.xall = some xs → o.funall = some fs → fs = xs.map fn) ∧ (o.fval = .pinf ∨ o.fval = fn o.x)

end Stochopy.Spec
