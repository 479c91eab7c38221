import Verif.Spec.Run

/-!
# C111: what a callback that writes into the arrays it is shown leaves alone
-/

namespace Stochopy.Spec

variable {K σ : Type} {p n : Nat}

/-- The writes leave every population and every best solution that was shown as it is. -/
def LeavesState (wr : Nat → (Fin p → Fin n → K) × (Fin n → K) → (Fin p → Fin n → K) × (Fin n → K)) (o : Output σ K p n) : Prop :=
  ∀ b ∈ o.cbs, wr b.nit (b.X, b.x) = (b.X, b.x)

/-- The last call leaves the best solution as it is; earlier calls may overwrite it. -/
def LeavesLast (wr : Nat → (Fin p → Fin n → K) × (Fin n → K) → (Fin p → Fin n → K) × (Fin n → K)) (o : Output σ K p n) : Prop :=
  ∀ b, o.cbs.getLast? = some b → (wr b.nit (b.X, b.x)).2 = b.x

end Stochopy.Spec
