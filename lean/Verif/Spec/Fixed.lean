import Verif.Spec.Box
import Verif.Model.Sampling

/-!
# Vocabulary for variables whose bounds coincide (C94)
-/

namespace Stochopy.Spec

variable {σ K : Type} {p n : Nat}

/-- Everything evaluated, the result and everything shown to the callback satisfies `Q`. -/
structure EveryPoint (Q : Vec K n → Prop) (o : Output σ K p n) : Prop where
  evals : ∀ x ∈ o.evals, Q x
  result : Q o.res.x
  callbacks : ∀ b ∈ o.cbs, Q b.x ∧ ∀ i, Q (b.X i)

/-- The recorded points of all generations from the `k`-th (counting from 0) on satisfy `Q`. -/
def EveryRecorded (Q : Vec K n → Prop) (k : Nat) (o : Output σ K p n) : Prop :=
  ∀ xs, o.res.xall = some xs → ∀ r ∈ xs.drop k, ∀ x ∈ r, Q x

/-- Every variable whose bounds coincide has their value. -/
def KeepsFixed (lower upper x : Vec K n) : Prop := ∀ j, lower j = upper j → x j = lower j

/-- The same for points with coordinates that may be infinite or NaN. -/
def KeepsFixedV (lower upper : Vec K n) (x : Vec (Val K) n) : Prop := ∀ j, lower j = upper j → x j = .fin (lower j)

/-- The rows of `x0`, if given, have the value of the bounds where these coincide. -/
def FixedStart [LinearOrder K] (a : CommonArgs K) : Prop :=
  ∀ x, a.x0 = some x → ∀ i < a.popsize.toNat, KeepsFixed (lo a) (hi a) fun j => x.get [i, j]

/-- All samples, the reported one, and all those shown to the callback satisfy `Q`. -/
structure EverySample (Q : Vec (Val K) n → Prop) (o : Sampling.Output σ K n) : Prop where
  result : Q o.x
  recorded : ∀ xs, o.xall = some xs → ∀ x ∈ xs, Q x
  callbacks : ∀ b ∈ o.cbs, Q b.xk ∧ Q b.x ∧ ∀ xs, b.xall = some xs → ∀ x ∈ xs, Q x

end Stochopy.Spec
