import Verif.Spec.Run

/-!
# Vocabulary for objectives with noise or state (C93)

`ans k x` is the answer of the objective to the `k`-th request of the run, when the point asked for is `x`; `o.evals` lists the
points in the order of the requests.
-/

namespace Stochopy.Spec

variable {σ K : Type} [LinearOrder K] {p n : Nat}

/-- `v` is the answer the objective gave when it was asked for `x`. -/
def Answered (ans : Nat → Vec K n → Val K) (evals : List (Vec K n)) (x : Vec K n) (v : Val K) : Prop :=
  ∃ k, evals[k]? = some x ∧ v = ans k x

/-- The reported value is an answer the objective gave for the reported point, and so are the values handed to the callbacks
(among the requests made until then). -/
structure ReportsAnswers (ans : Nat → Vec K n → Val K) (o : Output σ K p n) : Prop where
  result : Answered ans o.evals o.res.x o.res.fval
  callbacks : ∀ b ∈ o.cbs, Answered ans (o.evals.take b.nfev) b.x b.fval

/-- The reported value is the smallest answer of the run (NaNs aside), and every callback reports the smallest answer until then. -/
structure BestAnswer (ans : Nat → Vec K n → Val K) (o : Output σ K p n) : Prop where
  result : ∀ k x, o.evals[k]? = some x → ans k x ≠ .nan → o.res.fval ≤ ans k x
  callbacks : ∀ b ∈ o.cbs, ∀ k x, k < b.nfev → o.evals[k]? = some x → ans k x ≠ .nan → b.fval ≤ ans k x

/-- None of the answers for the initial population is a NaN. -/
def FirstAnswersNumbers (ans : Nat → Vec K n → Val K) (o : Output σ K p n) : Prop :=
  ∀ k x, k < p → o.evals[k]? = some x → ans k x ≠ .nan

/-- The reported value is the smallest answer of the last generation (NaNs aside), an answer of that generation. -/
structure BestAnswerOfLastGeneration (ans : Nat → Vec K n → Val K) (o : Output σ K p n) : Prop where
  answered : ∃ k, o.evals.length - p ≤ k ∧ o.evals[k]? = some o.res.x ∧ o.res.fval = ans k o.res.x
  best : ∀ k x, o.evals.length - p ≤ k → o.evals[k]? = some x → ans k x ≠ .nan → o.res.fval ≤ ans k x

end Stochopy.Spec
