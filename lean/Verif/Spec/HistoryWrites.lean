import Verif.Model.Sampling

/-!
# C112: what a callback that writes into the history must not spoil
-/

namespace Stochopy.Spec

variable {K σ : Type} {n : Nat}

/-- What becomes of the content `x` of row `i`, filled just before call `i + 1`, up to call `k`: every later call leaves `c call m i y` in
the row that held `y`, where `m` is the row of the best sample at that call (`B call m`). -/
inductive Rewrites {α : Type} (c : Nat → Nat → Nat → α → α) (B : Nat → Nat → Prop) (i : Nat) (x : α) : Nat → α → Prop
  | new : Rewrites c B i x (i + 1) x
  | call {k : Nat} {y : α} (m : Nat) (hm : B (k + 1) m) : Rewrites c B i x k y → Rewrites c B i x (k + 1) (c (k + 1) m i y)

/-- All rows, after the last call. -/
def RowsLeft {α : Type} (c : Nat → Nat → Nat → α → α) (B : Nat → Nat → Prop) (xs ys : List α) : Prop :=
  ys.length = xs.length ∧ ∀ i x y, xs[i]? = some x → ys[i]? = some y → Rewrites c B i x xs.length y

/-- The `x` of the state given with call `k` is the sample that was given with call `m + 1`, and not a later one. -/
def ShownBest (cbs : List (Sampling.CB K n)) (k m : Nat) : Prop :=
  m < k ∧ ∃ b c, cbs[k - 1]? = some b ∧ cbs[m]? = some c ∧ b.x = c.xk

/-- The current row (row `k` at call `k + 1`) is left as it is. -/
def OldRows {α : Type} (c : Nat → Nat → Nat → α → α) : Prop := ∀ k m x, c (k + 1) m k x = x

/-- The two chains are the same when they are looked at as they grow: the objective is called on the same points in the same order, and the
callbacks are given the same samples and the same acceptance ratios. -/
structure SameChain (o o' : Sampling.Output σ K n) : Prop where
  evals : o'.evals = o.evals
  rng : o'.rng = o.rng
  nit : o'.nit = o.nit
  nfev : o'.nfev = o.nfev
  accept : o'.acceptRatio = o.acceptRatio
  shown : o'.cbs.map (fun b => (b.xk, b.nit, b.acceptRatio)) = o.cbs.map fun b => (b.xk, b.nit, b.acceptRatio)

end Stochopy.Spec
