import Verif.Spec.Run

/-!
# Vocabulary: search box, Latin hypercubes, shrinking
-/

namespace Stochopy.Spec

variable {σ K : Type} [Add K] [Sub K] [Mul K] [Div K] [One K] [NatCast K] [LinearOrder K] {p n : Nat}

/-- Everything evaluated, the result and everything shown to the callback satisfies the bounds. -/
structure StaysInBox (lower upper : Vec K n) (o : Output σ K p n) : Prop where
  evals : ∀ x ∈ o.evals, InBox lower upper x
  result : InBox lower upper o.res.x
  callbacks : ∀ b ∈ o.cbs, InBox lower upper b.x ∧ ∀ i, InBox lower upper (b.X i)

/-- The recorded points of all generations from the `k`-th (counting from 0) on satisfy the bounds. -/
def RecordedInBox (lower upper : Vec K n) (k : Nat) (o : Output σ K p n) : Prop :=
  ∀ xs, o.res.xall = some xs → ∀ r ∈ xs.drop k, ∀ x ∈ r, InBox lower upper x

/-- In every coordinate, each of the `p` equal slices of the interval contains exactly one member. -/
def Stratified (lower upper : Vec K n) (X : Pop K p n) : Prop :=
  ∀ (j : Fin n) (m : Fin p), ∃! k : Fin p,
    lower j + (m : K) * ((upper j - lower j) / p) ≤ X k j ∧
    X k j < lower j + ((m : K) + 1) * ((upper j - lower j) / p)

/-- The upper bound of the points of the neighbourhood algorithm, whose models live in the unit cube: `1` mapped back to the
bounds, with the operations of the code.  In exact arithmetic it is `upper` (`naTop_exact`). -/
def naTop [Zero K] (lower upper : Vec K n) : Vec K n := fun j =>
  if 0 < upper j - lower j then (upper j - lower j) + lower j else upper j

end Stochopy.Spec

namespace Stochopy.Spec
variable {K : Type} [LinearOrder K]

/-- First and second column of the user's `bounds`. -/
def lo (a : CommonArgs K) : Vec K a.bounds.len := fun j => a.bounds.get [j, 0]
def hi (a : CommonArgs K) : Vec K a.bounds.len := fun j => a.bounds.get [j, 1]

/-- The bounds are ordered and `x0`, if given, satisfies them. -/
structure GoodStart (a : CommonArgs K) : Prop where
  ordered : ∀ j, lo a j ≤ hi a j
  start : ∀ x, a.x0 = some x → ∀ i < a.popsize.toNat, InBox (lo a) (hi a) fun j => x.get [i, j]

end Stochopy.Spec
