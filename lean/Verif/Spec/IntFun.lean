import Verif.Spec.Dtype

/-! What is said about objectives that return integers (C92), independently of the model of the optimizers. -/

namespace Stochopy.Spec

/-- `isInt` tells the truth: where it says so, the objective returns an integer. -/
def ReturnsInts {K : Type} [IntCast K] {n : Nat} (fn : Vec K n → Val K) (isInt : Vec K n → Bool) : Prop :=
  ∀ x, isInt x = true → ∃ z : Int, fn x = .fin (z : K)

/-- Converting an integer to a float and back gives the integer. -/
def IntsRoundTrip (K : Type) [Zero K] [LinearOrder K] [IntParts K] [IntCast K] : Prop :=
  ∀ z : Int, ((pyInt (z : K) : Int) : K) = (z : K)

/-- The value without its fractional part, as it is stored in an array of integers. -/
def IntegerPartOf {K : Type} [Zero K] [LinearOrder K] [IntParts K] [IntCast K] (v w : Val K) : Prop :=
  ∃ k, w = .fin k ∧ v = .fin ((pyInt k : Int) : K)

end Stochopy.Spec
