import Verif.Model.Driver

/-! What is said about the type of `x0` (C91), independently of the model of the optimizers. -/

namespace Stochopy.Spec

variable {K : Type} [IntCast K]

/-- Integer coordinates. -/
def Integral {n : Nat} (x : Vec K n) : Prop := ∀ j, ∃ z : Int, x j = (z : K)

/-- An `x0` all of whose entries are integers. -/
def IntegralArray (x0 : NdArr K) : Prop := ∀ l, ∃ z : Int, x0.get l = (z : K)

/-- C91: whatever the array of floats gives, the other type gives as well. -/
def TypeIrrelevant {α : Type} (floats other : Except PyErr α) : Prop := ∀ o, floats = .ok o → other = .ok o

end Stochopy.Spec
