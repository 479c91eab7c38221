import Verif.Model.Alias

/-! # What a callback may rely on -/

namespace Stochopy.Spec
variable {K σ : Type} {p n : Nat}

/-- C90: the arrays that the callback was given still hold, when the run is over, what they held when the callback was called. -/
def CallbackArraysKept (o : Output σ K p n) (m : Mem K p n) : Prop := m.contents = o.cbs.map CB.X

end Stochopy.Spec
