import Verif.Base.Num

/-! Two objectives that gave the same answers up to some request. -/

namespace Stochopy.Spec

/-- `ans` and `ans'` answer alike the first `N` of the requests `evs`; the `k`-th request is numbered from zero. -/
def SameAnswers {X V : Type} (ans ans' : Nat → X → V) (N : Nat) (evs : List X) : Prop :=
  ∀ k x, k < N → evs[k]? = some x → ans k x = ans' k x

/-- The first `N + 1` requests: those made after at most `N` answers were seen. -/
def SameRequests {X : Type} (N : Nat) (evs evs' : List X) : Prop := evs.take (N + 1) = evs'.take (N + 1)

end Stochopy.Spec
