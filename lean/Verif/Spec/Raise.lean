import Verif.Model.Raise

/-! What a call with a raising callback does, in terms of the call whose callback does not raise (C113). -/

namespace Stochopy.Spec

variable {E B V Z : Type}

/-- No call raises. -/
def Silent (raises : Nat → B → Option E) (cbs : List B) : Prop :=
  ∀ (j : Nat) (b : B), cbs[j]? = some b → raises j b = none

/-- Call `k` is the first one that raises, and it raises `e`. -/
def FirstRaise (raises : Nat → B → Option E) (cbs : List B) (k : Nat) (e : E) : Prop :=
  (∃ b, cbs[k]? = some b ∧ raises k b = some e) ∧ ∀ (j : Nat) (b : B), j < k → cbs[j]? = some b → raises j b = none

/-- `x` is the outcome of the call whose callback never raises, `y` that of the same call with a callback that may.  If no call raises
the outcome is the same.  Otherwise the exception of the first call that raises comes out, after the same calls and the first of the
requests, `requests k` in number.  Exceptions of the code itself come out unless the callback raised before. -/
def Interrupted (raises : Nat → B → Option E) (requests : Nat → Nat → Prop) (cbs : Z → List B) (ev : Z → List V) (x : Except PyErr Z)
    (y : Except PyErr (Z ⊕ Stop E B V)) : Prop :=
  match x with
  | .ok z =>
    (Silent raises (cbs z) ∧ y = .ok (.inl z)) ∨
      ∃ k e evs, FirstRaise raises (cbs z) k e ∧ evs <+: ev z ∧ requests k evs.length ∧ y = .ok (.inr ⟨e, (cbs z).take (k + 1), evs⟩)
  | .error err =>
    y = .error err ∨ ∃ st k, FirstRaise raises st.cbs k st.err ∧ st.cbs.length = k + 1 ∧ requests k st.evals.length ∧ y = .ok (.inr st)

end Stochopy.Spec
