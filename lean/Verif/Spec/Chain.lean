import Verif.Base.Num

/-!
# Vocabulary: Markov chains made of proposals

A run of a sampler is described by its list of samples and by the list of the moves between them.
-/

namespace Stochopy.Spec

variable {K σ : Type}

/-- One iteration: the current sample, the proposal, and whether the proposal was accepted. -/
structure Move (X : Type) where
  old : X
  prop : X
  accepted : Bool

/-- The next sample: the proposal if it was accepted, otherwise the current sample again. -/
def Move.next {X : Type} (m : Move X) : X := if m.accepted then m.prop else m.old

/-- The samples `xs` are linked by the moves `ms`. -/
def Links {X : Type} (xs : List X) (ms : List (Move X)) : Prop :=
  xs.length = ms.length + 1 ∧ ∀ k m, ms[k]? = some m → xs[k]? = some m.old ∧ xs[k + 1]? = some m.next

/-- The number of accepted proposals. -/
def accepted {X : Type} (ms : List (Move X)) : Nat := (ms.filter Move.accepted).length

/-- Inside the box (NaN and infinite coordinates are outside). -/
def Inside [LE K] {n : Nat} (lower upper : Vec K n) (x : Vec (Val K) n) : Prop :=
  ∀ j, .fin (lower j) ≤ x j ∧ x j ≤ .fin (upper j)

/-- No coordinate is infinite or NaN. -/
def Finite {n : Nat} (x : Vec (Val K) n) : Prop := ∀ j, ∃ k, x j = .fin k

/-- The `i`-th normal number drawn when the generator is in state `g`. -/
def normal (R : Rng σ K) (g : σ) (i : Nat) : K := (R.randn ((fun g => (R.randn g).2)^[i] g)).1

/-- The uniform number drawn after `i` normal numbers. -/
def uniform (R : Rng σ K) (g : σ) (i : Nat) : K := (R.rand ((fun g => (R.randn g).2)^[i] g)).1

/-- The state of the generator before iteration `k` of a chain whose first iteration starts in state `g`: every iteration
draws `m` normal numbers and then, if `test`, one uniform number. -/
def genAt (R : Rng σ K) (m : Nat) (test : Bool) (g : σ) : Nat → σ
  | 0 => g
  | k + 1 =>
    let g' := (fun g => (R.randn g).2)^[m] (genAt R m test g k)
    if test then (R.rand g').2 else g'

end Stochopy.Spec
