import Verif.Lemmas.Except
import Mathlib.Tactic.Ring

/-! Iterating a step that may raise. -/

namespace Stochopy
variable {ε S : Type}

/-- `k` steps, numbered `i, i + 1, …`. -/
def steps (f : Nat → S → Except ε S) : Nat → Nat → S → Except ε S
  | _, 0, s => .ok s
  | i, k + 1, s => do
    let s' ← f i s
    steps f (i + 1) k s'

variable {f : Nat → S → Except ε S}

theorem steps_inv {I : Nat → S → Prop} (h : ∀ i s s', I i s → f i s = .ok s' → I (i + 1) s') :
    ∀ k i {s s'}, I i s → steps f i k s = .ok s' → I (i + k) s' := by
  intro k
  induction k with
  | zero => intro i s s' h0 hs; cases hs; exact h0
  | succ k ih =>
    intro i s s' h0 hs
    unfold steps at hs
    obtain ⟨s1, h1, h2⟩ := bind_ok_iff.1 hs
    have := ih (i + 1) (h i s s1 h0 h1) h2
    rwa [show i + 1 + k = i + (k + 1) by ring] at this

theorem steps_add (k l : Nat) : ∀ i s, steps f i (k + l) s = (steps f i k s) >>= fun s' => steps f (i + k) l s' := by
  induction k with
  | zero => intro i s; simp [steps]
  | succ k ih =>
    intro i s
    rw [show k + 1 + l = (k + l) + 1 by ring]
    simp only [steps]
    cases f i s with
    | error e => rfl
    | ok s1 =>
      simp only [ok_bind']
      rw [ih, show i + 1 + k = i + (k + 1) by ring]

/-- Steps that never raise under an invariant. -/
theorem steps_total {I : Nat → S → Prop} {N : Nat} (h : ∀ i s, i < N → I i s → ∃ s', f i s = .ok s' ∧ I (i + 1) s') :
    ∀ k i {s}, i + k ≤ N → I i s → ∃ s', steps f i k s = .ok s' ∧ I (i + k) s' := by
  intro k
  induction k with
  | zero => intro i s _ h0; exact ⟨s, rfl, h0⟩
  | succ k ih =>
    intro i s hk h0
    obtain ⟨s1, h1, h2⟩ := h i s (by omega) h0
    obtain ⟨s2, h3, h4⟩ := ih (i + 1) (by omega) h2
    refine ⟨s2, ?_, ?_⟩
    · unfold steps; rw [h1, ok_bind']; exact h3
    · rwa [show i + 1 + k = i + (k + 1) by ring] at h4

/-- If a step can only fail with `e`, so can many. -/
theorem steps_error {e : ε} (h : ∀ i s, (∃ s', f i s = .ok s') ∨ f i s = .error e) :
    ∀ k i s, (∃ s', steps f i k s = .ok s') ∨ steps f i k s = .error e := by
  intro k
  induction k with
  | zero => intro i s; exact Or.inl ⟨s, rfl⟩
  | succ k ih =>
    intro i s
    unfold steps
    rcases h i s with ⟨s1, h1⟩ | h1
    · rw [h1, ok_bind']; exact ih _ _
    · rw [h1]; exact Or.inr rfl

end Stochopy
