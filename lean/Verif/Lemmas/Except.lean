import Mathlib.Tactic.Common

/-! Inversion lemmas for `Except`'s bind. -/

namespace Stochopy
variable {ε α β : Type}

theorem bind_ok_iff {x : Except ε α} {f : α → Except ε β} {b : β} :
    (x >>= f) = .ok b ↔ ∃ a, x = .ok a ∧ f a = .ok b := by
  cases x with
  | error e => simp [bind, Except.bind]
  | ok a => simp [bind, Except.bind]

theorem bind_error_iff {x : Except ε α} {f : α → Except ε β} {e : ε} :
    (x >>= f) = .error e ↔ x = .error e ∨ ∃ a, x = .ok a ∧ f a = .error e := by
  cases x with
  | error e => simp [bind, Except.bind]
  | ok a => simp [bind, Except.bind]

@[simp] theorem ok_bind' {a : α} {f : α → Except ε β} : ((Except.ok a : Except ε α) >>= f) = f a := rfl
@[simp] theorem error_bind' {e : ε} {f : α → Except ε β} : ((Except.error e : Except ε α) >>= f) = .error e := rfl

theorem of_ite_error {c : Prop} [Decidable c] {e : ε} {t : Except ε α} {a : α}
    (h : (if c then Except.error e else t) = .ok a) : ¬ c ∧ t = .ok a := by
  by_cases hc : c
  · rw [if_pos hc] at h; cases h
  · rw [if_neg hc] at h; exact ⟨hc, h⟩

theorem ite_error_ne {c : Prop} [Decidable c] {e e' : ε} {t : Except ε α} (he : e ≠ e') (ht : t ≠ .error e') :
    (if c then Except.error e else t) ≠ .error e' := by
  by_cases hc : c
  · rw [if_pos hc]; intro h; cases h; exact he rfl
  · rw [if_neg hc]; exact ht

/-- Invariant rule for `foldlM` in `Except`. -/
theorem foldlM_inv {γ : Type} (P : β → Prop) {f : β → γ → Except ε β}
    (hf : ∀ b c b', P b → f b c = .ok b' → P b') (l : List γ) :
    ∀ {b b' : β}, P b → l.foldlM f b = .ok b' → P b' := by
  induction l with
  | nil => intro b b' hb h; simp [pure, Except.pure] at h; subst h; exact hb
  | cons c l ih =>
    intro b b' hb h
    rw [List.foldlM_cons, bind_ok_iff] at h
    obtain ⟨b1, h1, h2⟩ := h
    exact ih (hf _ _ _ hb h1) h2

/-- Error rule for `foldlM` in `Except`. -/
theorem foldlM_ne_error {γ : Type} {e : ε} {f : β → γ → Except ε β}
    (hf : ∀ b c, f b c ≠ .error e) (l : List γ) : ∀ (b : β), l.foldlM f b ≠ .error e := by
  induction l with
  | nil => intro b; simp [pure, Except.pure]
  | cons c l ih =>
    intro b h
    rw [List.foldlM_cons, bind_error_iff] at h
    rcases h with h | ⟨b1, _, h2⟩
    · exact hf _ _ h
    · exact ih _ h2

/-- Indexed invariant rule: `P k` holds before processing entry `k`. -/
theorem foldlM_inv_idx {γ : Type} {f : β → γ → Except ε β} (l : List γ) (P : Nat → β → Prop)
    (hf : ∀ k (hk : k < l.length) b b', P k b → f b l[k] = .ok b' → P (k + 1) b') :
    ∀ {b b' : β}, P 0 b → l.foldlM f b = .ok b' → P l.length b' := by
  induction l generalizing P with
  | nil => intro b b' hb h; simp [pure, Except.pure] at h; subst h; exact hb
  | cons c l ih =>
    intro b b' hb h
    rw [List.foldlM_cons, bind_ok_iff] at h
    obtain ⟨b1, h1, h2⟩ := h
    have h3 := hf 0 (by simp) _ _ hb (by simpa using h1)
    exact ih (fun k => P (k + 1)) (fun k hk b b' hP hb' => hf (k + 1) (by simpa using hk) b b' hP (by simpa using hb'))
      h3 h2

theorem foldl_inv {γ : Type} (P : β → Prop) {f : β → γ → β} (hf : ∀ b c, P b → P (f b c)) (l : List γ) :
    ∀ {b : β}, P b → P (l.foldl f b) := by
  induction l with
  | nil => intro b hb; exact hb
  | cons c l ih => intro b hb; exact ih (hf _ _ hb)

theorem foldl_inv_idx {γ : Type} {f : β → γ → β} (l : List γ) (P : Nat → β → Prop)
    (hf : ∀ k (hk : k < l.length) b, P k b → P (k + 1) (f b l[k])) :
    ∀ {b : β}, P 0 b → P l.length (l.foldl f b) := by
  induction l generalizing P with
  | nil => intro b hb; exact hb
  | cons c l ih =>
    intro b hb
    exact ih (fun k => P (k + 1)) (fun k hk b hP => hf (k + 1) (by simpa using hk) b hP) (hf 0 (by simp) _ hb)

end Stochopy
