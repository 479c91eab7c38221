import Verif.Base.Num

/-! Order lemmas for `Val` and the specification of `argmin`. -/

namespace Stochopy
namespace Val
variable {K : Type}

section
variable [LE K]
@[simp] theorem fin_le_fin {a b : K} : (fin a ≤ fin b) ↔ a ≤ b := Iff.rfl
@[simp] theorem nan_le {b : Val K} : ¬ (nan ≤ b) := by intro h; cases b <;> exact h
@[simp] theorem le_nan {a : Val K} : ¬ (a ≤ nan) := by intro h; cases a <;> exact h
theorem ninf_le {b : Val K} (h : b ≠ nan) : ninf ≤ b := by cases b <;> first | exact absurd rfl h | trivial
theorem le_pinf {b : Val K} (h : b ≠ nan) : b ≤ pinf := by cases b <;> first | exact absurd rfl h | trivial
@[simp] theorem not_fin_le_ninf {a : K} : ¬ (fin a ≤ (ninf : Val K)) := fun h => h
@[simp] theorem not_pinf_le_fin {a : K} : ¬ ((pinf : Val K) ≤ fin a) := fun h => h
@[simp] theorem not_pinf_le_ninf : ¬ ((pinf : Val K) ≤ ninf) := fun h => h
@[simp] theorem ninf_le_ninf : (ninf : Val K) ≤ ninf := trivial
@[simp] theorem ninf_le_fin {a : K} : (ninf : Val K) ≤ fin a := trivial
@[simp] theorem ninf_le_pinf : (ninf : Val K) ≤ pinf := trivial
@[simp] theorem pinf_le_pinf : (pinf : Val K) ≤ pinf := trivial
@[simp] theorem fin_le_pinf {a : K} : fin a ≤ (pinf : Val K) := trivial
end

section
variable [LT K]
@[simp] theorem fin_lt_fin {a b : K} : (fin a < fin b) ↔ a < b := Iff.rfl
@[simp] theorem not_nan_lt {b : Val K} : ¬ (nan < b) := by intro h; cases b <;> exact h
@[simp] theorem not_lt_nan {a : Val K} : ¬ (a < nan) := by intro h; cases a <;> exact h
@[simp] theorem not_lt_ninf {a : Val K} : ¬ (a < ninf) := by intro h; cases a <;> exact h
@[simp] theorem not_pinf_lt {a : Val K} : ¬ (pinf < a) := by intro h; cases a <;> exact h
@[simp] theorem ninf_lt_fin {a : K} : (ninf : Val K) < fin a := trivial
@[simp] theorem ninf_lt_pinf : (ninf : Val K) < pinf := trivial
@[simp] theorem fin_lt_pinf {a : K} : fin a < (pinf : Val K) := trivial
end

@[simp] theorem isNan_iff {a : Val K} : a.isNan = true ↔ a = nan := by cases a <;> simp [isNan]

section
variable [LinearOrder K] {a b c : Val K}

theorem ne_nan_left (h : a ≤ b) : a ≠ nan := by rintro rfl; exact nan_le h
theorem ne_nan_right (h : a ≤ b) : b ≠ nan := by rintro rfl; exact le_nan h
theorem le_refl' (h : a ≠ nan) : a ≤ a := by cases a <;> simp_all
theorem le_trans' (h : a ≤ b) (h' : b ≤ c) : a ≤ c := by
  cases a <;> cases b <;> cases c <;> simp_all
  exact le_trans h h'
theorem le_of_lt' (h : a < b) : a ≤ b := by
  cases a <;> cases b <;> simp_all
  exact le_of_lt h
theorem not_le_of_lt' (h : a < b) : ¬ b ≤ a := by
  cases a <;> cases b <;> simp_all
theorem not_lt_of_le' (h : a ≤ b) : ¬ b < a := by
  cases a <;> cases b <;> simp_all
theorem lt_of_le_of_lt' (h : a ≤ b) (h' : b < c) : a < c := by
  cases a <;> cases b <;> cases c <;> simp_all
  exact lt_of_le_of_lt h h'
theorem lt_of_lt_of_le' (h : a < b) (h' : b ≤ c) : a < c := by
  cases a <;> cases b <;> cases c <;> simp_all
  exact lt_of_lt_of_le h h'
theorem le_total' (ha : a ≠ nan) (hb : b ≠ nan) : a ≤ b ∨ b ≤ a := by
  cases a <;> cases b <;> simp_all
  exact le_total _ _
theorem le_or_lt' (ha : a ≠ nan) (hb : b ≠ nan) : a ≤ b ∨ b < a := by
  cases a <;> cases b <;> simp_all
  exact le_or_gt _ _
theorem not_lt_iff (ha : a ≠ nan) (hb : b ≠ nan) : ¬ b < a ↔ a ≤ b :=
  ⟨fun h => (le_or_lt' ha hb).resolve_right h, not_lt_of_le'⟩
theorem le_antisymm' (h : a ≤ b) (h' : b ≤ a) : a = b := by
  cases a <;> cases b <;> simp_all
  exact le_antisymm h h'
theorem lt_irrefl' : ¬ a < a := by cases a <;> simp
theorem ne_nan_left_lt (h : a < b) : a ≠ nan := by rintro rfl; exact not_nan_lt h
theorem ne_nan_right_lt (h : a < b) : b ≠ nan := by rintro rfl; exact not_lt_nan h
end

section
variable [AddZeroClass K]
@[simp] theorem zero_add' (a : Val K) : fin 0 + a = a := by
  cases a <;> simp [HAdd.hAdd, Add.add, Val.add]
  exact zero_add _
@[simp] theorem add_zero' (a : Val K) : a + fin 0 = a := by
  cases a <;> simp [HAdd.hAdd, Add.add, Val.add]
  exact add_zero _
end
end Val

section argmin
variable {K : Type} [LinearOrder K] {p : Nat}

theorem sortLe_refl (a : Val K) : sortLe a a := by
  by_cases h : a = .nan
  · exact Or.inl h
  · exact Or.inr (Val.le_refl' h)

theorem sortLe_trans {a b c : Val K} (h : sortLe a b) (h' : sortLe b c) : sortLe a c := by
  rcases h' with h' | h'
  · exact Or.inl h'
  · rcases h with h | h
    · subst h; exact absurd h' Val.nan_le
    · exact Or.inr (Val.le_trans' h h')

theorem sortLe_total (a b : Val K) : sortLe a b ∨ sortLe b a := by
  by_cases ha : a = .nan
  · exact Or.inr (Or.inl ha)
  · by_cases hb : b = .nan
    · exact Or.inl (Or.inl hb)
    · exact (Val.le_total' ha hb).imp Or.inr Or.inr

/-- What holds of the running best after scanning the entries in `l`. -/
private def ArgInv (v : Fin p → Val K) (b : Option (Fin p)) (l : List (Fin p)) : Prop :=
  (b = none → l = []) ∧ ∀ i, b = some i → i ∈ l ∧ (v i ≠ .nan → ∀ j ∈ l, v i ≤ v j)

private theorem argInv_step {v : Fin p → Val K} {b : Option (Fin p)} {l : List (Fin p)} (h : ArgInv v b l)
    (j : Fin p) : ArgInv v (argminStep v b j) (l ++ [j]) := by
  unfold argminStep
  cases b with
  | none =>
    have hl := h.1 rfl; subst hl
    refine ⟨by simp, ?_⟩
    intro i hi
    simp only [Option.some.injEq] at hi; subst hi
    exact ⟨by simp, fun hn k hk => by simp at hk; subst hk; exact Val.le_refl' hn⟩
  | some i =>
    obtain ⟨hi, hle⟩ := h.2 i rfl
    dsimp only
    split_ifs with h1 h2
    · refine ⟨by simp, fun i' hi' => ?_⟩
      simp only [Option.some.injEq] at hi'; subst hi'
      exact ⟨by simp [hi], fun hn => absurd (Val.isNan_iff.1 h1) hn⟩
    · refine ⟨by simp, fun i' hi' => ?_⟩
      simp only [Option.some.injEq] at hi'; subst hi'
      refine ⟨by simp [hi], fun hn k hk => ?_⟩
      rcases List.mem_append.1 hk with hk | hk
      · exact hle hn k hk
      · simp at hk; subst hk; exact h2
    · refine ⟨by simp, fun i' hi' => ?_⟩
      simp only [Option.some.injEq] at hi'; subst hi'
      refine ⟨by simp, fun hn k hk => ?_⟩
      have hin : v i ≠ .nan := fun hh => h1 (Val.isNan_iff.2 hh)
      have hlt : v j ≤ v i := (Val.le_total' hin hn).resolve_left h2
      rcases List.mem_append.1 hk with hk | hk
      · exact Val.le_trans' hlt (hle hin k hk)
      · simp at hk; subst hk; exact Val.le_refl' hn

private theorem argInv_foldl {v : Fin p → Val K} (l : List (Fin p)) : ∀ (b : Option (Fin p)) (l0 : List (Fin p)),
    ArgInv v b l0 → ArgInv v (l.foldl (argminStep v) b) (l0 ++ l) := by
  induction l with
  | nil => intro b l0 h; simpa using h
  | cons j l ih =>
    intro b l0 h
    have := ih _ _ (argInv_step h j)
    simpa using this

private theorem argminStep_isSome (v : Fin p → Val K) (b : Option (Fin p)) (j : Fin p) :
    (argminStep v b j).isSome := by
  unfold argminStep; cases b <;> dsimp only <;> (try split_ifs) <;> simp

/-- If the chosen entry is not NaN, it is a minimum of the array (and no entry is NaN). -/
theorem argmin_le {v : Fin p → Val K} {i : Fin p} (h : argmin v = .ok i) (hn : v i ≠ .nan) (j : Fin p) :
    v i ≤ v j := by
  unfold argmin at h
  have hI : ArgInv v (argmin? v) (List.finRange p) := by
    have := argInv_foldl (v := v) (List.finRange p) none [] ⟨fun _ => rfl, by simp⟩
    simpa [argmin?] using this
  cases hb : argmin? v with
  | none => simp [hb] at h
  | some k =>
    simp only [hb, Except.ok.injEq] at h; subst h
    exact (hI.2 k hb).2 hn j (List.mem_finRange j)

theorem argmin_sortLe_of_ne_nan {v : Fin p → Val K} {i : Fin p} (h : argmin v = .ok i) (hn : ∀ j, v j ≠ .nan)
    (j : Fin p) : v i ≤ v j := argmin_le h (hn i) j

/-- `argmin` succeeds on nonempty arrays. -/
theorem argmin_ok (v : Fin p → Val K) (hp : 0 < p) : ∃ i, argmin v = .ok i := by
  unfold argmin argmin?
  have : ∀ (l : List (Fin p)) (b : Option (Fin p)), b.isSome ∨ l ≠ [] → (l.foldl (argminStep v) b).isSome := by
    intro l
    induction l with
    | nil => intro b hb; simpa using hb
    | cons j l ih => intro b _; exact ih _ (Or.inl (argminStep_isSome v b j))
  have h := this (List.finRange p) none (Or.inr (by
    intro h0
    have := congrArg List.length h0
    simp at this; omega))
  obtain ⟨i, hi⟩ := Option.isSome_iff_exists.1 h
  exact ⟨i, by rw [hi]⟩

theorem argmin_ne_outOfFuel (v : Fin p → Val K) : argmin v ≠ .error .outOfFuel := by
  unfold argmin; cases argmin? v <;> simp

theorem pos_of_argmin {v : Fin p → Val K} {i : Fin p} (_ : argmin v = .ok i) : 0 < p := i.pos

end argmin
end Stochopy
