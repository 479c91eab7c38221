import Verif.Lemmas.Driver

/-! Callbacks and records of a run in terms of its history. -/

set_option linter.unusedSectionVars false

namespace Stochopy
variable {K σ S : Type} [AddZeroClass K] [One K] [Sub K] [Mul K] [Div K] [Neg K] [NatCast K] [IntCast K] [Pow K ℕ] [ArrayOps K] [LinearOrder K] {p n : Nat}
variable {A : Alg S K p n} {c : Cfg} {s0 : S}
variable {l : List S} {rX : List (List (Vec K n))} {rF : List (List (Val K))} {cb : List (CB K p n)}

theorem Alg.Logged.rows_length (h : A.Logged c l rX rF cb) :
    (c.returnAll = false → rX = [] ∧ rF = []) ∧
    (c.returnAll = true → rX.length = l.length ∧ rF.length = l.length) := by
  induction h with
  | nil => simp
  | cons _ h0 h1 ih =>
    refine ⟨fun hc => ?_, fun hc => ?_⟩
    · obtain ⟨e1, e2⟩ := ih.1 hc
      obtain ⟨e3, e4⟩ := h0 hc
      simp [e1, e2, e3, e4]
    · obtain ⟨e1, e2⟩ := ih.2 hc
      obtain ⟨_, x, f, e3, e4, _⟩ := h1 hc
      simp [e1, e2, e3, e4]

/-- With `return_all` the number of generations never exceeds `maxiter` (otherwise IndexError). -/
theorem Alg.Logged.length_le_maxiter (h : A.Logged c l rX rF cb) (hc : c.returnAll = true) (hl : l ≠ []) :
    (l.length : Int) ≤ c.maxiter := by
  cases h with
  | nil => exact absurd rfl hl
  | cons _ _ h1 => have := (h1 hc).1; simp; omega

theorem Alg.Logged.rows (h : A.Logged c l rX rF cb) (hc : c.returnAll = true) :
    ∀ k s, l.reverse[k]? = some s → ∃ x f, rX[k]? = some x ∧ rF[k]? = some f ∧ A.rowOk c (k + 1) s x f := by
  induction h with
  | nil => intro k s hk; simp at hk
  | @cons s' l rX rF cb aX aF hl h0 h1 ih =>
    intro k s hk
    obtain ⟨e1, e2⟩ := (hl.rows_length).2 hc
    obtain ⟨_, x, f, e3, e4, hrow⟩ := h1 hc
    simp only [List.reverse_cons] at hk
    rcases Nat.lt_trichotomy k l.length with hlt | heq | hgt
    · rw [List.getElem?_append_left (by simpa using hlt)] at hk
      obtain ⟨x', f', hx, hf, hr⟩ := ih k s hk
      refine ⟨x', f', ?_, ?_, hr⟩
      · rw [List.getElem?_append_left (by omega)]; exact hx
      · rw [List.getElem?_append_left (by omega)]; exact hf
    · subst heq
      rw [List.getElem?_append_right (by simp)] at hk
      simp at hk; subst hk
      refine ⟨x, f, ?_, ?_, hrow⟩
      · rw [List.getElem?_append_right (by omega)]; simp [e1, e3]
      · rw [List.getElem?_append_right (by omega)]; simp [e2, e4]
    · rw [List.getElem?_eq_none (by simp; omega)] at hk; simp at hk

theorem Alg.Logged.cbs_none (h : A.Logged c l rX rF cb) (hc : c.hasCallback = false) : cb = [] := by
  induction h with
  | nil => rfl
  | cons _ _ _ ih => simp [hc, ih]

theorem Alg.Logged.cbs_length (h : A.Logged c l rX rF cb) (hc : c.hasCallback = true) : cb.length = l.length := by
  induction h with
  | nil => rfl
  | cons _ _ _ ih => simp [hc, ih]

/-- The `k`-th callback call. -/
theorem Alg.Logged.cbs (h : A.Logged c l rX rF cb) (hc : c.hasCallback = true) :
    ∀ k s, l.reverse[k]? = some s → cb[k]? = some (A.cb c s (k + 1) (rX.take (k + 1)) (rF.take (k + 1))) := by
  induction h with
  | nil => intro k s hk; simp at hk
  | @cons s' l rX rF cb aX aF hl h0 h1 ih =>
    intro k s hk
    have hlen := hl.cbs_length hc
    have hrl : c.returnAll = true → rX.length = l.length ∧ rF.length = l.length := hl.rows_length.2
    simp only [List.reverse_cons] at hk
    simp only [hc, if_true]
    rcases Nat.lt_trichotomy k l.length with hlt | heq | hgt
    · rw [List.getElem?_append_left (by simpa using hlt)] at hk
      rw [List.getElem?_append_left (by omega), ih k s hk]
      by_cases hr : c.returnAll = true
      · obtain ⟨e1, e2⟩ := hrl hr
        rw [List.take_append_of_le_length (by omega), List.take_append_of_le_length (by omega)]
      · simp [Alg.cb, attach, hr]
    · subst heq
      rw [List.getElem?_append_right (by simp)] at hk
      simp at hk; subst hk
      rw [List.getElem?_append_right (by omega)]
      simp only [hlen, Nat.sub_self, List.getElem?_cons_zero, Option.some.injEq]
      by_cases hr : c.returnAll = true
      · obtain ⟨e1, e2⟩ := hrl hr
        obtain ⟨_, x, f, e3, e4, _⟩ := h1 hr
        rw [List.take_of_length_le (by simp [e1, e3]), List.take_of_length_le (by simp [e2, e4])]
      · simp [Alg.cb, attach, hr]
    · rw [List.getElem?_eq_none (by simp; omega)] at hk; simp at hk

theorem Alg.Logged.mem_cbs (h : A.Logged c l rX rF cb) {b : CB K p n} (hb : b ∈ cb) :
    ∃ s ∈ l, ∃ k, b = A.cb c s (k + 1) (rX.take (k + 1)) (rF.take (k + 1)) ∧ l.reverse[k]? = some s := by
  have hc : c.hasCallback = true := by
    by_contra hc
    have := h.cbs_none (by simpa using hc)
    simp [this] at hb
  obtain ⟨k, hk, rfl⟩ := List.mem_iff_getElem.1 hb
  have hlen := h.cbs_length hc
  have hk' : k < l.reverse.length := by simp; omega
  refine ⟨l.reverse[k], List.mem_reverse.1 (List.getElem_mem _), k, ?_, List.getElem?_eq_getElem hk'⟩
  have := h.cbs hc k _ (List.getElem?_eq_getElem hk')
  rw [List.getElem?_eq_getElem hk] at this
  simpa using this

end Stochopy
