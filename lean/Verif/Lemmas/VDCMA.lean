import Verif.Lemmas.Gauss
import Verif.Lemmas.EvoPen
import Verif.Lemmas.EvoTotal
import Mathlib.Algebra.Order.BigOperators.Ring.Finset

/-! `vdcma`: the restricted covariance matrix. -/

set_option linter.unusedSectionVars false

namespace Stochopy.VDCMA
open Evo Spec

section
variable {n : Nat} {v : Vec ℝ n}

theorem dot_def (a b : Vec ℝ n) : dot a b = ∑ j, a j * b j := rfl

theorem capNorm_eq (up a b : ℝ) : capNorm up a b = cap up a b := by unfold capNorm cap; rw [mul_div_assoc]

theorem upfactor_eq (d v ngv ngd : Vec ℝ n) : upfactor d v ngv ngd =
    (List.finRange n).foldl (fun up j => cap up (d j) |ngd j|) (cap 1 (normV v) (NumFns.sqrt (dot ngv ngv))) := by
  unfold upfactor; rw [capNorm_eq]; rfl

theorem pqRow_eq (v y : Vec ℝ n) : pqRow v y = pq v y := by
  unfold pqRow pq; simp only [mul_assoc]

theorem normV2_eq : normV2 v = ∑ j, v j ^ 2 := by
  unfold normV2; simp only [dot_def]
  exact Finset.sum_congr rfl fun j _ => by ring

theorem normV2_nonneg : 0 ≤ normV2 v := by rw [normV2_eq]; exact Finset.sum_nonneg fun j _ => sq_nonneg _

theorem normV2_pos_iff : 0 < normV2 v ↔ ∃ j, v j ≠ 0 := by
  constructor
  · intro h
    by_contra hc
    push Not at hc
    rw [normV2_eq] at h
    simp [hc] at h
  · intro h
    rw [normV2_eq]
    exact sum_sq_pos' h

theorem normV_pos_iff : 0 < normV v ↔ ∃ j, v j ≠ 0 := by
  rw [← normV2_pos_iff]
  exact Real.sqrt_pos

theorem normV_sq : normV v ^ 2 = normV2 v := Real.sq_sqrt normV2_nonneg

theorem vnn_eq (j : Fin n) : vnn v j = v j ^ 2 / normV2 v := by
  unfold vnn vn
  rw [div_pow, normV_sq]

theorem vnn_nonneg (j : Fin n) : 0 ≤ vnn v j := sq_nonneg _

theorem vnn_sum (h : 0 < normV2 v) : ∑ j, vnn v j = 1 := by
  simp only [vnn_eq]
  rw [← Finset.sum_div, ← normV2_eq, div_self h.ne']

theorem foldl_max_le (l : List (Fin n)) (w : Vec ℝ n) : ∀ b : ℝ, b ≤ l.foldl (fun a j => max a (w j)) b ∧
    ∀ j ∈ l, w j ≤ l.foldl (fun a j => max a (w j)) b := by
  induction l with
  | nil => intro b; simp
  | cons i l ih =>
    intro b
    obtain ⟨h1, h2⟩ := ih (max b (w i))
    refine ⟨(le_max_left _ _).trans h1, fun j hj => ?_⟩
    rcases List.mem_cons.1 hj with rfl | hj
    · exact (le_max_right _ _).trans h1
    · exact h2 j hj

theorem foldl_max_ub (l : List (Fin n)) (w : Vec ℝ n) {c : ℝ} (hw : ∀ j, w j ≤ c) : ∀ b : ℝ, b ≤ c →
    l.foldl (fun a j => max a (w j)) b ≤ c := by
  induction l with
  | nil => intro b hb; exact hb
  | cons i l ih => intro b hb; exact ih _ (max_le hb (hw i))

theorem le_vmax (w : Vec ℝ n) (j : Fin n) : w j ≤ vmax w := (foldl_max_le _ w 0).2 j (List.mem_finRange j)

theorem vmax_le {w : Vec ℝ n} {c : ℝ} (hc : 0 ≤ c) (hw : ∀ j, w j ≤ c) : vmax w ≤ c := foldl_max_ub _ w hw 0 hc

/-- `M`, the largest squared component of the direction. -/
theorem vmax_pos (h : 0 < normV2 v) : 0 < vmax (vnn v) := by
  by_contra hc
  have h1 : ∀ j, vnn v j ≤ 0 := fun j => (le_vmax _ j).trans (not_lt.1 hc)
  have := Finset.sum_nonpos fun j (_ : j ∈ Finset.univ) => h1 j
  rw [vnn_sum h] at this
  linarith

theorem vnn_le_one (h : 0 < normV2 v) (j : Fin n) : vnn v j ≤ 1 := by
  rw [← vnn_sum h]
  exact Finset.single_le_sum (fun i _ => vnn_nonneg i) (Finset.mem_univ j)

theorem vmax_le_one (h : 0 < normV2 v) : vmax (vnn v) ≤ 1 := vmax_le zero_le_one (vnn_le_one h)

/-- `(2 - gamma) / M`. -/
noncomputable def ratio (v : Vec ℝ n) : ℝ := (2 - 1 / Real.sqrt (1 + normV2 v)) / vmax (vnn v)

theorem root_gt (h : 0 < normV2 v) : 1 < Real.sqrt (1 + normV2 v) := by
  rw [Real.lt_sqrt zero_le_one]; linarith

theorem gamma_pos (h : 0 < normV2 v) : 0 < 1 / Real.sqrt (1 + normV2 v) := by
  have := root_gt h
  positivity

theorem gamma_lt (h : 0 < normV2 v) : 1 / Real.sqrt (1 + normV2 v) < 1 := by
  have := root_gt h
  rw [div_lt_one (by linarith)]; exact this

theorem ratio_mul (h : 0 < normV2 v) : ratio v * vmax (vnn v) = 2 - 1 / Real.sqrt (1 + normV2 v) :=
  div_mul_cancel₀ _ (vmax_pos h).ne'

theorem ratio_pos (h : 0 < normV2 v) : 0 < ratio v :=
  div_pos (by have := gamma_lt h; linarith) (vmax_pos h)

/-- The argument of `alpha`. -/
theorem alpha_sq (h : 0 < normV2 v) :
    (NumFns.sqrt (normV2 v ^ 2 + (1 + normV2 v) / vmax (vnn v) * (2 - 1 / NumFns.sqrt (1 + normV2 v))) / (2 + normV2 v) : ℝ) ^ 2 =
      (normV2 v ^ 2 + (1 + normV2 v) * ratio v) / (2 + normV2 v) ^ 2 := by
  have e : (normV2 v ^ 2 + (1 + normV2 v) / vmax (vnn v) * (2 - 1 / Real.sqrt (1 + normV2 v)) : ℝ) =
      normV2 v ^ 2 + (1 + normV2 v) * ratio v := by unfold ratio; ring
  have h0 : 0 ≤ normV2 v ^ 2 + (1 + normV2 v) * ratio v := by have := ratio_pos h; positivity
  rw [div_pow]
  congr 1
  show Real.sqrt (_ + _ / _ * (2 - 1 / Real.sqrt _)) ^ 2 = _
  rw [e, Real.sq_sqrt h0]

/-- The two branches. -/
theorem alphaBeta_cases (h : 0 < normV2 v) :
    (ratio v < 4 ∧ (alphaBeta v).1 ^ 2 = (normV2 v ^ 2 + (1 + normV2 v) * ratio v) / (2 + normV2 v) ^ 2 ∧
      (alphaBeta v).2 = (4 - ratio v) / (1 + 2 / normV2 v) ^ 2) ∨
    (4 ≤ ratio v ∧ alphaBeta v = (1, 0)) := by
  have hs := alpha_sq h
  have h2 : 0 < 2 + normV2 v := by linarith
  have hr := ratio_pos h
  unfold alphaBeta
  dsimp only
  set al : ℝ := NumFns.sqrt (normV2 v ^ 2 + (1 + normV2 v) / vmax (vnn v) * (2 - 1 / NumFns.sqrt (1 + normV2 v))) / (2 + normV2 v)
    with hal
  have hal0 : 0 ≤ al := div_nonneg (Real.sqrt_nonneg _) h2.le
  by_cases hlt : al < 1
  · left
    rw [if_pos hlt]
    refine ⟨?_, hs, rfl⟩
    have : al ^ 2 < 1 := by nlinarith
    rw [hs, div_lt_one (by positivity)] at this
    have h3 : (1 + normV2 v) * ratio v < (1 + normV2 v) * 4 := by nlinarith
    exact lt_of_mul_lt_mul_left h3 (by linarith)
  · right
    rw [if_neg hlt]
    refine ⟨?_, rfl⟩
    have : 1 ≤ al ^ 2 := by nlinarith [not_lt.1 hlt]
    rw [hs, le_div_iff₀ (by positivity), one_mul] at this
    have h3 : (1 + normV2 v) * 4 ≤ (1 + normV2 v) * ratio v := by nlinarith
    exact le_of_mul_le_mul_left h3 (by linarith)

/-- `bsca + 2 alpha^2` is the smaller of `ratio` and 4. -/
theorem coeff_eq (h : 0 < normV2 v) : bsca v + 2 * (alphaBeta v).1 ^ 2 = min (ratio v) 4 := by
  rcases alphaBeta_cases h with ⟨hr, h1, h2⟩ | ⟨hr, h1⟩
  · rw [min_eq_left hr.le]
    unfold bsca
    rw [h1, h2]
    have hn : normV2 v ≠ 0 := h.ne'
    have h3 : (2 + normV2 v) ≠ 0 := by linarith
    have h4 : (1 + 2 / normV2 v) = (2 + normV2 v) / normV2 v := by field_simp; ring
    rw [h4]
    field_simp
    ring
  · rw [min_eq_right hr]
    unfold bsca
    rw [h1]
    norm_num

/-- `avec` is bounded away from 0. -/
theorem avec_ge (h : 0 < normV2 v) (j : Fin n) : 1 / Real.sqrt (1 + normV2 v) ≤ avec v j := by
  unfold avec
  rw [coeff_eq h]
  have h1 : min (ratio v) 4 * vnn v j ≤ ratio v * vnn v j := mul_le_mul_of_nonneg_right (min_le_left _ _) (vnn_nonneg j)
  have h2 : ratio v * vnn v j ≤ ratio v * vmax (vnn v) := mul_le_mul_of_nonneg_left (le_vmax _ j) (ratio_pos h).le
  rw [ratio_mul h] at h2
  linarith

theorem avec_pos (h : 0 < normV2 v) (j : Fin n) : 0 < avec v j := lt_of_lt_of_le (gamma_pos h) (avec_ge h j)

theorem sum_invavnn_nonneg (h : 0 < normV2 v) : 0 ≤ dot (vnn v) (invavnn v) := by
  rw [dot_def]
  exact Finset.sum_nonneg fun j _ => mul_nonneg (vnn_nonneg j) (div_nonneg (vnn_nonneg j) (avec_pos h j).le)

theorem sum_invavnn_le (h : 0 < normV2 v) : dot (vnn v) (invavnn v) ≤ vmax (vnn v) * Real.sqrt (1 + normV2 v) := by
  have hg := gamma_pos h
  have hM := vmax_pos h
  have ht := root_gt h
  have hj : ∀ j, vnn v j * invavnn v j ≤ vnn v j * (vmax (vnn v) * Real.sqrt (1 + normV2 v)) := fun j => by
    refine mul_le_mul_of_nonneg_left ?_ (vnn_nonneg j)
    unfold invavnn
    rw [div_le_iff₀ (avec_pos h j)]
    have h1 := avec_ge h j
    have h2 := le_vmax (vnn v) j
    have h3 : vmax (vnn v) = vmax (vnn v) * Real.sqrt (1 + normV2 v) * (1 / Real.sqrt (1 + normV2 v)) := by
      field_simp
    calc vnn v j ≤ vmax (vnn v) := h2
      _ = vmax (vnn v) * Real.sqrt (1 + normV2 v) * (1 / Real.sqrt (1 + normV2 v)) := h3
      _ ≤ _ := mul_le_mul_of_nonneg_left h1 (by positivity)
  calc dot (vnn v) (invavnn v) ≤ ∑ j, vnn v j * (vmax (vnn v) * Real.sqrt (1 + normV2 v)) := by
        rw [dot_def]; exact Finset.sum_le_sum fun j _ => hj j
    _ = _ := by rw [← Finset.sum_mul, vnn_sum h, one_mul]

/-- The denominator of the natural gradient is positive. -/
theorem denom_pos (h : 0 < normV2 v) : 0 < denom v := by
  have h0 := sum_invavnn_nonneg h
  have h1 := sum_invavnn_le h
  unfold denom
  by_cases hb : 0 ≤ bsca v
  · have := mul_nonneg hb h0; linarith
  push Not at hb
  rcases alphaBeta_cases h with ⟨hr, e1, e2⟩ | ⟨hr, e1⟩
  · set t := Real.sqrt (1 + normV2 v) with ht
    have ht1 : 1 < t := root_gt h
    have hts : t ^ 2 = 1 + normV2 v := Real.sq_sqrt (by linarith)
    have hM := vmax_pos h
    have hM1 := vmax_le_one h
    have hbs : bsca v = (ratio v * (t ^ 4 + 1) - 2 * (t ^ 2 - 1) ^ 2) / (1 + t ^ 2) ^ 2 := by
      unfold bsca
      rw [e1, e2, hts]
      have h3 : (2 + normV2 v) ≠ 0 := by linarith
      have h3' : (1 + (1 + normV2 v)) ≠ 0 := by linarith
      have hn : normV2 v ≠ 0 := h.ne'
      have h4 : (1 + 2 / normV2 v) = (2 + normV2 v) / normV2 v := by field_simp; ring
      have h5 : t ^ 4 = (1 + normV2 v) ^ 2 := by rw [← hts]; ring
      rw [h4, h5]
      field_simp
      ring
    have hrm : ratio v * vmax (vnn v) = 2 - 1 / t := ratio_mul h
    have h6 : bsca v * (vmax (vnn v) * t) ≤ bsca v * dot (vnn v) (invavnn v) := mul_le_mul_of_nonpos_left h1 hb.le
    have h7 : -1 < bsca v * (vmax (vnn v) * t) := by
      have h8 : bsca v * (vmax (vnn v) * t) =
          ((2 * t - 1) * (t ^ 4 + 1) - 2 * vmax (vnn v) * t * (t ^ 2 - 1) ^ 2) / (1 + t ^ 2) ^ 2 := by
        rw [hbs, div_mul_eq_mul_div]
        congr 1
        have : ratio v * vmax (vnn v) * t = 2 * t - 1 := by
          rw [hrm]; field_simp
        calc _ = (ratio v * vmax (vnn v) * t) * (t ^ 4 + 1) - 2 * vmax (vnn v) * t * (t ^ 2 - 1) ^ 2 := by ring
          _ = _ := by rw [this]
      rw [h8, lt_div_iff₀ (by positivity)]
      have h9 : 2 * vmax (vnn v) * t * (t ^ 2 - 1) ^ 2 ≤ 2 * t * (t ^ 2 - 1) ^ 2 := by
        have : 0 ≤ t * (t ^ 2 - 1) ^ 2 := by positivity
        nlinarith
      have h10 : 0 < t ^ 2 := by positivity
      have h11 : 0 < t ^ 3 := by positivity
      nlinarith
    linarith
  · exfalso
    unfold bsca at hb
    rw [e1] at hb
    norm_num at hb

end

/-! ## Truncation -/

section
variable {n : Nat}

theorem cap_le {up a b : ℝ} : cap up a b ≤ up := by
  unfold cap
  split_ifs
  · exact le_refl _
  · exact min_le_left _ _

theorem cap_pos {up a b : ℝ} (hu : 0 < up) (ha : 0 < a) (hb : 0 ≤ b) : 0 < cap up a b := by
  unfold cap
  split_ifs with h
  · exact hu
  · have : 0 < b := lt_of_le_of_ne hb (Ne.symm h)
    exact lt_min hu (by positivity)

theorem cap_mul {up a b : ℝ} (ha : 0 < a) (hb : 0 ≤ b) : cap up a b * b ≤ 7 / 10 * a := by
  unfold cap
  split_ifs with h
  · rw [h]; linarith
  · have h' : 0 < b := lt_of_le_of_ne hb (Ne.symm h)
    calc _ ≤ 7 / 10 * (a / b) * b := mul_le_mul_of_nonneg_right (min_le_right _ _) hb
      _ = 7 / 10 * a := by field_simp

theorem foldl_cap {d w : Vec ℝ n} (hd : ∀ j, 0 < d j) (l : List (Fin n)) : ∀ u : ℝ, 0 < u →
    0 < l.foldl (fun up j => cap up (d j) |w j|) u ∧ l.foldl (fun up j => cap up (d j) |w j|) u ≤ u ∧
    ∀ j ∈ l, l.foldl (fun up j => cap up (d j) |w j|) u * |w j| ≤ 7 / 10 * d j := by
  induction l with
  | nil => intro u hu; simpa using hu
  | cons i l ih =>
    intro u hu
    obtain ⟨h1, h2, h3⟩ := ih (cap u (d i) |w i|) (cap_pos hu (hd i) (abs_nonneg _))
    refine ⟨h1, h2.trans cap_le, fun j hj => ?_⟩
    rcases List.mem_cons.1 hj with rfl | hj
    · exact (mul_le_mul_of_nonneg_right h2 (abs_nonneg _)).trans (cap_mul (hd j) (abs_nonneg _))
    · exact h3 j hj

theorem upfactor_spec {d v ngv ngd : Vec ℝ n} (hd : ∀ j, 0 < d j) (hv : 0 < normV v) :
    0 < upfactor d v ngv ngd ∧ upfactor d v ngv ngd ≤ 1 ∧ (∀ j, |upfactor d v ngv ngd * ngd j| ≤ 7 / 10 * d j) ∧
    ∑ j, (upfactor d v ngv ngd * ngv j) ^ 2 ≤ (7 / 10) ^ 2 * normV2 v := by
  have hq : (0 : ℝ) ≤ NumFns.sqrt (dot ngv ngv) := Real.sqrt_nonneg _
  have hc := cap_pos (up := 1) one_pos hv hq
  obtain ⟨h1, h2, h3⟩ := foldl_cap (w := ngd) hd (List.finRange n) _ hc
  rw [← upfactor_eq] at h1 h2 h3
  refine ⟨h1, h2.trans cap_le, fun j => ?_, ?_⟩
  · rw [abs_mul, abs_of_pos h1]
    exact h3 j (List.mem_finRange j)
  · have h4 : upfactor d v ngv ngd * NumFns.sqrt (dot ngv ngv) ≤ 7 / 10 * normV v :=
      (mul_le_mul_of_nonneg_right h2 hq).trans (cap_mul hv hq)
    have h5 : (NumFns.sqrt (dot ngv ngv) : ℝ) ^ 2 = dot ngv ngv := Real.sq_sqrt normV2_nonneg
    have h6 : ∑ j, (upfactor d v ngv ngd * ngv j) ^ 2 = (upfactor d v ngv ngd * NumFns.sqrt (dot ngv ngv)) ^ 2 := by
      rw [mul_pow, h5, dot_def, Finset.mul_sum]
      exact Finset.sum_congr rfl fun j _ => by ring
    rw [h6, ← normV_sq, ← mul_pow]
    exact pow_le_pow_left₀ (mul_nonneg h1.le hq) h4 2

/-- A change of at most 70 percent leaves a non-zero vector non-zero. -/
theorem add_ne_zero {v w : Vec ℝ n} (hv : 0 < normV2 v) (hw : ∑ j, w j ^ 2 ≤ (7 / 10) ^ 2 * normV2 v) :
    0 < normV2 (fun j => v j + w j) := by
  rw [normV2_pos_iff]
  by_contra hc
  push Not at hc
  have h1 : ∀ j, w j ^ 2 = v j ^ 2 := fun j => by
    have := hc j
    have : w j = -v j := by linarith
    rw [this]; ring
  have h2 : ∑ j, w j ^ 2 = normV2 v := by rw [normV2_eq]; exact Finset.sum_congr rfl fun j _ => h1 j
  rw [h2] at hw
  nlinarith

/-- `mnorm` vanishes only for a vanishing step. -/
theorem mnorm_pos {dx d v : Vec ℝ n} (hd : ∀ j, 0 < d j) (h : ∃ j, dx j ≠ 0) : 0 < mnorm dx d v := by
  have hy : 0 < ∑ j, (dx j / d j) ^ 2 := sum_sq_pos' (by
    obtain ⟨j, hj⟩ := h
    exact ⟨j, div_ne_zero hj (hd j).ne'⟩)
  have hs := normV2_nonneg (v := v)
  unfold mnorm
  rw [ArrayOps.sum_eq]
  have hcs : (dot (fun j => dx j / d j) v) ^ 2 ≤ (∑ j, (dx j / d j) ^ 2) * normV2 v := by
    rw [normV2_eq, dot_def]; exact Finset.sum_mul_sq_le_sq_mul_sq _ _ _
  have : (dot (fun j => dx j / d j) v) ^ 2 / (1 + normV2 v) < ∑ j, (dx j / d j) ^ 2 := by
    rw [div_lt_iff₀ (by linarith)]
    nlinarith
  linarith

end

/-! ## Runs -/

section
variable {σ : Type} {p n : Nat} {P : Par σ ℝ p n} {Q : Evo.Par ℝ n} {c : Cfg}

/-- The matrix `D (I + v vᵀ) D`. -/
def cov (d v : Vec ℝ n) : Matrix (Fin n) (Fin n) ℝ := fun i j => d i * ((if i = j then 1 else 0) + v i * v j) * d j

theorem quad_cov (d v x : Vec ℝ n) : quad (cov d v) x = ∑ i, (x i * d i) ^ 2 + (∑ i, x i * d i * v i) ^ 2 := by
  rw [sq (∑ i, x i * d i * v i), Finset.sum_mul_sum, ← Finset.sum_add_distrib]
  simp only [quad, cov]
  refine Finset.sum_congr rfl fun i _ => ?_
  have : ∀ j, x i * (d i * ((if i = j then 1 else 0) + v i * v j) * d j) * x j =
      (if i = j then x i * d i * (d j * x j) else 0) + x i * d i * v i * (x j * d j * v j) := fun j => by
    split_ifs <;> ring
  simp only [this]
  rw [Finset.sum_add_distrib, Finset.sum_ite_eq, if_pos (Finset.mem_univ _)]
  ring

theorem cov_posDef {d v : Vec ℝ n} (hd : ∀ j, 0 < d j) : PosDef (cov d v) := fun x hx => by
  rw [quad_cov]
  have : 0 < ∑ i, (x i * d i) ^ 2 := sum_sq_pos' (by
    obtain ⟨i, hi⟩ := hx
    exact ⟨i, mul_ne_zero hi (hd i).ne'⟩)
  positivity

theorem cov_sym (d v : Vec ℝ n) : Sym (cov d v) := fun i j => by
  unfold cov
  rcases eq_or_ne i j with h | h
  · rw [h]
  · rw [if_neg h, if_neg h.symm]; ring

theorem cov_diag (d v : Vec ℝ n) (j : Fin n) : cov d v j j = diagCov d v j := by
  unfold cov diagCov
  rw [if_pos rfl]

/-- The increments change nothing or are the truncated natural gradient. -/
theorem increments_spec {me : ℝ} {order : Equiv.Perm (Fin p)} {cond : Bool} {pc d v : Vec ℝ n} {ary : Pop ℝ p n}
    (hd : ∀ j, 0 < d j) (hv : 0 < normV2 v) :
    (∀ j, |(increments P me order cond pc d v ary).2 j| ≤ 7 / 10 * d j) ∧
    ∑ j, ((increments P me order cond pc d v ary).1 j) ^ 2 ≤ (7 / 10) ^ 2 * normV2 v := by
  unfold increments
  dsimp only
  by_cases h : 0 < cmu n me + c1 n me
  · rw [if_pos h]
    exact (upfactor_spec hd (Real.sqrt_pos.2 hv)).2.2
  · rw [if_neg h]
    refine ⟨fun j => ?_, ?_⟩
    · have := hd j
      simp only [abs_zero]; positivity
    · simp only [ne_eq, OfNat.ofNat_ne_zero, not_false_eq_true, zero_pow, Finset.sum_const_zero]; positivity

/-- What the state satisfies: after the first generation, or if the first direction is not zero. -/
structure Valid (s : State σ ℝ p n) : Prop where
  dvec : ∀ j, 0 < s.dvec j
  vvec : 0 < normV2 s.vvec
  sigma : 0 < s.sigma

theorem stepSize_pos {order : Equiv.Perm (Fin p)} {s : State σ ℝ p n} {u} (h : stepSize order s = .ok u) (hs : 0 < s.sigma) :
    0 < u.2.1 := by
  unfold stepSize at h
  split_ifs at h
  · cases h; exact mul_pos hs (Real.exp_pos _)
  · cases h; exact hs

/-- One adaptation. -/
theorem Valid.update {s s' : State σ ℝ p n} (h : Valid s) {k : Nat} {X : Pop ℝ p n} {o : Equiv.Perm (Fin p)}
    (hu : update P k X o s = .ok s') : Valid s' ∧ (∀ j, |s'.dvec j - s.dvec j| ≤ 7 / 10 * s.dvec j) ∧
      ∑ j, (s'.vvec j - s.vvec j) ^ 2 ≤ (7 / 10) ^ 2 * normV2 s.vvec := by
  unfold VDCMA.update at hu
  rw [bind_ok_iff] at hu
  obtain ⟨u, h1, hu⟩ := hu
  rw [bind_ok_iff] at hu
  obtain ⟨-, -, hu⟩ := hu
  injection hu with hu
  subst hu
  obtain ⟨h2, h3⟩ := increments_spec (P := P) (me := mueff P.mu) (order := o) (cond := u.2.2) (pc := pcNext P o s u.2.2)
    (ary := s.ary) h.dvec h.vvec
  refine ⟨⟨fun j => ?_, add_ne_zero h.vvec h3, stepSize_pos h1 h.sigma⟩, fun j => ?_, ?_⟩
  · have h4 := abs_le.1 (h2 j)
    have h5 := h.dvec j
    show 0 < s.dvec j + _
    linarith [h4.1]
  · show |s.dvec j + _ - s.dvec j| ≤ _
    rw [add_sub_cancel_left]
    exact h2 j
  · refine le_trans (le_of_eq (Finset.sum_congr rfl fun j _ => ?_)) h3
    show (s.vvec j + _ - s.vvec j) ^ 2 = _
    rw [add_sub_cancel_left]

theorem sample_ok {s : State σ ℝ p n} {a : Pop ℝ p n × State σ ℝ p n} (h : sample P s = .ok a) :
    (0 < normV s.vvec ∧ ∀ j, 0 < s.dvec j) ∧
    ∃ r : Pop ℝ p n × σ, inject P s (fun i => spread s.dvec s.vvec ((drawMat P.R.randn p n s.rng).1 i)) (drawMat P.R.randn p n s.rng).2 = .ok r ∧
      a.1 = (fun i j => s.xmean j + s.sigma * r.1 i j) ∧
      a.2 = { s with
              ary := r.1
              diagC := diagCov s.dvec s.vvec
              rng := r.2 } := by
  unfold sample at h
  rw [bind_ok_iff] at h
  obtain ⟨u, h1, h⟩ := h
  rw [need_ok] at h1
  rw [bind_ok_iff] at h
  obtain ⟨r, h2, h⟩ := h
  cases h
  exact ⟨h1, r, h2, rfl, rfl⟩

/-- The states of a run, except that the first direction may be zero. -/
theorem reach_valid {m x : Vec ℝ n} {sigma : ℝ} {g : σ} (hs : 0 < sigma)
    (hv : ∃ j, (start P.R m x sigma g : State σ ℝ p n).vvec j ≠ 0) {L : St (State σ ℝ p n) ℝ p n}
    (h : Reach Q (gauss P) c (start P.R m x sigma g) L) : Valid L.s := by
  induction h with
  | start => exact ⟨fun _ => one_pos, normV2_pos_iff.2 hv, hs⟩
  | step _ hb ih =>
    obtain ⟨hp, a, e, rows, s, h1, h2, h3, h4, h5, h6, rfl⟩ := body_ok hb
    obtain ⟨-, r, -, -, h7⟩ := sample_ok h1
    have hV : Valid a.2 := by rw [h7]; exact ⟨ih.dvec, ih.vvec, ih.sigma⟩
    exact (hV.update (k := 0) h5).1

/-- The first generation is not sampled from a zero direction. -/
theorem reach_first {m x : Vec ℝ n} {sigma : ℝ} {g : σ} {L : St (State σ ℝ p n) ℝ p n}
    (h : Reach Q (gauss P) c (start P.R m x sigma g) L) : L.it = 0 ∨ ∃ j, (start P.R m x sigma g : State σ ℝ p n).vvec j ≠ 0 := by
  induction h with
  | start => exact Or.inl rfl
  | @step L r hL hb ih =>
    right
    rcases ih with h0 | h0
    · obtain ⟨hp, a, e, rows, s, h1, -⟩ := body_ok hb
      have h2 := normV_pos_iff.1 (sample_ok h1).1.1
      cases hL with
      | start => exact h2
      | step hL' hb' =>
        obtain ⟨hp, a, e, rows, s, -, -, -, -, -, -, rfl⟩ := body_ok hb'
        exact absurd h0 (Nat.succ_ne_zero _)
    · exact h0

/-- The direction of injection: `dx` is the last move of the mean. -/
theorem reach_dx {m x : Vec ℝ n} {sigma : ℝ} {g : σ} {L : St (State σ ℝ p n) ℝ p n}
    (h : Reach Q (gauss P) c (start P.R m x sigma g) L) :
    (L.s.inj = false ∧ L.it = 0) ∨ (L.s.inj = true ∧ 1 ≤ L.it ∧ ∀ j, L.s.xmean j = L.s.xold j + L.s.dx j) := by
  cases h with
  | start => exact Or.inl ⟨rfl, rfl⟩
  | step hL hb =>
    right
    obtain ⟨hp, a, e, rows, s, h1, h2, h3, h4, h5, h6, rfl⟩ := body_ok hb
    change update P 0 _ _ a.2 = _ at h5
    unfold update at h5
    rw [bind_ok_iff] at h5
    obtain ⟨u, -, h5⟩ := h5
    rw [bind_ok_iff] at h5
    obtain ⟨-, -, h5⟩ := h5
    injection h5 with h5
    subst h5
    exact ⟨rfl, Nat.succ_le_succ (Nat.zero_le _), fun j => rfl⟩

/-- How a part of an iteration can fail. -/
theorem fail_cases {m x : Vec ℝ n} {sigma : ℝ} {g : σ} {fn : Vec ℝ n → Val ℝ} (hobj : Q.obj.Faithful fn)
    (hsrt : IsArgsort Q.srt) (hf : Q.penalized = true → FiniteValued fn) (hme : 0 < Q.mueff) (hn : 0 < n) (hp : 0 < p) (hs : 0 < sigma)
    {L : St (State σ ℝ p n) ℝ p n} (h : Reach Q (gauss P) c (start P.R m x sigma g) L) {e : PyErr} (hF : PartFails Q (gauss P) L e) :
    (e = .unmodelled ∧ ∀ j, (start P.R m x sigma g : State σ ℝ p n).vvec j = 0) ∨
    (e = .unmodelled ∧ 1 ≤ L.it ∧ L.s.xmean = L.s.xold) ∨
    (e = .indexError ∧ p = 1 ∧ 1 ≤ L.it) := by
  by_cases hv : ∃ j, (start P.R m x sigma g : State σ ℝ p n).vvec j ≠ 0
  · have hV := reach_valid hs hv h
    have hdx := reach_dx h
    have hnv : 0 < normV L.s.vvec ∧ ∀ j, 0 < L.s.dvec j := ⟨Real.sqrt_pos.2 hV.vvec, hV.dvec⟩
    rcases hF with hF | ⟨a, ha, hF⟩
    · change sample P L.s = _ at hF
      unfold sample at hF
      rw [need_true hnv, ok_bind', bind_error_iff] at hF
      rcases hF with hF | ⟨r, -, hF⟩
      · unfold inject at hF
        rcases hdx with ⟨hi, -⟩ | ⟨hi, hit, hmv⟩
        · rw [hi] at hF; cases hF
        · rw [if_pos hi] at hF
          by_cases hz : ∃ j, L.s.dx j ≠ 0
          · rw [need_true (mnorm_pos hV.dvec hz), ok_bind'] at hF
            dsimp only at hF
            split_ifs at hF with h2
            · cases hF
              exact Or.inr (Or.inr ⟨rfl, by omega, hit⟩)
          · push Not at hz
            have hmz : mnorm L.s.dx L.s.dvec L.s.vvec = 0 := by simp [mnorm, dot_def, hz]
            have : need (0 < mnorm L.s.dx L.s.dvec L.s.vvec) = .error .unmodelled := by
              unfold need; rw [if_neg (by rw [hmz]; exact lt_irrefl _)]
            rw [this, error_bind'] at hF
            cases hF
            refine Or.inr (Or.inl ⟨rfl, hit, ?_⟩)
            funext j
            rw [hmv j, hz j, add_zero]
      · cases hF
    · obtain ⟨-, r, hinj, -, h7⟩ := sample_ok ha
      have hVa : Valid a.2 := by rw [h7]; exact ⟨hV.dvec, hV.vvec, hV.sigma⟩
      have hdC : ∀ j, 0 < a.2.diagC j := fun j => by
        rw [h7]
        show 0 < diagCov _ _ j
        rw [← cov_diag]
        exact (cov_posDef hV.dvec).diag j
      have hit : a.2.inj = L.s.inj := by rw [h7]
      rcases hF with hF | ⟨e', -, hF⟩
      · exfalso
        cases hpen : Q.penalized with
        | true =>
          rw [evaluate_pen hpen] at hF
          obtain ⟨r, er⟩ := penalize_total (srt := Q.srt) (fit := fun X => Q.obj.pop fun i => unstandardize Q.lower Q.upper (X i))
            (arx := a.1) (xmean := a.2.xmean) (xold := a.2.xold) (me := Q.mueff) (it := L.it + 1) (diagC := a.2.diagC)
            hsrt hn hp hVa.sigma hme hdC (fit_fin hobj (hf hpen)) (reach_penInv hsrt h).nonempty
            (reach_penFin hobj (hf hpen) hsrt h)
          change penalize Q.srt _ a.1 a.2.xmean a.2.xold a.2.sigma a.2.diagC Q.mueff (L.it + 1) L.pen = _ at hF
          rw [er] at hF
          cases hF
        | false => rw [evaluate_free hpen] at hF; cases hF
      · rcases hF with hF | ⟨s, hs', ⟨j, hj⟩, -⟩
        · change update P 0 _ _ a.2 = _ at hF
          unfold update at hF
          rw [bind_error_iff] at hF
          rcases hF with hF | ⟨u, -, hF⟩
          · unfold stepSize at hF
            rw [hit] at hF
            rcases hdx with ⟨hi, -⟩ | ⟨hi, hit, -⟩
            · rw [hi] at hF; cases hF
            · rw [if_pos hi] at hF
              split_ifs at hF with h1
              · cases hF
                exact Or.inr (Or.inr ⟨rfl, by omega, hit⟩)
          · rw [need_true ⟨Real.sqrt_pos.2 hVa.vvec, hVa.dvec, fun j => (avec_pos hVa.vvec j).ne', (denom_pos hVa.vvec).ne'⟩,
              ok_bind'] at hF
            cases hF
        · exfalso
          change update P 0 _ _ a.2 = _ at hs'
          unfold update at hs'
          rw [bind_ok_iff] at hs'
          obtain ⟨u, -, hs'⟩ := hs'
          rw [bind_ok_iff] at hs'
          obtain ⟨-, -, hs'⟩ := hs'
          injection hs' with hs'
          subst hs'
          exact absurd hj (not_lt.2 (hdC j).le)
  · push Not at hv
    left
    refine ⟨?_, hv⟩
    rcases reach_first h with h0 | h0
    · have hL : L.s = start P.R m x sigma g := by
        cases h with
        | start => rfl
        | step hL' hb' =>
          obtain ⟨hp, a, e, rows, s, -, -, -, -, -, -, rfl⟩ := body_ok hb'
          exact absurd h0 (Nat.succ_ne_zero _)
      have hnot : ¬ (0 < normV L.s.vvec ∧ ∀ j, 0 < L.s.dvec j) := by
        rintro ⟨h1, -⟩
        obtain ⟨j, hj⟩ := normV_pos_iff.1 h1
        rw [hL] at hj
        exact hj (hv j)
      rcases hF with hF | ⟨a, ha, -⟩
      · change sample P L.s = _ at hF
        unfold sample need at hF
        rw [if_neg hnot, error_bind'] at hF
        cases hF
        rfl
      · exact absurd (sample_ok ha).1 hnot
    · obtain ⟨j, hj⟩ := h0
      exact absurd (hv j) hj

/-! ### Five dimensions and fewer -/

theorem rates_nonpos (h : n ≤ 5) {me : ℝ} (hm : 1 ≤ me) : cmu n me + c1 n me ≤ 0 := by
  have hn : (n : ℝ) ≤ 5 := by exact_mod_cast h
  have hc : cfactor (K := ℝ) n ≤ 0 := by unfold cfactor; linarith
  have hpos : 0 < ((n : ℝ) + 13 / 10) ^ 2 + me := by positivity
  have hpos' : 0 < ((n : ℝ) + 2) ^ 2 + me := by positivity
  have h1 : c1 n me ≤ 0 := by
    unfold c1
    exact div_nonpos_of_nonpos_of_nonneg (by linarith) hpos.le
  have h2 : cmu n me ≤ 0 := by
    refine (min_le_right _ _).trans (div_nonpos_of_nonpos_of_nonneg ?_ hpos'.le)
    have := CMAES.two_le hm
    nlinarith
  linarith

/-- Nothing is adapted. -/
theorem increments_zero (h : n ≤ 5) {me : ℝ} (hm : 1 ≤ me) {order : Equiv.Perm (Fin p)} {cond : Bool} {pc d v : Vec ℝ n}
    {ary : Pop ℝ p n} : increments P me order cond pc d v ary = (fun _ => 0, fun _ => 0) := by
  unfold increments
  dsimp only
  rw [if_neg (not_lt.2 (rates_nonpos h hm))]

theorem reach_const (hn : n ≤ 5) (hmu : 0 < P.mu) {s0 : State σ ℝ p n} {L : St (State σ ℝ p n) ℝ p n} (h : Reach Q (gauss P) c s0 L) :
    L.s.dvec = s0.dvec ∧ L.s.vvec = s0.vvec := by
  induction h with
  | start => exact ⟨rfl, rfl⟩
  | step _ hb ih =>
    obtain ⟨hp, a, e, rows, s, h1, h2, h3, h4, h5, h6, rfl⟩ := body_ok hb
    obtain ⟨-, r, -, -, h7⟩ := sample_ok h1
    change update P 0 _ _ a.2 = _ at h5
    unfold update at h5
    rw [bind_ok_iff] at h5
    obtain ⟨u, -, h5⟩ := h5
    rw [bind_ok_iff] at h5
    obtain ⟨-, -, h5⟩ := h5
    injection h5 with h5
    have hz := fun pc => increments_zero (P := P) hn (one_le_mueff (K := ℝ) hmu) (order := Q.srt p e.1) (cond := u.2.2) (pc := pc)
      (d := a.2.dvec) (v := a.2.vvec) (ary := a.2.ary)
    subst h5
    constructor
    · rw [← ih.1]
      funext j
      show a.2.dvec j + _ = _
      rw [hz, h7]
      exact add_zero _
    · rw [← ih.2]
      funext j
      show a.2.vvec j + _ = _
      rw [hz, h7]
      exact add_zero _

end

end Stochopy.VDCMA
