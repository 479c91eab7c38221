import Verif.Lemmas.Ergodic
import Mathlib.MeasureTheory.Function.L2Space
import Mathlib.MeasureTheory.Measure.Decomposition.IntegralRNDeriv

/-!
# Reversible chains forget where they started
-/

set_option linter.unusedSectionVars false

namespace Stochopy
open Spec MeasureTheory Filter Topology
open scoped ENNReal

variable {X Ω : Type} [MeasurableSpace X] [MeasurableSpace Ω]

/-- The expectation of `h` after one step. -/
noncomputable def expect (P : Measure Ω) (step : X → Ω → X) (h : X → ℝ) (x : X) : ℝ := ∫ r, h (step x r) ∂P

section Basics
variable {π : Measure X} [IsProbabilityMeasure π] {P : Measure Ω} [IsProbabilityMeasure P] {step : X → Ω → X}

theorem measurable_expect (hm : Measurable fun e : X × Ω => step e.1 e.2) {h : X → ℝ} (hh : Measurable h) :
    Measurable (expect P step h) :=
  ((hh.comp hm).stronglyMeasurable.integral_prod_right' (ν := P)).measurable

theorem expect_le {h : X → ℝ} {M : ℝ} (hM : ∀ x, |h x| ≤ M) (x : X) : |expect P step h x| ≤ M := by
  have := norm_integral_le_of_norm_le_const (μ := P) (f := fun r => h (step x r)) (C := M) (ae_of_all _ fun r => hM _)
  rwa [probReal_univ, mul_one] at this

theorem bounded_integrable {μ : Measure X} [IsFiniteMeasure μ] {h : X → ℝ} (hh : Measurable h) {M : ℝ} (hM : ∀ x, |h x| ≤ M) :
    Integrable h μ :=
  Integrable.of_bound hh.aestronglyMeasurable M (ae_of_all _ hM)

theorem iterate_expect (hm : Measurable fun e : X × Ω => step e.1 e.2) {h : X → ℝ} (hh : Measurable h) {M : ℝ} (hM : ∀ x, |h x| ≤ M)
    (n : Nat) : Measurable ((expect P step)^[n] h) ∧ ∀ x, |(expect P step)^[n] h x| ≤ M := by
  induction n with
  | zero => exact ⟨hh, hM⟩
  | succ n ih =>
    rw [Function.iterate_succ_apply']
    exact ⟨measurable_expect hm ih.1, expect_le ih.2⟩

theorem expect_sub_const (hm : Measurable fun e : X × Ω => step e.1 e.2) {h : X → ℝ} (hh : Measurable h) {M : ℝ} (hM : ∀ x, |h x| ≤ M)
    (c : ℝ) (x : X) : expect P step (fun y => h y - c) x = expect P step h x - c := by
  have h1 : Integrable (fun r => h (step x r)) P := bounded_integrable (hh.comp (hm.comp measurable_prodMk_left)) fun r => hM _
  have h2 := integral_sub h1 (integrable_const c)
  rw [integral_const, probReal_univ, one_smul] at h2
  exact h2

theorem iterate_sub_const (hm : Measurable fun e : X × Ω => step e.1 e.2) {h : X → ℝ} (hh : Measurable h) {M : ℝ} (hM : ∀ x, |h x| ≤ M)
    (c : ℝ) (n : Nat) : (expect P step)^[n] (fun y => h y - c) = fun x => (expect P step)^[n] h x - c := by
  induction n with
  | zero => rfl
  | succ n ih =>
    rw [Function.iterate_succ_apply', ih, Function.iterate_succ_apply']
    funext x
    exact expect_sub_const hm (iterate_expect hm hh hM n).1 (iterate_expect hm hh hM n).2 c x

theorem integral_expect_mul (hm : Measurable fun e : X × Ω => step e.1 e.2) {h k : X → ℝ} (hh : Measurable h) (hk : Measurable k)
    {M M' : ℝ} (hM : ∀ x, |h x| ≤ M) (hM' : ∀ x, |k x| ≤ M') :
    ∫ x, expect P step h x * k x ∂π = ∫ e, h (step e.1 e.2) * k e.1 ∂(π.prod P) := by
  rw [integral_prod]
  · refine integral_congr_ae (ae_of_all _ fun x => ?_)
    exact (integral_mul_const _ _).symm
  · refine bounded_integrable ((hh.comp hm).mul (hk.comp measurable_fst)) (M := M * M') fun e => ?_
    rw [abs_mul]
    exact mul_le_mul (hM _) (hM' _) (abs_nonneg _) ((abs_nonneg _).trans (hM (step e.1 e.2)))

/-- A reversible chain: the first two points can be exchanged. -/
def Reversible (π : Measure X) (P : Measure Ω) (step : X → Ω → X) : Prop :=
  (π.prod P).map (fun e => (e.1, step e.1 e.2)) = (π.prod P).map (fun e => (step e.1 e.2, e.1))

theorem Reversible.stationary (hm : Measurable fun e : X × Ω => step e.1 e.2) (h : Reversible π P step) :
    (π.prod P).map (fun e => step e.1 e.2) = π := by
  have h1 := congrArg (Measure.map Prod.fst) h
  rw [Measure.map_map measurable_fst (measurable_fst.prodMk hm), Measure.map_map measurable_fst (hm.prodMk measurable_fst)] at h1
  have h2 : (π.prod P).map Prod.fst = π := by rw [Measure.map_fst_prod, measure_univ, one_smul]
  exact h1.symm.trans h2

theorem expect_symm (hm : Measurable fun e : X × Ω => step e.1 e.2) (hrev : Reversible π P step) {h k : X → ℝ} (hh : Measurable h)
    (hk : Measurable k) {M M' : ℝ} (hM : ∀ x, |h x| ≤ M) (hM' : ∀ x, |k x| ≤ M') :
    ∫ x, expect P step h x * k x ∂π = ∫ x, h x * expect P step k x ∂π := by
  have hg : Measurable fun z : X × X => h z.2 * k z.1 := (hh.comp measurable_snd).mul (hk.comp measurable_fst)
  have h1 : ∫ z, h z.2 * k z.1 ∂((π.prod P).map (fun e => (e.1, step e.1 e.2))) = ∫ e, h (step e.1 e.2) * k e.1 ∂(π.prod P) :=
    integral_map (measurable_fst.prodMk hm).aemeasurable hg.aestronglyMeasurable
  have h2 : ∫ z, h z.2 * k z.1 ∂((π.prod P).map (fun e => (step e.1 e.2, e.1))) = ∫ e, h e.1 * k (step e.1 e.2) ∂(π.prod P) :=
    integral_map (hm.prodMk measurable_fst).aemeasurable hg.aestronglyMeasurable
  rw [integral_expect_mul hm hh hk hM hM', ← h1, hrev, h2]
  have h3 := integral_expect_mul (π := π) (P := P) hm hk hh hM' hM
  simp only [mul_comm] at h3 ⊢
  exact h3.symm

theorem iterate_symm (hm : Measurable fun e : X × Ω => step e.1 e.2) (hrev : Reversible π P step) {h k : X → ℝ} (hh : Measurable h)
    (hk : Measurable k) {M M' : ℝ} (hM : ∀ x, |h x| ≤ M) (hM' : ∀ x, |k x| ≤ M') (n : Nat) :
    ∫ x, (expect P step)^[n] h x * k x ∂π = ∫ x, h x * (expect P step)^[n] k x ∂π := by
  induction n generalizing h k with
  | zero => rfl
  | succ n ih =>
    rw [Function.iterate_succ_apply', Function.iterate_succ_apply]
    rw [expect_symm hm hrev (iterate_expect hm hh hM n).1 hk (iterate_expect hm hh hM n).2 hM']
    exact ih hh (measurable_expect hm hk) hM (expect_le hM')

/-- Expectations after a step are closer together in the mean. -/
theorem integral_stationary (hm : Measurable fun e : X × Ω => step e.1 e.2) (hinv : (π.prod P).map (fun e => step e.1 e.2) = π)
    {h : X → ℝ} (hh : Measurable h) : ∫ e, h (step e.1 e.2) ∂(π.prod P) = ∫ x, h x ∂π := by
  conv_rhs => rw [← hinv]
  exact (integral_map hm.aemeasurable hh.aestronglyMeasurable).symm

/-- The variance identity. -/
theorem variance_step (hm : Measurable fun e : X × Ω => step e.1 e.2) (hinv : (π.prod P).map (fun e => step e.1 e.2) = π)
    {h : X → ℝ} (hh : Measurable h) {M : ℝ} (hM : ∀ x, |h x| ≤ M) :
    ∫ e, (h (step e.1 e.2) - expect P step h e.1) ^ 2 ∂(π.prod P) = ∫ x, h x ^ 2 ∂π - ∫ x, expect P step h x ^ 2 ∂π := by
  have hT := measurable_expect (P := P) hm hh
  have hTM := expect_le (P := P) (step := step) hM
  have hsq : ∀ {Y : Type} [MeasurableSpace Y] {μ : Measure Y} [IsFiniteMeasure μ] {u v : Y → ℝ}, Measurable u → Measurable v →
      (∀ y, |u y| ≤ M) → (∀ y, |v y| ≤ M) → Integrable (fun y => u y * v y) μ := fun hu hv hu' hv' =>
    bounded_integrable (hu.mul hv) (M := M * M) fun y => by
      rw [abs_mul]
      exact mul_le_mul (hu' y) (hv' y) (abs_nonneg _) ((abs_nonneg _).trans (hu' y))
  have e1 : ∀ e : X × Ω, (h (step e.1 e.2) - expect P step h e.1) ^ 2 = h (step e.1 e.2) * h (step e.1 e.2) -
      2 * (h (step e.1 e.2) * expect P step h e.1) + expect P step h e.1 * expect P step h e.1 := fun e => by ring
  simp only [e1]
  have i1 : Integrable (fun e : X × Ω => h (step e.1 e.2) * h (step e.1 e.2)) (π.prod P) :=
    hsq (hh.comp hm) (hh.comp hm) (fun e => hM _) fun e => hM _
  have i2 : Integrable (fun e : X × Ω => h (step e.1 e.2) * expect P step h e.1) (π.prod P) :=
    hsq (hh.comp hm) (hT.comp measurable_fst) (fun e => hM _) fun e => hTM _
  have i3 : Integrable (fun e : X × Ω => expect P step h e.1 * expect P step h e.1) (π.prod P) :=
    hsq (hT.comp measurable_fst) (hT.comp measurable_fst) (fun e => hTM _) fun e => hTM _
  have i4 : Integrable (fun e : X × Ω => h (step e.1 e.2) * h (step e.1 e.2) - 2 * (h (step e.1 e.2) * expect P step h e.1))
    (π.prod P) := i1.sub (i2.const_mul 2)
  rw [integral_add i4 i3, integral_sub i1 (i2.const_mul 2), integral_const_mul,
    ← integral_expect_mul hm hh hT hM hTM, integral_stationary (h := fun x => h x * h x) hm hinv (hh.mul hh)]
  have e2 : ∫ e : X × Ω, expect P step h e.1 * expect P step h e.1 ∂(π.prod P) = ∫ x, expect P step h x * expect P step h x ∂π := by
    rw [integral_prod _ i3]
    refine integral_congr_ae (ae_of_all _ fun x => ?_)
    show ∫ _, expect P step h x * expect P step h x ∂P = _
    rw [integral_const, probReal_univ, one_smul]
  rw [e2]
  simp only [sq]
  ring

theorem expect_contract (hm : Measurable fun e : X × Ω => step e.1 e.2) (hinv : (π.prod P).map (fun e => step e.1 e.2) = π)
    {h : X → ℝ} (hh : Measurable h) {M : ℝ} (hM : ∀ x, |h x| ≤ M) :
    ∫ x, expect P step h x ^ 2 ∂π ≤ ∫ x, h x ^ 2 ∂π := by
  have h1 := variance_step (π := π) (P := P) hm hinv hh hM
  have h2 : 0 ≤ ∫ e, (h (step e.1 e.2) - expect P step h e.1) ^ 2 ∂(π.prod P) := integral_nonneg fun e => sq_nonneg _
  linarith

/-! ## Limits in the mean square -/

theorem mean_square_limit {u : Nat → X → ℝ} (hu : ∀ n, Measurable (u n)) {M : ℝ} (hM : ∀ n x, |u n x| ≤ M)
    (hc : ∀ ε > 0, ∃ N, ∀ m ≥ N, ∀ n ≥ N, ∫ x, (u m x - u n x) ^ 2 ∂π < ε) :
    ∃ g : X → ℝ, Measurable g ∧ (∀ x, |g x| ≤ M) ∧ Tendsto (fun n => ∫ x, (u n x - g x) ^ 2 ∂π) atTop (𝓝 0) := by
  have hmem : ∀ n, MemLp (u n) 2 π := fun n => MemLp.of_bound (hu n).aestronglyMeasurable M (ae_of_all _ (hM n))
  have hnorm : ∀ (F : Lp ℝ 2 π) (f : X → ℝ), F =ᵐ[π] f → ‖F‖ ^ 2 = ∫ x, f x ^ 2 ∂π := by
    intro F f hF
    rw [← real_inner_self_eq_norm_sq, L2.inner_def]
    refine integral_congr_ae (hF.mono fun x hx => ?_)
    show inner ℝ (F x) (F x) = f x ^ 2
    rw [hx, real_inner_self_eq_norm_sq, Real.norm_eq_abs, sq_abs]
  set U : Nat → Lp ℝ 2 π := fun n => (hmem n).toLp (u n) with hU
  have hUu : ∀ n, U n =ᵐ[π] u n := fun n => (hmem n).coeFn_toLp
  have hcs : CauchySeq U := by
    refine Metric.cauchySeq_iff.2 fun ε hε => ?_
    obtain ⟨N, hN⟩ := hc (ε ^ 2) (by positivity)
    refine ⟨N, fun m hm n hn => ?_⟩
    rw [dist_eq_norm]
    have h1 := hnorm (U m - U n) (fun x => u m x - u n x) (by
      filter_upwards [Lp.coeFn_sub (U m) (U n), hUu m, hUu n] with x h1 h2 h3
      rw [h1, Pi.sub_apply, h2, h3])
    exact lt_of_pow_lt_pow_left₀ 2 hε.le (h1 ▸ hN m hm n hn)
  obtain ⟨G, hG⟩ := cauchySeq_tendsto_of_complete hcs
  have hGm : AEMeasurable G π := (Lp.aestronglyMeasurable G).aemeasurable
  have hM0 : 0 ≤ M := by
    obtain ⟨x⟩ : Nonempty X := nonempty_of_isProbabilityMeasure π
    exact (abs_nonneg _).trans (hM 0 x)
  set g : X → ℝ := fun x => max (-M) (min M (hGm.mk G x)) with hg
  have hgm : Measurable g := measurable_const.max (measurable_const.min hGm.measurable_mk)
  have hgM : ∀ x, |g x| ≤ M := fun x => abs_le.2 ⟨le_max_left _ _, max_le (by linarith) (min_le_left _ _)⟩
  refine ⟨g, hgm, hgM, ?_⟩
  have h1 : Tendsto (fun n => ‖U n - G‖ ^ 2) atTop (𝓝 0) := by
    have := (tendsto_iff_norm_sub_tendsto_zero.1 hG).pow 2
    simpa using this
  refine squeeze_zero (fun n => integral_nonneg fun x => sq_nonneg _) (fun n => ?_) h1
  have h2 : (fun x => hGm.mk G x) =ᵐ[π] G := hGm.ae_eq_mk.symm
  have h3 : U n - G =ᵐ[π] fun x => u n x - hGm.mk G x := by
    filter_upwards [Lp.coeFn_sub (U n) G, hUu n, h2] with x e1 e2 e3
    rw [e1, Pi.sub_apply, e2, e3]
  rw [hnorm _ _ h3]
  have hint : Integrable (fun x => (u n x - hGm.mk G x) ^ 2) π := by
    have : MemLp (fun x => u n x - hGm.mk G x) 2 π := (memLp_congr_ae h3).1 (Lp.memLp _)
    exact this.integrable_sq
  refine integral_mono (bounded_integrable (((hu n).sub hgm).pow_const 2) (M := (2 * M) ^ 2) fun x => ?_) hint fun x => ?_
  · rw [abs_pow]
    refine pow_le_pow_left₀ (abs_nonneg _) ?_ 2
    calc |u n x - g x| ≤ |u n x| + |g x| := abs_sub _ _
      _ ≤ 2 * M := by linarith [hM n x, hgM x]
  · have hux := abs_le.1 (hM n x)
    refine sq_le_sq.2 ?_
    show |u n x - max (-M) (min M (hGm.mk G x))| ≤ _
    generalize hGm.mk G x = v
    rcases le_total M v with hv | hv
    · rw [min_eq_left hv, max_eq_right (by linarith), abs_of_nonpos (by linarith), abs_of_nonpos (by linarith)]
      linarith
    · rw [min_eq_right hv]
      rcases le_total (-M) v with hv' | hv'
      · rw [max_eq_right hv']
      · rw [max_eq_left hv', abs_of_nonneg (by linarith), abs_of_nonneg (by linarith)]
        linarith

theorem mean_abs_le {u : X → ℝ} (hu : Measurable u) {M : ℝ} (hM : ∀ x, |u x| ≤ M) {ε : ℝ} (hε : 0 < ε) :
    ∫ x, |u x| ∂π ≤ ε + (∫ x, u x ^ 2 ∂π) / ε := by
  have hi : Integrable (fun x => u x ^ 2) π := bounded_integrable (hu.pow_const 2) (M := M ^ 2) fun x => by
    rw [abs_pow]
    exact pow_le_pow_left₀ (abs_nonneg _) (hM x) 2
  have h1 : ∫ x, |u x| ∂π ≤ ∫ x, (ε + u x ^ 2 / ε) ∂π := by
    refine integral_mono (bounded_integrable hu hM).abs ((integrable_const _).add (hi.div_const _)) fun x => ?_
    show |u x| ≤ ε + u x ^ 2 / ε
    have : |u x| ≤ (ε * ε + u x ^ 2) / ε := by
      rw [le_div_iff₀ hε]
      rw [← sq_abs (u x)]
      nlinarith [sq_nonneg (ε - |u x|), abs_nonneg (u x), mul_nonneg hε.le (abs_nonneg (u x))]
    rwa [add_div, mul_div_assoc, div_self hε.ne', mul_one] at this
  refine h1.trans (le_of_eq ?_)
  rw [integral_add (integrable_const _) (hi.div_const _), integral_const, probReal_univ, one_smul, integral_div]

theorem mean_abs_tendsto {u : Nat → X → ℝ} (hu : ∀ n, Measurable (u n)) {M : ℝ} (hM : ∀ n x, |u n x| ≤ M)
    (h : Tendsto (fun n => ∫ x, u n x ^ 2 ∂π) atTop (𝓝 0)) : Tendsto (fun n => ∫ x, |u n x| ∂π) atTop (𝓝 0) := by
  refine Metric.tendsto_atTop.2 fun ε hε => ?_
  obtain ⟨N, hN⟩ := Metric.tendsto_atTop.1 h (ε / 2 * (ε / 2)) (by positivity)
  refine ⟨N, fun n hn => ?_⟩
  have h1 := hN n hn
  rw [Real.dist_0_eq_abs, abs_of_nonneg (integral_nonneg fun x => sq_nonneg _)] at h1
  rw [Real.dist_0_eq_abs, abs_of_nonneg (integral_nonneg fun x => abs_nonneg _)]
  refine lt_of_le_of_lt (mean_abs_le (hu n) (hM n) (half_pos hε)) ?_
  have : (∫ x, u n x ^ 2 ∂π) / (ε / 2) < ε / 2 := (div_lt_iff₀ (half_pos hε)).2 h1
  linarith

/-- The mean square of the limit. -/
theorem mean_square_tendsto {u : Nat → X → ℝ} (hu : ∀ n, Measurable (u n)) {M : ℝ} (hM : ∀ n x, |u n x| ≤ M) {g : X → ℝ}
    (hg : Measurable g) (hgM : ∀ x, |g x| ≤ M) (h : Tendsto (fun n => ∫ x, (u n x - g x) ^ 2 ∂π) atTop (𝓝 0)) :
    Tendsto (fun n => ∫ x, u n x ^ 2 ∂π) atTop (𝓝 (∫ x, g x ^ 2 ∂π)) := by
  have hd : ∀ n x, |u n x - g x| ≤ 2 * M := fun n x => (abs_sub _ _).trans (by linarith [hM n x, hgM x])
  have h1 := (mean_abs_tendsto (fun n => (hu n).sub hg) hd h).const_mul (2 * M)
  rw [mul_zero] at h1
  have hsq : ∀ {v : X → ℝ}, Measurable v → (∀ x, |v x| ≤ M) → Integrable (fun x => v x ^ 2) π := fun hv hvM =>
    bounded_integrable (hv.pow_const 2) (M := M ^ 2) fun x => by
      rw [abs_pow]
      exact pow_le_pow_left₀ (abs_nonneg _) (hvM x) 2
  rw [tendsto_iff_dist_tendsto_zero]
  refine squeeze_zero (fun n => dist_nonneg) (fun n => ?_) h1
  rw [Real.dist_eq, ← integral_sub (hsq (hu n) (hM n)) (hsq hg hgM), ← integral_const_mul]
  refine (abs_integral_le_integral_abs).trans ?_
  refine integral_mono ((hsq (hu n) (hM n)).sub (hsq hg hgM)).abs
    ((bounded_integrable ((hu n).sub hg) (hd n)).abs.const_mul (2 * M)) fun x => ?_
  show |u n x ^ 2 - g x ^ 2| ≤ 2 * M * |u n x - g x|
  rw [sq_sub_sq, abs_mul]
  refine mul_le_mul_of_nonneg_right ?_ (abs_nonneg _)
  exact (abs_add_le _ _).trans (by linarith [hM n x, hgM x])

theorem square_integrable {μ : Measure X} [IsFiniteMeasure μ] {u : X → ℝ} (hu : Measurable u) {M : ℝ} (hM : ∀ x, |u x| ≤ M) :
    Integrable (fun x => u x ^ 2) μ :=
  bounded_integrable (hu.pow_const 2) (M := M ^ 2) fun x => by
    rw [abs_pow]
    exact pow_le_pow_left₀ (abs_nonneg _) (hM x) 2

theorem square_null {μ : Measure X} [IsFiniteMeasure μ] {u : X → ℝ} (hu : Measurable u) {M : ℝ} (hM : ∀ x, |u x| ≤ M)
    (h0 : ∫ y, u y ^ 2 ∂μ = 0) : ∀ᵐ y ∂μ, u y = 0 := by
  have := (integral_eq_zero_iff_of_nonneg (fun y => sq_nonneg (u y)) (square_integrable hu hM)).1 h0
  exact this.mono fun y hy => pow_eq_zero_iff two_ne_zero |>.1 hy

theorem sub_bounded {u v : X → ℝ} {M : ℝ} (hu : ∀ x, |u x| ≤ M) (hv : ∀ x, |v x| ≤ M) (x : X) : |u x - v x| ≤ 2 * M :=
  (abs_sub _ _).trans (by linarith [hu x, hv x])

theorem expect_sub (hm : Measurable fun e : X × Ω => step e.1 e.2) {u v : X → ℝ} (hu : Measurable u) (hv : Measurable v) {M : ℝ}
    (huM : ∀ x, |u x| ≤ M) (hvM : ∀ x, |v x| ≤ M) (x : X) :
    expect P step (fun y => u y - v y) x = expect P step u x - expect P step v x :=
  integral_sub (bounded_integrable (hu.comp (hm.comp measurable_prodMk_left)) fun r => huM _)
    (bounded_integrable (hv.comp (hm.comp measurable_prodMk_left)) fun r => hvM _)

theorem contract_sub (hm : Measurable fun e : X × Ω => step e.1 e.2) (hinv : (π.prod P).map (fun e => step e.1 e.2) = π) {u v : X → ℝ}
    (hu : Measurable u) (hv : Measurable v) {M : ℝ} (huM : ∀ x, |u x| ≤ M) (hvM : ∀ x, |v x| ≤ M) :
    ∫ x, (expect P step u x - expect P step v x) ^ 2 ∂π ≤ ∫ x, (u x - v x) ^ 2 ∂π := by
  have := expect_contract (π := π) (P := P) hm hinv (h := fun x => u x - v x) (hu.sub hv) (sub_bounded huM hvM)
  simpa only [expect_sub hm hu hv huM hvM] using this

theorem mean_expect (hm : Measurable fun e : X × Ω => step e.1 e.2) (hinv : (π.prod P).map (fun e => step e.1 e.2) = π) {u : X → ℝ}
    (hu : Measurable u) {M : ℝ} (huM : ∀ x, |u x| ≤ M) : ∫ x, expect P step u x ∂π = ∫ x, u x ∂π := by
  have h1 := integral_expect_mul (π := π) (P := P) hm hu (measurable_const (a := (1 : ℝ))) huM (M' := 1) fun x => by rw [abs_one]
  simp only [mul_one] at h1
  rw [h1, integral_stationary hm hinv hu]

/-- The value after a step is known when the mean square does not decrease. -/
theorem step_known (hm : Measurable fun e : X × Ω => step e.1 e.2) (hinv : (π.prod P).map (fun e => step e.1 e.2) = π) {g : X → ℝ}
    (hg : Measurable g) {M : ℝ} (hgM : ∀ x, |g x| ≤ M) (h : ∫ x, g x ^ 2 ∂π = ∫ x, expect P step g x ^ 2 ∂π) :
    ∀ᵐ e ∂(π.prod P), g (step e.1 e.2) = expect P step g e.1 := by
  have h1 : ∀ᵐ e ∂(π.prod P), g (step e.1 e.2) - expect P step g e.1 = 0 := by
    refine square_null (M := 2 * M) ((hg.comp hm).sub ((measurable_expect hm hg).comp measurable_fst)) (fun e => ?_) ?_
    · exact (abs_sub _ _).trans (by linarith [hgM (step e.1 e.2), expect_le (P := P) (step := step) hgM e.1])
    · rw [variance_step hm hinv hg hgM, h, sub_self]
  exact h1.mono fun e he => sub_eq_zero.1 he

/-- A function whose value after a step is known, and which is its own expectation after two steps, is constant. -/
theorem limit_constant (hm : Measurable fun e : X × Ω => step e.1 e.2) (hinv : (π.prod P).map (fun e => step e.1 e.2) = π)
    (hirr : ∀ B, MeasurableSet B → π B ≠ 0 → ∀ᵐ x ∂π, P {ω | step x ω ∈ B} ≠ 0) {g g1 : X → ℝ} (hg : Measurable g)
    {M : ℝ} (hgM : ∀ x, |g x| ≤ M) (hs0 : ∀ᵐ e ∂(π.prod P), g (step e.1 e.2) = g1 e.1)
    (hs1 : ∀ᵐ e ∂(π.prod P), g1 (step e.1 e.2) = g e.1) : ∀ᵐ x ∂π, g x = ∫ y, g y ∂π := by
  set c := ∫ y, g y ∂π with hc
  have hup : π {x | c < g x} ≠ 0 → ∀ᵐ x ∂π, c < g x := by
    intro h0
    have h1 := hirr _ (measurableSet_lt measurable_const hg) h0
    have h2 : ∀ᵐ x ∂π, c < g1 x := by
      filter_upwards [h1, Measure.ae_ae_of_ae_prod hs0] with x hx hx'
      by_contra hle
      refine hx (measure_mono_null (fun r hr => ?_) (ae_iff.1 hx'))
      have hr' : c < g (step x r) := hr
      show ¬ (g (step x r) = g1 x)
      intro h5
      exact hle (h5 ▸ hr')
    have h3 : ∀ᵐ e ∂(π.prod P), c < g1 (step e.1 e.2) := by
      have h4 : ∀ᵐ x ∂((π.prod P).map fun e => step e.1 e.2), c < g1 x := by rw [hinv]; exact h2
      exact ae_of_ae_map hm.aemeasurable h4
    have h6 : ∀ᵐ e ∂(π.prod P), c < g e.1 := by
      filter_upwards [h3, hs1] with e e1 e2
      exact e2 ▸ e1
    filter_upwards [Measure.ae_ae_of_ae_prod h6] with x hx
    obtain ⟨r, hr⟩ := hx.exists
    exact hr
  have hgi := bounded_integrable (μ := π) hg hgM
  by_cases h0 : π {x | c < g x} = 0
  · have h1 : 0 ≤ᵐ[π] fun x => c - g x := by
      have : ∀ᵐ x ∂π, ¬ c < g x := by rw [ae_iff]; simpa using h0
      exact this.mono fun x hx => sub_nonneg.2 (not_lt.1 hx)
    have h2 : ∫ x, (c - g x) ∂π = 0 := by
      rw [integral_sub (integrable_const _) hgi, ← hc, integral_const, probReal_univ, one_smul, sub_self]
    exact ((integral_eq_zero_iff_of_nonneg_ae h1 ((integrable_const _).sub hgi)).1 h2).mono fun x hx => (sub_eq_zero.1 hx).symm
  · have h1 := hup h0
    have h2 : ∫ x, (g x - c) ∂π = 0 := by
      rw [integral_sub hgi (integrable_const _), ← hc, integral_const, probReal_univ, one_smul, sub_self]
    exact ((integral_eq_zero_iff_of_nonneg_ae (h1.mono fun x hx => (sub_pos.2 hx).le) (hgi.sub (integrable_const _))).1 h2).mono
      fun x hx => sub_eq_zero.1 hx

theorem limit_unique {u : Nat → X → ℝ} (hu : ∀ n, Measurable (u n)) {M : ℝ} (hM : ∀ n x, |u n x| ≤ M) {f g : X → ℝ}
    (hf : Measurable f) (hfM : ∀ x, |f x| ≤ M) (hg : Measurable g) (hgM : ∀ x, |g x| ≤ M)
    (h1 : Tendsto (fun n => ∫ x, (u n x - f x) ^ 2 ∂π) atTop (𝓝 0)) (h2 : Tendsto (fun n => ∫ x, (u n x - g x) ^ 2 ∂π) atTop (𝓝 0)) :
    ∀ᵐ x ∂π, f x = g x := by
  have h0 : ∫ x, (f x - g x) ^ 2 ∂π = 0 := by
    have h2' : ∀ n, ∫ x, (f x - g x) ^ 2 ∂π ≤ 2 * ∫ x, (u n x - f x) ^ 2 ∂π + 2 * ∫ x, (u n x - g x) ^ 2 ∂π := by
      intro n
      have i1 : Integrable (fun x => (u n x - f x) ^ 2) π := square_integrable ((hu n).sub hf) (sub_bounded (hM n) hfM)
      have i2 : Integrable (fun x => (u n x - g x) ^ 2) π := square_integrable ((hu n).sub hg) (sub_bounded (hM n) hgM)
      rw [← integral_const_mul, ← integral_const_mul, ← integral_add (i1.const_mul 2) (i2.const_mul 2)]
      refine integral_mono (square_integrable (hf.sub hg) (sub_bounded hfM hgM)) ((i1.const_mul 2).add (i2.const_mul 2)) fun x => ?_
      show (f x - g x) ^ 2 ≤ 2 * (u n x - f x) ^ 2 + 2 * (u n x - g x) ^ 2
      nlinarith [sq_nonneg ((u n x - f x) + (u n x - g x))]
    have h3 := (h1.const_mul 2).add (h2.const_mul 2)
    rw [mul_zero, add_zero] at h3
    exact le_antisymm (ge_of_tendsto' h3 h2') (integral_nonneg fun x => sq_nonneg _)
  exact (square_null (hf.sub hg) (sub_bounded hfM hgM) h0).mono fun x hx => sub_eq_zero.1 hx

/-- The expectations after even numbers of steps converge. -/
theorem even_limit (hm : Measurable fun e : X × Ω => step e.1 e.2) (hrev : Reversible π P step) {h : X → ℝ} (hh : Measurable h) {M : ℝ}
    (hM : ∀ x, |h x| ≤ M) {L : ℝ} (hL : Tendsto (fun n => ∫ x, (expect P step)^[n] h x ^ 2 ∂π) atTop (𝓝 L)) :
    ∃ g : X → ℝ, Measurable g ∧ (∀ x, |g x| ≤ M) ∧
      Tendsto (fun n => ∫ x, ((expect P step)^[2 * n] h x - g x) ^ 2 ∂π) atTop (𝓝 0) := by
  set T := expect P step with hT
  have hTm : ∀ n, Measurable (T^[n] h) := fun n => (iterate_expect hm hh hM n).1
  have hTM : ∀ n x, |T^[n] h x| ≤ M := fun n => (iterate_expect hm hh hM n).2
  have hprod : ∀ {u v : X → ℝ}, Measurable u → Measurable v → (∀ x, |u x| ≤ M) → (∀ x, |v x| ≤ M) →
      Integrable (fun x => u x * v x) π := fun hu hv huM hvM =>
    bounded_integrable (hu.mul hv) (M := M * M) fun x => by
      rw [abs_mul]
      exact mul_le_mul (huM x) (hvM x) (abs_nonneg _) ((abs_nonneg _).trans (huM x))
  set a : Nat → ℝ := fun n => ∫ x, T^[n] h x ^ 2 ∂π with ha
  have hcross : ∀ m n, ∫ x, T^[2 * m] h x * T^[2 * n] h x ∂π = a (m + n) := by
    intro m n
    rcases le_total m n with hmn | hmn
    · obtain ⟨k, rfl⟩ := Nat.exists_eq_add_of_le hmn
      have := iterate_symm (π := π) (P := P) hm hrev (hTm (2 * m)) (hTm (2 * m + k)) (hTM (2 * m)) (hTM (2 * m + k)) k
      rw [← Function.iterate_add_apply, ← Function.iterate_add_apply, ← hT] at this
      rw [show 2 * (m + k) = k + (2 * m + k) by ring, ← this, show m + (m + k) = 2 * m + k by ring, show k + 2 * m = 2 * m + k by ring]
      simp only [ha, sq]
    · obtain ⟨k, rfl⟩ := Nat.exists_eq_add_of_le hmn
      have := iterate_symm (π := π) (P := P) hm hrev (hTm (2 * n + k)) (hTm (2 * n)) (hTM (2 * n + k)) (hTM (2 * n)) k
      rw [← Function.iterate_add_apply, ← Function.iterate_add_apply, ← hT] at this
      rw [show 2 * (n + k) = k + (2 * n + k) by ring, this, show n + k + n = 2 * n + k by ring, show k + 2 * n = 2 * n + k by ring]
      simp only [ha, sq]
  have hdist : ∀ m n, ∫ x, (T^[2 * m] h x - T^[2 * n] h x) ^ 2 ∂π = a (2 * m) - 2 * a (m + n) + a (2 * n) := by
    intro m n
    have e1 : ∀ x, (T^[2 * m] h x - T^[2 * n] h x) ^ 2 = T^[2 * m] h x * T^[2 * m] h x - 2 * (T^[2 * m] h x * T^[2 * n] h x) +
        T^[2 * n] h x * T^[2 * n] h x := fun x => by ring
    have i1 := hprod (hTm (2 * m)) (hTm (2 * m)) (hTM (2 * m)) (hTM (2 * m))
    have i2 := hprod (hTm (2 * m)) (hTm (2 * n)) (hTM (2 * m)) (hTM (2 * n))
    have i3 := hprod (hTm (2 * n)) (hTm (2 * n)) (hTM (2 * n)) (hTM (2 * n))
    have i4 : Integrable (fun x => T^[2 * m] h x * T^[2 * m] h x - 2 * (T^[2 * m] h x * T^[2 * n] h x)) π := i1.sub (i2.const_mul 2)
    simp only [e1]
    rw [integral_add i4 i3, integral_sub i1 (i2.const_mul 2), integral_const_mul, hcross, hcross, hcross, ← two_mul, ← two_mul]
  refine mean_square_limit (π := π) (u := fun n => T^[2 * n] h) (fun n => hTm _) (M := M) (fun n => hTM _) ?_
  intro ε hε
  obtain ⟨N, hN⟩ := Metric.tendsto_atTop.1 hL (ε / 4) (by linarith)
  refine ⟨N, fun m hm n hn => ?_⟩
  show ∫ x, (T^[2 * m] h x - T^[2 * n] h x) ^ 2 ∂π < ε
  rw [hdist]
  have h1 := abs_lt.1 (Real.dist_eq _ _ ▸ hN (2 * m) (by omega))
  have h2 := abs_lt.1 (Real.dist_eq _ _ ▸ hN (m + n) (by omega))
  have h3 := abs_lt.1 (Real.dist_eq _ _ ▸ hN (2 * n) (by omega))
  linarith

/-- **Convergence in the mean square**: the expectations after many steps of a reversible chain that can reach everything are almost
constant. -/
theorem mixing_square (hm : Measurable fun e : X × Ω => step e.1 e.2) (hrev : Reversible π P step)
    (hirr : ∀ B, MeasurableSet B → π B ≠ 0 → ∀ᵐ x ∂π, P {ω | step x ω ∈ B} ≠ 0) {h : X → ℝ} (hh : Measurable h) {M : ℝ}
    (hM : ∀ x, |h x| ≤ M) :
    Tendsto (fun n => ∫ x, ((expect P step)^[n] h x - ∫ y, h y ∂π) ^ 2 ∂π) atTop (𝓝 0) := by
  have hinv := hrev.stationary hm
  have hTm : ∀ n, Measurable ((expect P step)^[n] h) := fun n => (iterate_expect hm hh hM n).1
  have hTM : ∀ n x, |(expect P step)^[n] h x| ≤ M := fun n => (iterate_expect hm hh hM n).2
  set a : Nat → ℝ := fun n => ∫ x, (expect P step)^[n] h x ^ 2 ∂π with ha
  have hanti : Antitone a := antitone_nat_of_succ_le fun n => by
    have := expect_contract (π := π) (P := P) hm hinv (hTm n) (hTM n)
    simpa only [ha, Function.iterate_succ_apply'] using this
  obtain ⟨L, hL⟩ : ∃ L, Tendsto a atTop (𝓝 L) :=
    ⟨_, tendsto_atTop_ciInf hanti ⟨0, by rintro _ ⟨n, rfl⟩; exact integral_nonneg fun x => sq_nonneg _⟩⟩
  obtain ⟨g, hg, hgM, hglim⟩ := even_limit hm hrev hh hM hL
  have hg1 : Measurable (expect P step g) := measurable_expect hm hg
  have hg1M : ∀ x, |expect P step g x| ≤ M := expect_le hgM
  have hg2 : Measurable (expect P step (expect P step g)) := measurable_expect hm hg1
  have hg2M : ∀ x, |expect P step (expect P step g) x| ≤ M := expect_le hg1M
  have hlim1 : Tendsto (fun n => ∫ x, ((expect P step)^[2 * n + 1] h x - expect P step g x) ^ 2 ∂π) atTop (𝓝 0) :=
    squeeze_zero (fun n => integral_nonneg fun x => sq_nonneg _) (fun n => by
      rw [Function.iterate_succ_apply']
      exact contract_sub hm hinv (hTm _) hg (hTM _) hgM) hglim
  have hlim2 : Tendsto (fun n => ∫ x, ((expect P step)^[2 * n + 2] h x - expect P step (expect P step g) x) ^ 2 ∂π) atTop (𝓝 0) :=
    squeeze_zero (fun n => integral_nonneg fun x => sq_nonneg _) (fun n => by
      rw [show 2 * n + 2 = (2 * n + 1) + 1 by ring, Function.iterate_succ_apply']
      exact contract_sub hm hinv (hTm _) hg1 (hTM _) hg1M) hlim1
  have hsq0 : ∫ x, g x ^ 2 ∂π = L := tendsto_nhds_unique (mean_square_tendsto (fun n => hTm (2 * n)) (fun n => hTM (2 * n)) hg hgM hglim)
    (hL.comp (tendsto_atTop_mono (fun n => by show n ≤ 2 * n; omega) tendsto_id))
  have hsq1 : ∫ x, expect P step g x ^ 2 ∂π = L :=
    tendsto_nhds_unique (mean_square_tendsto (fun n => hTm (2 * n + 1)) (fun n => hTM (2 * n + 1)) hg1 hg1M hlim1)
      (hL.comp (tendsto_atTop_mono (fun n => by show n ≤ 2 * n + 1; omega) tendsto_id))
  have hsq2 : ∫ x, expect P step (expect P step g) x ^ 2 ∂π = L :=
    tendsto_nhds_unique (mean_square_tendsto (fun n => hTm (2 * n + 2)) (fun n => hTM (2 * n + 2)) hg2 hg2M hlim2)
      (hL.comp (tendsto_atTop_mono (fun n => by show n ≤ 2 * n + 2; omega) tendsto_id))
  have hs0 := step_known (P := P) hm hinv hg hgM (hsq0.trans hsq1.symm)
  have hTT : ∀ᵐ x ∂π, expect P step (expect P step g) x = g x := by
    refine limit_unique (fun n => hTm (2 * n + 2)) (fun n => hTM (2 * n + 2)) hg2 hg2M hg hgM hlim2 ?_
    have h1 := hglim.comp (tendsto_add_atTop_nat 1)
    simp only [Function.comp_def, mul_add, mul_one] at h1
    exact h1
  have hs1 : ∀ᵐ e ∂(π.prod P), expect P step g (step e.1 e.2) = g e.1 := by
    have h5 : ∀ᵐ e ∂(π.prod P), expect P step (expect P step g) e.1 = g e.1 := Measure.quasiMeasurePreserving_fst.ae hTT
    filter_upwards [step_known (P := P) hm hinv hg1 hg1M (hsq1.trans hsq2.symm), h5] with e e1 e2
    rw [e1, e2]
  have hconst := limit_constant hm hinv hirr hg hgM hs0 hs1
  set c := ∫ y, h y ∂π with hc
  have hTc : ∀ n, ∫ x, (expect P step)^[n] h x ∂π = c := by
    intro n
    induction n with
    | zero => rfl
    | succ n ih => rw [Function.iterate_succ_apply', mean_expect hm hinv (hTm n) (hTM n), ih]
  have hgc : ∫ x, g x ∂π = c := by
    have h1 := mean_abs_tendsto (u := fun n x => (expect P step)^[2 * n] h x - g x) (fun n => (hTm (2 * n)).sub hg)
      (fun n => sub_bounded (hTM (2 * n)) hgM) hglim
    have h2 : ∀ n : Nat, |c - ∫ x, g x ∂π| ≤ ∫ x, |(expect P step)^[2 * n] h x - g x| ∂π := by
      intro n
      rw [← hTc (2 * n), ← integral_sub (bounded_integrable (hTm _) (hTM _)) (bounded_integrable hg hgM)]
      exact abs_integral_le_integral_abs
    have h3 : |c - ∫ x, g x ∂π| ≤ 0 := ge_of_tendsto' h1 h2
    exact (sub_eq_zero.1 (abs_eq_zero.1 (le_antisymm h3 (abs_nonneg _)))).symm
  rw [hgc] at hconst
  have heven : Tendsto (fun n => ∫ x, ((expect P step)^[2 * n] h x - c) ^ 2 ∂π) atTop (𝓝 0) := by
    refine hglim.congr fun n => integral_congr_ae (hconst.mono fun x hx => ?_)
    show ((expect P step)^[2 * n] h x - g x) ^ 2 = ((expect P step)^[2 * n] h x - c) ^ 2
    rw [hx]
  have hcM : |c| ≤ M := by
    have := norm_integral_le_of_norm_le_const (μ := π) (f := h) (C := M) (ae_of_all _ hM)
    rwa [probReal_univ, mul_one] at this
  have hTconst : expect P step (fun _ => c) = fun _ => c := by
    funext x
    show ∫ _, c ∂P = c
    rw [integral_const, probReal_univ, one_smul]
  have hstep : ∀ n, ∫ x, ((expect P step)^[n + 1] h x - c) ^ 2 ∂π ≤ ∫ x, ((expect P step)^[n] h x - c) ^ 2 ∂π := by
    intro n
    have := contract_sub (π := π) (P := P) hm hinv (hTm n) (measurable_const (a := c)) (hTM n) fun _ => hcM
    rw [hTconst] at this
    rw [Function.iterate_succ_apply']
    exact this
  have hhalf : Tendsto (fun n : Nat => n / 2) atTop atTop := Nat.tendsto_div_const_atTop two_ne_zero
  refine squeeze_zero (fun n => integral_nonneg fun x => sq_nonneg _) (fun n => ?_) (heven.comp hhalf)
  show ∫ x, ((expect P step)^[n] h x - c) ^ 2 ∂π ≤ ∫ x, ((expect P step)^[2 * (n / 2)] h x - c) ^ 2 ∂π
  exact antitone_nat_of_succ_le (f := fun n => ∫ x, ((expect P step)^[n] h x - c) ^ 2 ∂π) hstep (by omega)

/-- The same for the mean absolute deviation. -/
theorem mixing_abs (hm : Measurable fun e : X × Ω => step e.1 e.2) (hrev : Reversible π P step)
    (hirr : ∀ B, MeasurableSet B → π B ≠ 0 → ∀ᵐ x ∂π, P {ω | step x ω ∈ B} ≠ 0) {h : X → ℝ} (hh : Measurable h) {M : ℝ}
    (hM : ∀ x, |h x| ≤ M) :
    Tendsto (fun n => ∫ x, |(expect P step)^[n] h x - ∫ y, h y ∂π| ∂π) atTop (𝓝 0) := by
  have hcM : |∫ y, h y ∂π| ≤ M := by
    have := norm_integral_le_of_norm_le_const (μ := π) (f := h) (C := M) (ae_of_all _ hM)
    rwa [probReal_univ, mul_one] at this
  exact mean_abs_tendsto (u := fun n x => (expect P step)^[n] h x - ∫ y, h y ∂π)
    (fun n => (iterate_expect hm hh hM n).1.sub measurable_const)
    (fun n => sub_bounded (iterate_expect hm hh hM n).2 fun _ => hcM) (mixing_square hm hrev hirr hh hM)

/-- From every law that has a density, the expectations of all functions with values in `[-1, 1]` are close to the equilibrium after the
same number of steps, when the densities converge in the mean: `A n` takes expectations after `n` steps and `F n` moves densities. -/
theorem density_limit {A F : Nat → (X → ℝ) → X → ℝ}
    (hA : ∀ (n : Nat) {h : X → ℝ}, Measurable h → ∀ {M : ℝ}, (∀ x, |h x| ≤ M) → Measurable (A n h) ∧ ∀ x, |A n h x| ≤ M)
    (hF : ∀ (n : Nat) {h : X → ℝ}, Measurable h → ∀ {M : ℝ}, (∀ x, |h x| ≤ M) → Measurable (F n h) ∧ ∀ x, |F n h x| ≤ M)
    (hsymm : ∀ (n : Nat) {h e : X → ℝ}, Measurable h → Measurable e → ∀ {M M' : ℝ}, (∀ x, |h x| ≤ M) → (∀ x, |e x| ≤ M') →
      ∫ x, A n h x * e x ∂π = ∫ x, h x * F n e x ∂π)
    (hlim : ∀ {h : X → ℝ}, Measurable h → ∀ {M : ℝ}, (∀ x, |h x| ≤ M) →
      Tendsto (fun n => ∫ x, |F n h x - ∫ y, h y ∂π| ∂π) atTop (𝓝 0))
    {ν : Measure X} [IsFiniteMeasure ν] (hν : ν ≪ π) {ε : ℝ} (hε : 0 < ε) :
    ∃ N : Nat, ∀ n ≥ N, ∀ h : X → ℝ, Measurable h → (∀ x, |h x| ≤ 1) →
      |∫ x, A n h x ∂ν - ν.real Set.univ * ∫ x, h x ∂π| < ε := by
  set D : X → ℝ := fun x => (ν.rnDeriv π x).toReal with hD
  have hDm : Measurable D := (Measure.measurable_rnDeriv ν π).ennreal_toReal
  have hD0 : ∀ x, 0 ≤ D x := fun x => ENNReal.toReal_nonneg
  have hDi : Integrable D π := Measure.integrable_toReal_rnDeriv
  have hDt : ∀ h : X → ℝ, ∫ x, D x * h x ∂π = ∫ x, h x ∂ν := fun h => integral_rnDeriv_smul hν
  have hD1 : ∫ x, D x ∂π = ν.real Set.univ := by
    have := hDt fun _ => 1
    simpa using this
  -- cut off the density
  obtain ⟨K, hK⟩ : ∃ K : Nat, ∫ x, (D x - min (D x) K) ∂π < ε / 3 := by
    have h1 : Tendsto (fun K : Nat => ∫ x, (D x - min (D x) K) ∂π) atTop (𝓝 (∫ x, (0 : ℝ) ∂π)) := by
      refine tendsto_integral_of_dominated_convergence D (fun K => (hDm.sub (hDm.min measurable_const)).aestronglyMeasurable) hDi
        (fun K => ae_of_all _ fun x => ?_) (ae_of_all _ fun x => ?_)
      · rw [Real.norm_eq_abs, abs_of_nonneg (sub_nonneg.2 (min_le_left _ _))]
        have : 0 ≤ min (D x) K := le_min (hD0 x) (Nat.cast_nonneg K)
        linarith
      · obtain ⟨K, hK⟩ := exists_nat_ge (D x)
        refine tendsto_const_nhds.congr' ((eventually_ge_atTop K).mono fun k hk => ?_)
        have : D x ≤ k := hK.trans (by exact_mod_cast hk)
        show 0 = D x - min (D x) k
        rw [min_eq_left this, sub_self]
    rw [integral_zero] at h1
    obtain ⟨K, hK⟩ := ((tendsto_order.1 h1).2 (ε / 3) (by linarith)).exists
    exact ⟨K, hK⟩
  set E : X → ℝ := fun x => min (D x) K with hE
  have hEm : Measurable E := hDm.min measurable_const
  have hEK : ∀ x, |E x| ≤ K := fun x => by
    rw [abs_of_nonneg (le_min (hD0 x) (Nat.cast_nonneg K))]
    exact min_le_right _ _
  have hEi := bounded_integrable (μ := π) hEm hEK
  obtain ⟨N, hN⟩ := Metric.tendsto_atTop.1 (hlim hEm hEK) (ε / 3) (by linarith)
  refine ⟨N, fun n hn h hh h1 => ?_⟩
  have hTm := (hA n hh h1).1
  have hT1 := (hA n hh h1).2
  have hEm' := (hF n hEm hEK).1
  have hEK' := (hF n hEm hEK).2
  have hsym := hsymm n hh hEm h1 hEK
  have hdiff := hN n hn
  rw [Real.dist_0_eq_abs, abs_of_nonneg (integral_nonneg fun x => abs_nonneg _)] at hdiff
  set c := ∫ x, h x ∂π with hc
  have hc1 : |c| ≤ 1 := by
    have := norm_integral_le_of_norm_le_const (μ := π) (f := h) (C := 1) (ae_of_all _ h1)
    rwa [probReal_univ, mul_one] at this
  have hR : Integrable (fun x => D x - E x) π := hDi.sub hEi
  -- the three parts
  have p1 : |∫ x, (D x - E x) * A n h x ∂π| ≤ ∫ x, (D x - E x) ∂π := by
    refine abs_integral_le_integral_abs.trans (integral_mono (hR.mul_bdd hTm.aestronglyMeasurable (ae_of_all _ hT1)).abs hR fun x => ?_)
    show |(D x - E x) * A n h x| ≤ D x - E x
    have h0 : 0 ≤ D x - E x := sub_nonneg.2 (min_le_left _ _)
    rw [abs_mul, abs_of_nonneg h0]
    exact mul_le_of_le_one_right h0 (hT1 x)
  have p2 : |∫ x, h x * (F n E x - ∫ y, E y ∂π) ∂π| ≤ ∫ x, |F n E x - ∫ y, E y ∂π| ∂π := by
    have hi : Integrable (fun x => F n E x - ∫ y, E y ∂π) π :=
      (bounded_integrable hEm' hEK').sub (integrable_const _)
    refine abs_integral_le_integral_abs.trans (integral_mono (hi.bdd_mul hh.aestronglyMeasurable (ae_of_all _ h1)).abs hi.abs fun x => ?_)
    show |h x * (F n E x - ∫ y, E y ∂π)| ≤ _
    rw [abs_mul]
    exact mul_le_of_le_one_left (abs_nonneg _) (h1 x)
  have e1 : ∫ x, A n h x ∂ν = ∫ x, (D x - E x) * A n h x ∂π +
      ∫ x, A n h x * E x ∂π := by
    have i1 : Integrable (fun x => (D x - E x) * A n h x) π := hR.mul_bdd hTm.aestronglyMeasurable (ae_of_all _ hT1)
    have i2 : Integrable (fun x => A n h x * E x) π := hEi.bdd_mul hTm.aestronglyMeasurable (ae_of_all _ hT1)
    rw [← hDt, ← integral_add i1 i2]
    refine integral_congr_ae (ae_of_all _ fun x => ?_)
    show D x * A n h x = (D x - E x) * A n h x + A n h x * E x
    ring
  have e2 : ∫ x, h x * F n E x ∂π = ∫ x, h x * (F n E x - ∫ y, E y ∂π) ∂π + c * ∫ y, E y ∂π := by
    have i1 : Integrable (fun x => h x * F n E x) π :=
      (bounded_integrable hEm' hEK').bdd_mul hh.aestronglyMeasurable (ae_of_all _ h1)
    have i2 : Integrable (fun x => h x * ∫ y, E y ∂π) π := (bounded_integrable hh h1).mul_const _
    simp only [mul_sub]
    rw [integral_sub i1 i2, integral_mul_const]
    ring
  have e3 : ∫ x, (D x - E x) ∂π = ν.real Set.univ - ∫ y, E y ∂π := by rw [integral_sub hDi hEi, hD1]
  have h0 : 0 ≤ ∫ x, (D x - E x) ∂π := integral_nonneg fun x => sub_nonneg.2 (min_le_left _ _)
  have p3 : |c * ∫ x, (D x - E x) ∂π| ≤ ∫ x, (D x - E x) ∂π := by
    rw [abs_mul, abs_of_nonneg h0]
    exact mul_le_of_le_one_left h0 hc1
  have e4 : ∫ x, A n h x ∂ν - ν.real Set.univ * c = ∫ x, (D x - E x) * A n h x ∂π +
      ∫ x, h x * (F n E x - ∫ y, E y ∂π) ∂π - c * ∫ x, (D x - E x) ∂π := by
    rw [e1, hsym, e2, e3]
    ring
  rw [e4]
  refine (abs_sub _ _).trans_lt ?_
  have := abs_add_le (∫ x, (D x - E x) * A n h x ∂π) (∫ x, h x * (F n E x - ∫ y, E y ∂π) ∂π)
  linarith

/-- **Convergence in total variation** from every law that has a density: the expectations of all functions with values in `[-1, 1]` are
close to the equilibrium, after the same number of steps. -/
theorem mixing_density (hm : Measurable fun e : X × Ω => step e.1 e.2) (hrev : Reversible π P step)
    (hirr : ∀ B, MeasurableSet B → π B ≠ 0 → ∀ᵐ x ∂π, P {ω | step x ω ∈ B} ≠ 0) {ν : Measure X} [IsFiniteMeasure ν] (hν : ν ≪ π)
    {ε : ℝ} (hε : 0 < ε) :
    ∃ N : Nat, ∀ n ≥ N, ∀ h : X → ℝ, Measurable h → (∀ x, |h x| ≤ 1) →
      |∫ x, (expect P step)^[n] h x ∂ν - ν.real Set.univ * ∫ x, h x ∂π| < ε :=
  density_limit (A := fun n => (expect P step)^[n]) (F := fun n => (expect P step)^[n])
    (fun n _ hh _ hM => iterate_expect hm hh hM n) (fun n _ hh _ hM => iterate_expect hm hh hM n)
    (fun n _ _ hh he _ _ hM hM' => iterate_symm hm hrev hh he hM hM' n) (fun hh _ hM => mixing_abs hm hrev hirr hh hM) hν hε

/-- **Convergence in total variation from every start**, when jumps have densities. -/
theorem mixing_every [MeasurableSingletonClass X] (hm : Measurable fun e : X × Ω => step e.1 e.2) (hrev : Reversible π P step)
    (hirr : ∀ B, MeasurableSet B → π B ≠ 0 → ∀ᵐ x ∂π, P {ω | step x ω ∈ B} ≠ 0)
    (hjump : ∀ x N, π N = 0 → P {r | step x r ≠ x ∧ step x r ∈ N} = 0) (hmove : ∀ x, P {r | step x r ≠ x} ≠ 0) (x : X)
    {ε : ℝ} (hε : 0 < ε) :
    ∃ N : Nat, ∀ n ≥ N, ∀ h : X → ℝ, Measurable h → (∀ x, |h x| ≤ 1) → |(expect P step)^[n] h x - ∫ x, h x ∂π| < ε := by
  have hmx : Measurable fun r => step x r := hm.comp measurable_prodMk_left
  set S : Set Ω := {r | step x r ≠ x} with hS
  have hSm : MeasurableSet S := hmx (measurableSet_singleton x).compl
  set ν := (P.restrict S).map fun r => step x r with hν
  have hνπ : ν ≪ π := by
    refine Measure.AbsolutelyContinuous.mk fun N hN h0 => ?_
    rw [hν, Measure.map_apply hmx hN, Measure.restrict_apply (hmx hN)]
    refine measure_mono_null (fun r hr => ?_) (hjump x N h0)
    exact ⟨hr.2, hr.1⟩
  have hνf : IsFiniteMeasure ν := by rw [hν]; exact Measure.isFiniteMeasure_map _ _
  have hνS : ν.real Set.univ = P.real S := by
    rw [hν, measureReal_def, Measure.map_apply hmx MeasurableSet.univ, Set.preimage_univ, Measure.restrict_apply_univ, ← measureReal_def]
  set p := P.real Sᶜ with hp
  have hpS : P.real S = 1 - p := by rw [hp, probReal_compl_eq_one_sub hSm]; ring
  have hp0 : 0 ≤ p := measureReal_nonneg
  have hp1 : p < 1 := by
    have : 0 < P.real S := ENNReal.toReal_pos (hmove x) (measure_ne_top _ _)
    linarith
  obtain ⟨N, hN⟩ := mixing_density hm hrev hirr hνπ (ε := (1 - p) * (ε / 2)) (by
    have : 0 < 1 - p := by linarith
    positivity)
  have hrec : ∀ n ≥ N, ∀ h : X → ℝ, Measurable h → (∀ x, |h x| ≤ 1) →
      |(expect P step)^[n + 1] h x - ∫ x, h x ∂π| ≤ p * |(expect P step)^[n] h x - ∫ x, h x ∂π| + (1 - p) * (ε / 2) := by
    intro n hn h hh h1
    have hTm := (iterate_expect (P := P) hm hh h1 n).1
    have hT1 := (iterate_expect (P := P) hm hh h1 n).2
    have hi : Integrable (fun r => (expect P step)^[n] h (step x r)) P := bounded_integrable (hTm.comp hmx) fun r => hT1 _
    have e1 : (expect P step)^[n + 1] h x = ∫ y, (expect P step)^[n] h y ∂ν + p * (expect P step)^[n] h x := by
      rw [Function.iterate_succ_apply']
      show ∫ r, (expect P step)^[n] h (step x r) ∂P = _
      rw [← integral_add_compl hSm hi, hν, integral_map hmx.aemeasurable hTm.aestronglyMeasurable]
      congr 1
      have : ∫ r in Sᶜ, (expect P step)^[n] h (step x r) ∂P = ∫ r in Sᶜ, (expect P step)^[n] h x ∂P := by
        refine setIntegral_congr_fun hSm.compl fun r hr => ?_
        have : step x r = x := not_not.1 hr
        show (expect P step)^[n] h (step x r) = _
        rw [this]
      rw [this, setIntegral_const, smul_eq_mul]
    have e2 : (expect P step)^[n + 1] h x - ∫ x, h x ∂π = (∫ y, (expect P step)^[n] h y ∂ν - ν.real Set.univ * ∫ x, h x ∂π) +
        p * ((expect P step)^[n] h x - ∫ x, h x ∂π) := by
      rw [e1, hνS, hpS]
      ring
    rw [e2]
    refine (abs_add_le _ _).trans ?_
    rw [abs_mul, abs_of_nonneg hp0]
    have := hN n hn h hh h1
    linarith
  have hiter : ∀ k : Nat, ∀ h : X → ℝ, Measurable h → (∀ x, |h x| ≤ 1) →
      |(expect P step)^[N + k] h x - ∫ x, h x ∂π| ≤ p ^ k * 2 + ε / 2 := by
    intro k
    induction k with
    | zero =>
      intro h hh h1
      have hc1 : |∫ x, h x ∂π| ≤ 1 := by
        have := norm_integral_le_of_norm_le_const (μ := π) (f := h) (C := 1) (ae_of_all _ h1)
        rwa [probReal_univ, mul_one] at this
      refine (abs_sub _ _).trans ?_
      have := (iterate_expect (P := P) hm hh h1 (N + 0)).2 x
      rw [pow_zero]
      linarith
    | succ k ih =>
      intro h hh h1
      have e1 := hrec (N + k) (by omega) h hh h1
      have e2 := mul_le_mul_of_nonneg_left (ih h hh h1) hp0
      rw [show N + (k + 1) = N + k + 1 by ring]
      refine e1.trans ?_
      have e3 : p ^ (k + 1) * 2 + ε / 2 = p * (p ^ k * 2 + ε / 2) + (1 - p) * (ε / 2) := by ring
      rw [e3]
      linarith
  obtain ⟨k0, hk0⟩ := ((tendsto_order.1 ((tendsto_pow_atTop_nhds_zero_of_lt_one hp0 hp1).mul_const 2)).2 (ε / 2) (by
    rw [zero_mul]; linarith)).exists_forall_of_atTop
  refine ⟨N + k0, fun n hn h hh h1 => ?_⟩
  obtain ⟨k, rfl⟩ := Nat.exists_eq_add_of_le (show N ≤ n by omega)
  have := hk0 k (by omega)
  refine (hiter k h hh h1).trans_lt ?_
  linarith

/-- The expectation after `n` steps is the mean over all random inputs. -/
theorem expect_chain (hm : Measurable fun e : X × Ω => step e.1 e.2) {h : X → ℝ} (hh : Measurable h) {M : ℝ} (hM : ∀ x, |h x| ≤ M) :
    ∀ (n : Nat) (x : X), ∫ ω, h (chain (fun _ => step) x ω n) ∂(inputs P) = (expect P step)^[n] h x
  | 0, x => by
    show ∫ _, h x ∂(inputs P) = h x
    have : IsProbabilityMeasure (inputs P) := by unfold inputs; infer_instance
    rw [integral_const, probReal_univ, one_smul]
  | n + 1, x => by
    have : IsProbabilityMeasure (inputs P) := by unfold inputs; infer_instance
    have hc : ∀ k, Measurable fun z : X × (Nat → Ω) => (((advanceChain step)^[k]) z).1 := fun k =>
      measurable_fst.comp ((measurable_advanceChain hm).iterate k)
    have hce : ∀ (z : X × (Nat → Ω)) k, (((advanceChain step)^[k]) z).1 = chain (fun _ => step) z.1 z.2 k := fun z k =>
      congrArg Prod.fst (advanceChain_iterate step k z.1 z.2)
    simp only [hce] at hc
    have hcx : Measurable fun ω : Nat → Ω => h (chain (fun _ => step) x ω (n + 1)) :=
      hh.comp ((hc (n + 1)).comp measurable_prodMk_left)
    have hshift : ∀ (r : Ω) (ω : Nat → Ω), chain (fun _ => step) x (cons (r, ω)) (n + 1) = chain (fun _ => step) (step x r) ω n := by
      intro r ω
      have := hce (x, cons (r, ω)) (n + 1)
      rw [Function.iterate_succ_apply] at this
      rw [← this]
      exact hce _ n
    rw [← inputs_cons P, integral_map measurable_cons.aemeasurable hcx.aestronglyMeasurable, integral_prod]
    · rw [Function.iterate_succ_apply']
      refine integral_congr_ae (ae_of_all _ fun r => ?_)
      show ∫ ω, h (chain (fun _ => step) x (cons (r, ω)) (n + 1)) ∂(inputs P) = (expect P step)^[n] h (step x r)
      rw [← expect_chain hm hh hM n (step x r)]
      refine integral_congr_ae (ae_of_all _ fun ω => ?_)
      show h _ = h _
      rw [hshift]
    · exact bounded_integrable (hcx.comp measurable_cons) fun z => hM _

end Basics

end Stochopy
