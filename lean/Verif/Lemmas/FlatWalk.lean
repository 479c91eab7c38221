import Verif.Lemmas.Ideal
import Mathlib.Analysis.PSeries
import Mathlib.MeasureTheory.Group.Convolution

/-!
# Gaussian random walks in three or more dimensions leave every bounded set for good
-/

namespace Stochopy
open Spec MeasureTheory ProbabilityTheory Filter
open scoped ENNReal NNReal

/-- Independent normal vectors added. -/
theorem gauss_add (n : Nat) (v w : ℝ≥0) :
    ((Measure.pi fun _ : Fin n => gaussianReal 0 v).prod (Measure.pi fun _ : Fin n => gaussianReal 0 w)).map
      (fun z : Vec ℝ n × Vec ℝ n => fun j => z.1 j + z.2 j) = Measure.pi fun _ : Fin n => gaussianReal 0 (v + w) := by
  have h1 := (measurePreserving_arrowProdEquivProdArrow ℝ ℝ (Fin n) (fun _ => gaussianReal 0 v) fun _ => gaussianReal 0 w).map_eq
  have hm : Measurable fun z : Vec ℝ n × Vec ℝ n => fun j => z.1 j + z.2 j := measurable_pi_lambda _ fun j =>
    ((measurable_pi_apply j).comp measurable_fst).add ((measurable_pi_apply j).comp measurable_snd)
  rw [← h1, Measure.map_map hm (MeasurableEquiv.measurable _)]
  have hadd : Measurable fun e : ℝ × ℝ => e.1 + e.2 := measurable_fst.add measurable_snd
  have h2 := Measure.pi_map_pi (μ := fun _ : Fin n => (gaussianReal 0 v).prod (gaussianReal 0 w))
    (f := fun _ (e : ℝ × ℝ) => e.1 + e.2) fun _ => hadd.aemeasurable
  have h3 : ((gaussianReal 0 v).prod (gaussianReal 0 w)).map (fun e : ℝ × ℝ => e.1 + e.2) = gaussianReal 0 (v + w) := by
    have := gaussianReal_conv_gaussianReal (m₁ := 0) (m₂ := 0) (v₁ := v) (v₂ := w)
    rw [add_zero] at this
    exact this
  rw [h3] at h2
  exact h2

variable {n : Nat}

/-- The sum of the first `k` normal vectors. -/
def walkSum (ω : Nat → Vec ℝ n × ℝ) (k : Nat) : Vec ℝ n := fun j => ∑ i ∈ Finset.range k, (ω i).1 j

theorem measurable_walkSum (k : Nat) : Measurable fun ω : Nat → Vec ℝ n × ℝ => walkSum ω k :=
  measurable_pi_lambda _ fun j => Finset.measurable_sum _ fun i _ =>
    (measurable_pi_apply j).comp (measurable_fst.comp (measurable_pi_apply i))

theorem walkSum_law : ∀ k : Nat, (inputs ((gauss n).prod unifLaw)).map (fun ω => walkSum ω (k + 1)) =
    Measure.pi fun _ : Fin n => gaussianReal 0 (k + 1 : ℝ≥0)
  | 0 => by
    have h : (fun ω : Nat → Vec ℝ n × ℝ => walkSum ω (0 + 1)) = (fun z : Vec ℝ n × ℝ => z.1) ∘ fun ω => ω 0 := by
      funext ω j
      simp [walkSum]
    have h2 : (inputs ((gauss n).prod unifLaw)).map (fun ω => ω 0) = (gauss n).prod unifLaw := by
      unfold inputs
      exact Measure.infinitePi_map_eval _ 0
    rw [h, ← Measure.map_map measurable_fst (measurable_pi_apply 0), h2, Measure.map_fst_prod, measure_univ, one_smul]
    simp [gauss]
  | k + 1 => by
    have ih := walkSum_law k
    have hc := inputs_cons ((gauss n).prod unifLaw)
    have he : (fun ω : Nat → Vec ℝ n × ℝ => walkSum ω (k + 1 + 1)) ∘ cons =
        (fun z : Vec ℝ n × Vec ℝ n => fun j => z.1 j + z.2 j) ∘
          Prod.map (fun z : Vec ℝ n × ℝ => z.1) (fun ω : Nat → Vec ℝ n × ℝ => walkSum ω (k + 1)) := by
      funext z j
      show ∑ i ∈ Finset.range (k + 1 + 1), (cons z i).1 j = z.1.1 j + ∑ i ∈ Finset.range (k + 1), (z.2 i).1 j
      rw [Finset.sum_range_succ', add_comm]
      rfl
    have hm : Measurable fun z : Vec ℝ n × Vec ℝ n => fun j => z.1 j + z.2 j := measurable_pi_lambda _ fun j =>
      ((measurable_pi_apply j).comp measurable_fst).add ((measurable_pi_apply j).comp measurable_snd)
    rw [← hc, Measure.map_map (measurable_walkSum _) measurable_cons, he,
      ← Measure.map_map hm (measurable_fst.prodMap (measurable_walkSum _)),
      ← Measure.map_prod_map _ _ measurable_fst (measurable_walkSum _), ih, Measure.map_fst_prod, measure_univ, one_smul]
    have := gauss_add n 1 (k + 1 : ℝ≥0)
    rw [show (1 : ℝ≥0) + (k + 1) = ((k + 1 : ℕ) : ℝ≥0) + 1 by push_cast; ring] at this
    exact this

/-- A normal number is in a short interval with small probability. -/
theorem gaussian_interval (v : ℝ≥0) (hv : v ≠ 0) (a b : ℝ) :
    gaussianReal 0 v (Set.Icc a b) ≤ ENNReal.ofReal ((b - a) / Real.sqrt v) := by
  rw [gaussianReal_apply _ hv]
  have hv' : (0 : ℝ) < v := by exact_mod_cast pos_iff_ne_zero.2 hv
  have hs : 0 < Real.sqrt v := Real.sqrt_pos.2 hv'
  have h1 : ∀ x, gaussianPDF 0 v x ≤ ENNReal.ofReal (1 / Real.sqrt v) := by
    intro x
    unfold gaussianPDF
    refine ENNReal.ofReal_le_ofReal ?_
    rw [gaussianPDFReal_def]
    have h2 : Real.exp (-(x - 0) ^ 2 / (2 * v)) ≤ 1 := by
      rw [Real.exp_le_one_iff]
      exact div_nonpos_of_nonpos_of_nonneg (by nlinarith [sq_nonneg (x - 0)]) (by positivity)
    have h3 : (Real.sqrt (2 * Real.pi * v))⁻¹ ≤ 1 / Real.sqrt v := by
      rw [one_div]
      refine inv_anti₀ hs (Real.sqrt_le_sqrt ?_)
      nlinarith [Real.two_le_pi]
    calc (Real.sqrt (2 * Real.pi * v))⁻¹ * Real.exp (-(x - 0) ^ 2 / (2 * v)) ≤ (Real.sqrt (2 * Real.pi * v))⁻¹ * 1 :=
          mul_le_mul_of_nonneg_left h2 (by positivity)
      _ ≤ 1 / Real.sqrt v := by rw [mul_one]; exact h3
  calc ∫⁻ x in Set.Icc a b, gaussianPDF 0 v x ≤ ∫⁻ _ in Set.Icc a b, ENNReal.ofReal (1 / Real.sqrt v) := lintegral_mono h1
    _ = ENNReal.ofReal ((b - a) / Real.sqrt v) := by
      rw [setLIntegral_const, Real.volume_Icc, ← ENNReal.ofReal_mul (by positivity)]
      congr 1
      ring

/-- The probability that the walk is in a given cube after `k + 1` steps. -/
theorem walkSum_cube (a b : Vec ℝ n) {c : ℝ} (hc : 0 ≤ c) (hab : ∀ j, b j - a j ≤ c) (k : Nat) :
    inputs ((gauss n).prod unifLaw) {ω | ∀ j, walkSum ω (k + 1) j ∈ Set.Icc (a j) (b j)} ≤
      ENNReal.ofReal (c / Real.sqrt (k + 1)) ^ n := by
  have hm : MeasurableSet (Set.univ.pi fun j : Fin n => Set.Icc (a j) (b j)) := MeasurableSet.univ_pi fun j => measurableSet_Icc
  have h1 : {ω : Nat → Vec ℝ n × ℝ | ∀ j, walkSum ω (k + 1) j ∈ Set.Icc (a j) (b j)} =
      (fun ω => walkSum ω (k + 1)) ⁻¹' (Set.univ.pi fun j : Fin n => Set.Icc (a j) (b j)) := by
    ext ω
    exact ⟨fun h j _ => h j, fun h j => h j trivial⟩
  rw [h1, ← Measure.map_apply (measurable_walkSum _) hm, walkSum_law, Measure.pi_pi]
  have hk : ((k : ℝ≥0) + 1) ≠ 0 := by positivity
  calc ∏ j : Fin n, gaussianReal 0 (k + 1 : ℝ≥0) (Set.Icc (a j) (b j)) ≤ ∏ _j : Fin n, ENNReal.ofReal (c / Real.sqrt (k + 1)) := by
        refine Finset.prod_le_prod' fun j _ => ?_
        refine (gaussian_interval _ hk _ _).trans (ENNReal.ofReal_le_ofReal ?_)
        have : ((k + 1 : ℝ≥0) : ℝ) = (k : ℝ) + 1 := by push_cast; rfl
        rw [this]
        exact div_le_div_of_nonneg_right (hab j) (Real.sqrt_nonneg _)
    _ = ENNReal.ofReal (c / Real.sqrt (k + 1)) ^ n := by simp

/-- In three or more dimensions the walk is in a given cube only finitely often. -/
theorem walkSum_leaves (hn : 3 ≤ n) (a b : Vec ℝ n) :
    ∀ᵐ ω ∂(inputs ((gauss n).prod unifLaw)), ∀ᶠ k in atTop, ¬ ∀ j, walkSum ω k j ∈ Set.Icc (a j) (b j) := by
  obtain ⟨c, hc, hab⟩ : ∃ c : ℝ, 0 ≤ c ∧ ∀ j, b j - a j ≤ c := by
    refine ⟨∑ j, |b j - a j|, Finset.sum_nonneg fun j _ => abs_nonneg _, fun j => (le_abs_self _).trans ?_⟩
    exact Finset.single_le_sum (f := fun j => |b j - a j|) (fun j _ => abs_nonneg _) (Finset.mem_univ j)
  have hsum : Summable fun k : Nat => (c / Real.sqrt (k + 1)) ^ n := by
    have h1 : Summable fun k : Nat => ((k + 1 : Nat) : ℝ) ^ (-(n : ℝ) / 2) := by
      refine (summable_nat_add_iff 1).2 (Real.summable_nat_rpow.2 ?_)
      have : (3 : ℝ) ≤ n := by exact_mod_cast hn
      linarith
    refine (h1.mul_left (c ^ n)).congr fun k => ?_
    rw [div_pow, div_eq_mul_inv]
    congr 1
    have hk : (0 : ℝ) ≤ (k : ℝ) + 1 := by positivity
    push_cast
    rw [neg_mul, Real.rpow_neg hk, Real.sqrt_eq_rpow, ← Real.rpow_natCast, ← Real.rpow_mul hk]
    congr 2
    ring
  have htsum : ∑' k, inputs ((gauss n).prod unifLaw) {ω | ∀ j, walkSum ω (k + 1) j ∈ Set.Icc (a j) (b j)} ≠ ∞ := by
    refine ne_top_of_le_ne_top (b := ∑' k : Nat, ENNReal.ofReal ((c / Real.sqrt (k + 1)) ^ n)) ?_ ?_
    · rw [← ENNReal.ofReal_tsum_of_nonneg (fun k => by positivity) hsum]
      exact ENNReal.ofReal_ne_top
    · refine ENNReal.tsum_le_tsum fun k => ?_
      rw [ENNReal.ofReal_pow (by positivity)]
      exact walkSum_cube a b hc hab k
  refine (ae_eventually_notMem htsum).mono fun ω hω => ?_
  rw [eventually_atTop] at hω ⊢
  obtain ⟨N, hN⟩ := hω
  refine ⟨N + 1, fun k hk => ?_⟩
  have := hN (k - 1) (by omega)
  rw [show k - 1 + 1 = k by omega] at this
  exact this

end Stochopy
