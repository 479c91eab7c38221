import Verif.Spec.Pull
import Verif.Lemmas.Ideal
import Mathlib.MeasureTheory.Integral.IntervalIntegral.FundThmCalculus
import Mathlib.Analysis.SpecialFunctions.Integrals.Basic

/-!
# Particles attracted by fixed points
-/

namespace Stochopy
open Spec MeasureTheory Filter Topology
open scoped ENNReal

/-! ## Uniform numbers -/

theorem unif_ae : ∀ᵐ u ∂unifLaw, u ∈ Set.Ico (0 : ℝ) 1 := by
  unfold unifLaw
  exact ae_restrict_mem measurableSet_Ico

theorem unif_integrable {f : ℝ → ℝ} (hf : Continuous f) : Integrable f unifLaw := by
  unfold unifLaw
  exact (hf.integrableOn_Icc (a := 0) (b := 1)).mono_set Set.Ico_subset_Icc_self

theorem unif_integral (f : ℝ → ℝ) : ∫ u, f u ∂unifLaw = ∫ u in (0 : ℝ)..1, f u := by
  unfold unifLaw
  rw [intervalIntegral.integral_of_le zero_le_one]
  exact integral_Ico_eq_integral_Ioc

theorem unif_quadratic (a b c : ℝ) : ∫ u, (a + b * u + c * u ^ 2) ∂unifLaw = a + b / 2 + c / 3 := by
  rw [unif_integral, intervalIntegral.integral_add, intervalIntegral.integral_add, intervalIntegral.integral_const,
    intervalIntegral.integral_const_mul, intervalIntegral.integral_const_mul, integral_id, integral_pow]
  · norm_num
    ring
  all_goals exact Continuous.intervalIntegrable (by fun_prop) _ _

/-- The law of the two random numbers of a coordinate. -/
noncomputable abbrev pairLaw : Measure (ℝ × ℝ) := unifLaw.prod unifLaw

theorem pair_ae : ∀ᵐ r ∂pairLaw, (0 ≤ r.1 ∧ r.1 < 1) ∧ 0 ≤ r.2 ∧ r.2 < 1 := by
  have h1 : ∀ᵐ r ∂pairLaw, r.1 ∈ Set.Ico (0 : ℝ) 1 := Measure.quasiMeasurePreserving_fst.ae unif_ae
  have h2 : ∀ᵐ r ∂pairLaw, r.2 ∈ Set.Ico (0 : ℝ) 1 := Measure.quasiMeasurePreserving_snd.ae unif_ae
  filter_upwards [h1, h2] with r h1 h2
  exact ⟨h1, h2⟩

theorem pair_integrable {f : ℝ × ℝ → ℝ} (hf : Continuous f) : Integrable f pairLaw := by
  obtain ⟨C, hC⟩ := (isCompact_Icc (a := ((0 : ℝ), (0 : ℝ))) (b := (1, 1))).exists_bound_of_continuousOn hf.continuousOn
  refine Integrable.of_bound hf.aestronglyMeasurable C (pair_ae.mono fun r h => hC r ?_)
  exact ⟨⟨h.1.1, h.2.1⟩, ⟨h.1.2.le, h.2.2.le⟩⟩

/-- Mean of a quadratic function of the random attraction. -/
theorem pair_quadratic (c1 c2 a b c : ℝ) : ∫ r, (a + b * (c1 * r.1 + c2 * r.2) + c * (c1 * r.1 + c2 * r.2) ^ 2) ∂pairLaw =
    a + b * ((c1 + c2) / 2) + c * (((c1 + c2) / 2) ^ 2 + (c1 ^ 2 + c2 ^ 2) / 12) := by
  have h1 : ∀ u : ℝ, ∫ v, (a + b * (c1 * u + c2 * v) + c * (c1 * u + c2 * v) ^ 2) ∂unifLaw =
      (a + b * (c2 / 2) + c * c2 ^ 2 / 3) + (b * c1 + c * c1 * c2) * u + c * c1 ^ 2 * u ^ 2 := by
    intro u
    have : (fun v : ℝ => a + b * (c1 * u + c2 * v) + c * (c1 * u + c2 * v) ^ 2) =
        fun v => (a + b * (c1 * u) + c * (c1 * u) ^ 2) + (b * c2 + 2 * c * (c1 * u) * c2) * v + c * c2 ^ 2 * v ^ 2 := by
      funext v
      ring
    rw [this, unif_quadratic]
    ring
  rw [integral_prod _ (pair_integrable (by fun_prop))]
  simp only [h1]
  rw [unif_quadratic]
  ring

/-! ## Means over sequences of inputs -/

theorem lintegral_inputs {Ω : Type} [MeasurableSpace Ω] (P : Measure Ω) [IsProbabilityMeasure P] {f : (Nat → Ω) → ℝ≥0∞}
    (hf : Measurable f) : ∫⁻ ω, f ω ∂(inputs P) = ∫⁻ r, ∫⁻ ω, f (cons (r, ω)) ∂(inputs P) ∂P := by
  conv_lhs => rw [← inputs_cons P]
  rw [lintegral_map hf measurable_cons]
  exact lintegral_prod _ (hf.comp measurable_cons).aemeasurable

theorem chain_shift {X Ω : Type} (step : X → Ω → X) (x : X) (r : Ω) (ω : Nat → Ω) (k : Nat) :
    chain (fun _ => step) x (cons (r, ω)) (k + 1) = chain (fun _ => step) (step x r) ω k := by
  induction k with
  | zero => rfl
  | succ k ih =>
    show step (chain (fun _ => step) x (cons (r, ω)) (k + 1)) (cons (r, ω) (k + 1)) = _
    rw [ih]
    rfl

variable {w c1 c2 : ℝ}

theorem continuous_pull (w c1 c2 p l : ℝ) : Continuous fun e : (ℝ × ℝ) × (ℝ × ℝ) => pull w c1 c2 p l e.1 e.2 := by
  unfold pull
  fun_prop

theorem measurable_pull_chain (w c1 c2 p l : ℝ) (s : ℝ × ℝ) : ∀ k, Measurable fun ω => chain (fun _ => pull w c1 c2 p l) s ω k
  | 0 => measurable_const
  | k + 1 => (continuous_pull w c1 c2 p l).measurable.comp ((measurable_pull_chain w c1 c2 p l s k).prodMk (measurable_pi_apply k))

/-! ## A common attractor: convergence -/

/-- The quadratic form that decreases in the mean. -/
noncomputable def energy (w c1 c2 y : ℝ) (s : ℝ × ℝ) : ℝ :=
  (s.1 - y) ^ 2 - 2 * w * (1 + w - (c1 + c2) / 2) / (1 + w) * ((s.1 - y) * (s.1 - y - s.2)) + w ^ 2 * (s.1 - y - s.2) ^ 2

/-- By how much. -/
noncomputable def margin (w c1 c2 : ℝ) : ℝ :=
  1 - w ^ 2 - ((c1 ^ 2 + c2 ^ 2) / 12 + (1 + w - (c1 + c2) / 2) ^ 2 * (1 - w) / (1 + w))

theorem margin_pos (h : Contracting w c1 c2) : 0 < margin w c1 c2 := by
  unfold margin
  unfold Contracting at h
  linarith

theorem energy_nonneg (hw : 0 ≤ w) (hw1 : w < 1) (h : Contracting w c1 c2) (y : ℝ) (s : ℝ × ℝ) : 0 ≤ energy w c1 c2 y s := by
  unfold Contracting at h
  set l := 1 + w - (c1 + c2) / 2 with hl
  have hp : 0 < 1 + w := by linarith
  have hm : 0 < 1 - w := by linarith
  have h1 : l ^ 2 * (1 - w) / (1 + w) < 1 - w ^ 2 := by nlinarith [sq_nonneg c1, sq_nonneg c2]
  have h2 : l ^ 2 < (1 + w) ^ 2 := by
    rw [div_lt_iff₀ hp] at h1
    nlinarith
  have h3 : (l / (1 + w)) ^ 2 ≤ 1 := by
    rw [div_pow, div_le_one (by positivity)]
    exact h2.le
  unfold energy
  rw [← hl]
  set e := s.1 - y
  set q := e - s.2
  have e1 : e ^ 2 - 2 * w * l / (1 + w) * (e * q) + w ^ 2 * q ^ 2 = (e - l / (1 + w) * (w * q)) ^ 2 + (1 - (l / (1 + w)) ^ 2) * (w * q) ^ 2 := by
    field_simp
    ring
  rw [e1]
  have := sq_nonneg (w * q)
  nlinarith [sq_nonneg (e - l / (1 + w) * (w * q))]

theorem energy_mean (hw : 0 ≤ w) (y : ℝ) (s : ℝ × ℝ) :
    ∫ r, energy w c1 c2 y (pull w c1 c2 y y s r) ∂pairLaw = energy w c1 c2 y s - margin w c1 c2 * (s.1 - y) ^ 2 := by
  have hp : (1 + w) ≠ 0 := by linarith
  set e := s.1 - y with he
  set m := e + w * s.2 with hm
  set α := -(2 * w * (1 + w - (c1 + c2) / 2) / (1 + w)) with hα
  have h1 : (fun r : ℝ × ℝ => energy w c1 c2 y (pull w c1 c2 y y s r)) = fun r =>
      (m ^ 2 + α * (m * e) + w ^ 2 * e ^ 2) + (-(2 * m * e) - α * e ^ 2) * (c1 * r.1 + c2 * r.2) + e ^ 2 * (c1 * r.1 + c2 * r.2) ^ 2 := by
    funext r
    have hx : s.1 = e + y := by rw [he]; ring
    unfold energy pull
    simp only [hx, hm, hα]
    ring
  rw [h1, pair_quadratic]
  have hx : s.1 = e + y := by rw [he]; ring
  unfold energy margin
  rw [hα, hm, hx]
  field_simp
  ring

/-- The sum of the mean square distances is bounded by the initial energy. -/
theorem distances_le (hw : 0 ≤ w) (hw1 : w < 1) (h : Contracting w c1 c2) (y : ℝ) : ∀ (n : Nat) (s : ℝ × ℝ),
    ∫⁻ ω, ∑ k ∈ Finset.range n, ENNReal.ofReal (((chain (fun _ => pull w c1 c2 y y) s ω k).1 - y) ^ 2) ∂(inputs pairLaw) ≤
      ENNReal.ofReal (energy w c1 c2 y s / margin w c1 c2) := by
  intro n
  induction n with
  | zero => intro s; simp
  | succ n ih =>
    intro s
    have hδ := margin_pos h
    have hme : ∀ (n : Nat) (s : ℝ × ℝ), Measurable fun ω => ∑ k ∈ Finset.range n,
        ENNReal.ofReal (((chain (fun _ => pull w c1 c2 y y) s ω k).1 - y) ^ 2) := fun n s =>
      Finset.measurable_sum _ fun k _ =>
        ((((measurable_pull_chain w c1 c2 y y s k).fst).sub_const y).pow_const 2).ennreal_ofReal
    rw [lintegral_inputs pairLaw (hme (n + 1) s)]
    have h1 : ∀ r : ℝ × ℝ, ∫⁻ ω, ∑ k ∈ Finset.range (n + 1),
        ENNReal.ofReal (((chain (fun _ => pull w c1 c2 y y) s (cons (r, ω)) k).1 - y) ^ 2) ∂(inputs pairLaw) ≤
        ENNReal.ofReal ((s.1 - y) ^ 2) + ENNReal.ofReal (energy w c1 c2 y (pull w c1 c2 y y s r) / margin w c1 c2) := by
      intro r
      simp only [Finset.sum_range_succ', chain_shift]
      have h0 : ∀ ω : Nat → ℝ × ℝ, chain (fun _ => pull w c1 c2 y y) s (cons (r, ω)) 0 = s := fun _ => rfl
      simp only [h0]
      rw [lintegral_add_right _ measurable_const, add_comm, lintegral_const, measure_univ, mul_one]
      exact add_le_add le_rfl (ih _)
    refine (lintegral_mono h1).trans ?_
    have hc : Continuous fun r => energy w c1 c2 y (pull w c1 c2 y y s r) / margin w c1 c2 := by
      unfold energy pull
      fun_prop
    rw [lintegral_add_left measurable_const, lintegral_const, measure_univ, mul_one,
      ← ofReal_integral_eq_lintegral_ofReal (pair_integrable hc) (ae_of_all _ fun r => div_nonneg (energy_nonneg hw hw1 h _ _) hδ.le),
      integral_div, energy_mean hw, ← ENNReal.ofReal_add (sq_nonneg _)]
    · refine ENNReal.ofReal_le_ofReal (le_of_eq ?_)
      field_simp
      ring
    · rw [← energy_mean hw]
      exact div_nonneg (integral_nonneg fun r => energy_nonneg hw hw1 h _ _) hδ.le

/-- A particle whose best point is the best point of the swarm comes to rest there. -/
theorem pull_settles (hw : 0 ≤ w) (hw1 : w < 1) (h : Contracting w c1 c2) (y : ℝ) (s : ℝ × ℝ) :
    ∀ᵐ ω ∂(inputs pairLaw), Tendsto (chain (fun _ => pull w c1 c2 y y) s ω) atTop (𝓝 (y, 0)) := by
  have hme : ∀ k : Nat, Measurable fun ω => ENNReal.ofReal (((chain (fun _ => pull w c1 c2 y y) s ω k).1 - y) ^ 2) := fun k =>
    ((((measurable_pull_chain w c1 c2 y y s k).fst).sub_const y).pow_const 2).ennreal_ofReal
  have h1 : ∫⁻ ω, ∑' k, ENNReal.ofReal (((chain (fun _ => pull w c1 c2 y y) s ω k).1 - y) ^ 2) ∂(inputs pairLaw) ≠ ∞ := by
    rw [lintegral_tsum fun k => (hme k).aemeasurable]
    refine ne_top_of_le_ne_top ENNReal.ofReal_ne_top (b := ENNReal.ofReal (energy w c1 c2 y s / margin w c1 c2)) ?_
    rw [ENNReal.tsum_eq_iSup_nat]
    refine iSup_le fun n => ?_
    rw [← lintegral_finset_sum _ fun k _ => hme k]
    exact distances_le hw hw1 h y n s
  refine (ae_lt_top (Measurable.ennreal_tsum hme) h1).mono fun ω hω => ?_
  have h2 := ENNReal.tendsto_atTop_zero_of_tsum_ne_top hω.ne
  have h3 : Tendsto (fun k => ((chain (fun _ => pull w c1 c2 y y) s ω k).1 - y) ^ 2) atTop (𝓝 0) := by
    have := (ENNReal.tendsto_toReal ENNReal.zero_ne_top).comp h2
    refine this.congr fun k => ?_
    exact ENNReal.toReal_ofReal (sq_nonneg _)
  have h4 : Tendsto (fun k => (chain (fun _ => pull w c1 c2 y y) s ω k).1 - y) atTop (𝓝 0) := by
    have := h3.sqrt
    rw [Real.sqrt_zero] at this
    refine squeeze_zero_norm (fun k => ?_) this
    rw [Real.sqrt_sq_eq_abs]
    rfl
  have h5 : Tendsto (fun k => (chain (fun _ => pull w c1 c2 y y) s ω k).1) atTop (𝓝 y) := by
    simpa using h4.add_const y
  refine h5.prodMk_nhds ?_
  have h6 : Tendsto (fun k => (chain (fun _ => pull w c1 c2 y y) s ω (k + 1)).1 - (chain (fun _ => pull w c1 c2 y y) s ω k).1)
      atTop (𝓝 (y - y)) := (h5.comp (tendsto_add_atTop_nat 1)).sub h5
  rw [sub_self] at h6
  refine (tendsto_add_atTop_iff_nat 1).1 (h6.congr fun k => ?_)
  show (pull w c1 c2 y y (chain (fun _ => pull w c1 c2 y y) s ω k) (ω k)).1 - _ = (pull w c1 c2 y y (chain (fun _ => pull w c1 c2 y y) s ω k) (ω k)).2
  unfold pull
  simp

/-- Attraction by one point is linear. -/
theorem pull_linear (y : ℝ) (s : ℝ × ℝ) (ω : Nat → ℝ × ℝ) (k : Nat) : chain (fun _ => pull w c1 c2 y y) s ω k =
    (y + (s.1 - y) * (chain (fun _ => pull w c1 c2 0 0) (1, 0) ω k).1 + s.2 * (chain (fun _ => pull w c1 c2 0 0) (0, 1) ω k).1,
      (s.1 - y) * (chain (fun _ => pull w c1 c2 0 0) (1, 0) ω k).2 + s.2 * (chain (fun _ => pull w c1 c2 0 0) (0, 1) ω k).2) := by
  induction k with
  | zero =>
    show s = (y + (s.1 - y) * 1 + s.2 * 0, (s.1 - y) * 0 + s.2 * 1)
    refine Prod.ext ?_ ?_ <;> simp
  | succ k ih =>
    show pull w c1 c2 y y (chain (fun _ => pull w c1 c2 y y) s ω k) (ω k) =
      (y + (s.1 - y) * (pull w c1 c2 0 0 (chain (fun _ => pull w c1 c2 0 0) (1, 0) ω k) (ω k)).1 +
        s.2 * (pull w c1 c2 0 0 (chain (fun _ => pull w c1 c2 0 0) (0, 1) ω k) (ω k)).1,
      (s.1 - y) * (pull w c1 c2 0 0 (chain (fun _ => pull w c1 c2 0 0) (1, 0) ω k) (ω k)).2 +
        s.2 * (pull w c1 c2 0 0 (chain (fun _ => pull w c1 c2 0 0) (0, 1) ω k) (ω k)).2)
    rw [ih]
    unfold pull
    refine Prod.ext ?_ ?_ <;> dsimp only <;> ring

theorem inputs_shift {Ω : Type} [MeasurableSpace Ω] (P : Measure Ω) [IsProbabilityMeasure P] (T : Nat) :
    (inputs P).map (fun ω k => ω (T + k)) = inputs P :=
  Measure.map_infinitePi_infinitePi_of_inj (P := fun _ : Nat => P) (f := fun k => T + k) fun _ _ h => Nat.add_left_cancel h

/-- With probability one, whenever and in whatever state particles are attracted by one point from then on, they come to rest there: the
time that this takes depends only on the distance and the velocity. -/
theorem pull_settles_uniform (hw : 0 ≤ w) (hw1 : w < 1) (h : Contracting w c1 c2) :
    ∀ᵐ ω ∂(inputs pairLaw), ∀ (T : Nat) (C ε : ℝ), 0 < ε → ∃ N : Nat, ∀ (y : ℝ) (s : ℝ × ℝ), |s.1 - y| ≤ C → |s.2| ≤ C → ∀ k, N ≤ k →
      |(chain (fun _ => pull w c1 c2 y y) s (fun i => ω (T + i)) k).1 - y| < ε ∧
      |(chain (fun _ => pull w c1 c2 y y) s (fun i => ω (T + i)) k).2| < ε := by
  refine ae_all_iff.2 fun T => ?_
  have h1 := pull_settles hw hw1 h 0 (1, 0)
  have h2 := pull_settles hw hw1 h 0 (0, 1)
  have hms : Measurable fun (ω : Nat → ℝ × ℝ) (k : Nat) => ω (T + k) := measurable_pi_lambda _ fun k => measurable_pi_apply _
  rw [← inputs_shift pairLaw T] at h1 h2
  filter_upwards [ae_of_ae_map hms.aemeasurable h1, ae_of_ae_map hms.aemeasurable h2] with ω h1 h2 C ε hε
  have hC : 0 < 2 * (|C| + 1) := by positivity
  have h3 := (Metric.tendsto_atTop.1 h1) (ε / (2 * (|C| + 1))) (by positivity)
  have h4 := (Metric.tendsto_atTop.1 h2) (ε / (2 * (|C| + 1))) (by positivity)
  obtain ⟨N1, h3⟩ := h3
  obtain ⟨N2, h4⟩ := h4
  refine ⟨max N1 N2, fun y s hs1 hs2 k hk => ?_⟩
  have h5 := h3 k ((le_max_left _ _).trans hk)
  have h6 := h4 k ((le_max_right _ _).trans hk)
  rw [Prod.dist_eq, max_lt_iff, Real.dist_eq, Real.dist_eq, sub_zero, sub_zero] at h5 h6
  have hC' : C ≤ |C| := le_abs_self C
  have key : ∀ a b u v : ℝ, |a| ≤ C → |b| ≤ C → |u| < ε / (2 * (|C| + 1)) → |v| < ε / (2 * (|C| + 1)) → |a * u + b * v| < ε := by
    intro a b u v ha hb hu hv
    rw [lt_div_iff₀ hC] at hu hv
    have h7 : |a| * |u| ≤ |C| * |u| := mul_le_mul_of_nonneg_right (ha.trans hC') (abs_nonneg _)
    have h8 : |b| * |v| ≤ |C| * |v| := mul_le_mul_of_nonneg_right (hb.trans hC') (abs_nonneg _)
    have h9 := abs_add_le (a * u) (b * v)
    rw [abs_mul, abs_mul] at h9
    nlinarith [abs_nonneg u, abs_nonneg v]
  rw [pull_linear]
  refine ⟨?_, key _ _ _ _ hs1 hs2 h5.2 h6.2⟩
  have := key _ _ _ _ hs1 hs2 h5.1 h6.1
  refine lt_of_eq_of_lt (congrArg abs ?_) this
  ring

/-! ## Inertia one: no rest -/

/-- Two motions with the same random numbers keep the area that they span. -/
theorem pull_area (y : ℝ) (s t : ℝ × ℝ) (ω : Nat → ℝ × ℝ) (k : Nat) :
    ((chain (fun _ => pull 1 c1 c2 y y) s ω k).1 - y) * (chain (fun _ => pull 1 c1 c2 y y) t ω k).2 -
      ((chain (fun _ => pull 1 c1 c2 y y) t ω k).1 - y) * (chain (fun _ => pull 1 c1 c2 y y) s ω k).2 =
    (s.1 - y) * t.2 - (t.1 - y) * s.2 := by
  induction k with
  | zero => rfl
  | succ k ih =>
    rw [← ih]
    show ((pull 1 c1 c2 y y (chain (fun _ => pull 1 c1 c2 y y) s ω k) (ω k)).1 - y) * (pull 1 c1 c2 y y (chain (fun _ => pull 1 c1 c2 y y) t ω k) (ω k)).2 -
      ((pull 1 c1 c2 y y (chain (fun _ => pull 1 c1 c2 y y) t ω k) (ω k)).1 - y) * (pull 1 c1 c2 y y (chain (fun _ => pull 1 c1 c2 y y) s ω k) (ω k)).2 = _
    unfold pull
    ring

theorem pair_line_null (hc : c1 ≠ 0 ∨ c2 ≠ 0) (b : ℝ) : pairLaw {r : ℝ × ℝ | c1 * r.1 + c2 * r.2 = b} = 0 := by
  have hat : NullSingletonClass unifLaw := by unfold unifLaw; infer_instance
  have hm : MeasurableSet {r : ℝ × ℝ | c1 * r.1 + c2 * r.2 = b} :=
    measurableSet_eq_fun (by fun_prop) measurable_const
  by_cases h2 : c2 = 0
  · have h1 : c1 ≠ 0 := by
      rcases hc with h | h
      · exact h
      · exact absurd h2 h
    have he : {r : ℝ × ℝ | c1 * r.1 + c2 * r.2 = b} = {b / c1} ×ˢ Set.univ := by
      ext r
      simp only [Set.mem_setOf_eq, Set.mem_prod, Set.mem_singleton_iff, Set.mem_univ, and_true, h2, zero_mul, add_zero]
      rw [eq_div_iff h1, mul_comm]
    rw [he, Measure.prod_prod, measure_singleton, zero_mul]
  · rw [Measure.measure_prod_null hm]
    refine ae_of_all _ fun u => ?_
    have : Prod.mk u ⁻¹' {r : ℝ × ℝ | c1 * r.1 + c2 * r.2 = b} = {(b - c1 * u) / c2} := by
      ext v
      simp only [Set.mem_preimage, Set.mem_setOf_eq, Set.mem_singleton_iff]
      rw [eq_div_iff h2]
      constructor <;> intro h <;> linarith
    show unifLaw _ = 0
    rw [this, measure_singleton]

/-- With inertia one a particle away from the attractor never comes to rest. -/
theorem pull_restless (hc : c1 ≠ 0 ∨ c2 ≠ 0) {y : ℝ} {s : ℝ × ℝ} (hs : s.1 ≠ y) :
    ∀ᵐ ω ∂(inputs pairLaw), ¬ Tendsto (chain (fun _ => pull 1 c1 c2 y y) s ω) atTop (𝓝 (y, 0)) := by
  have hms : ∀ t, MeasurableSet {ω : Nat → ℝ × ℝ | Tendsto (chain (fun _ => pull 1 c1 c2 y y) t ω) atTop (𝓝 (y, 0))} := fun t =>
    measurableSet_tendsto (𝓝 (y, 0)) fun k => measurable_pull_chain 1 c1 c2 y y t k
  have h0 : inputs pairLaw {ω | Tendsto (chain (fun _ => pull 1 c1 c2 y y) s ω) atTop (𝓝 (y, 0))} = 0 := by
    rw [← inputs_cons pairLaw, Measure.map_apply measurable_cons (hms s)]
    refine (Measure.prod_apply_symm (measurable_cons (hms s))).trans (lintegral_eq_zero_of_ae_eq_zero (ae_of_all _ fun ω => ?_))
    show pairLaw {r | Tendsto (chain (fun _ => pull 1 c1 c2 y y) s (cons (r, ω))) atTop (𝓝 (y, 0))} = 0
    have hsh : ∀ r, Tendsto (chain (fun _ => pull 1 c1 c2 y y) s (cons (r, ω))) atTop (𝓝 (y, 0)) →
        Tendsto (chain (fun _ => pull 1 c1 c2 y y) (pull 1 c1 c2 y y s r) ω) atTop (𝓝 (y, 0)) := fun r h =>
      (h.comp (tendsto_add_atTop_nat 1)).congr fun k => chain_shift _ _ _ _ _
    rcases Set.eq_empty_or_nonempty {r | Tendsto (chain (fun _ => pull 1 c1 c2 y y) s (cons (r, ω))) atTop (𝓝 (y, 0))} with he | ⟨r0, hr0⟩
    · rw [he, measure_empty]
    · refine measure_mono_null (fun r hr => ?_) (pair_line_null hc (c1 * r0.1 + c2 * r0.2))
      have t1 := hsh r hr
      have t2 := hsh r0 hr0
      have hlim := (((t1.fst_nhds.sub_const y).mul t2.snd_nhds).sub ((t2.fst_nhds.sub_const y).mul t1.snd_nhds))
      simp only [pull_area, mul_zero, sub_zero] at hlim
      have h1 := tendsto_nhds_unique tendsto_const_nhds hlim
      have h2 : (s.1 - y) ^ 2 * ((c1 * r.1 + c2 * r.2) - (c1 * r0.1 + c2 * r0.2)) = 0 := by
        rw [← h1]
        unfold pull
        ring
      have h3 := (mul_eq_zero.1 h2).resolve_left (pow_ne_zero 2 (sub_ne_zero.2 hs))
      exact sub_eq_zero.1 h3
  rw [ae_iff]
  simpa using h0

/-! ## Different attractors: no rest -/

/-- Every part of the inputs of positive probability occurs again and again. -/
theorem inputs_often {Ω : Type} [MeasurableSpace Ω] (P : Measure Ω) [IsProbabilityMeasure P] {B : Set Ω} (hB : MeasurableSet B)
    (h : P B ≠ 0) : ∀ᵐ ω ∂(inputs P), ∃ᶠ k in atTop, ω k ∈ B := by
  have h1 := chain_recurrent (π := P) (P := P) (step := fun _ r => r) measurable_snd (by
    show (P.prod P).map Prod.snd = P
    rw [Measure.map_snd_prod, measure_univ, one_smul]) hB (ae_of_all _ fun _ => h)
  obtain ⟨x, hx⟩ := h1.exists
  refine hx.mono fun ω hω => ?_
  rw [frequently_atTop] at hω ⊢
  intro n
  obtain ⟨k, hk, h2⟩ := hω (n + 1)
  obtain ⟨k, rfl⟩ : ∃ k', k = k' + 1 := ⟨k - 1, by omega⟩
  exact ⟨k, by omega, h2⟩

theorem unif_near {a : ℝ} (ha : 0 < a) (ha1 : a < 1) {ε : ℝ} (hε : 0 < ε) : unifLaw (Metric.ball a ε) ≠ 0 := by
  unfold unifLaw
  rw [Measure.restrict_apply measurableSet_ball, Real.ball_eq_Ioo]
  have hsub : Set.Ioo (max (a - ε) 0) (min (a + ε) 1) ⊆ Set.Ioo (a - ε) (a + ε) ∩ Set.Ico 0 1 := fun x hx =>
    ⟨⟨(le_max_left _ _).trans_lt hx.1, hx.2.trans_le (min_le_left _ _)⟩, ((le_max_right _ _).trans_lt hx.1).le,
      hx.2.trans_le (min_le_right _ _)⟩
  have : 0 < volume (Set.Ioo (max (a - ε) 0) (min (a + ε) 1)) := by
    rw [Real.volume_Ioo, ENNReal.ofReal_pos, sub_pos]
    exact max_lt (lt_min (by linarith) (by linarith)) (lt_min (by linarith) one_pos)
  exact (this.trans_le (measure_mono hsub)).ne'

/-- With probability one, every point of the unit square is a limit point of the random numbers. -/
theorem pair_dense : ∀ᵐ ω ∂(inputs pairLaw), (∀ k, |(ω k).1| ≤ 1 ∧ |(ω k).2| ≤ 1) ∧
    ∀ m : Nat, (∃ᶠ k in atTop, |(ω k).1 - 1 / 2| < 1 / ((m : ℝ) + 1) ∧ |(ω k).2 - 1 / 2| < 1 / ((m : ℝ) + 1)) ∧
      (∃ᶠ k in atTop, |(ω k).1 - 1 / 4| < 1 / ((m : ℝ) + 1) ∧ |(ω k).2 - 1 / 2| < 1 / ((m : ℝ) + 1)) := by
  have h0 : ∀ᵐ ω ∂(inputs pairLaw), ∀ k : Nat, (0 ≤ (ω k).1 ∧ (ω k).1 < 1) ∧ 0 ≤ (ω k).2 ∧ (ω k).2 < 1 := by
    refine ae_all_iff.2 fun k => ?_
    have := (measurePreserving_eval_infinitePi (fun _ : Nat => pairLaw) k).quasiMeasurePreserving.ae pair_ae
    exact this
  have hb : ∀ (a b : ℝ), 0 < a → a < 1 → 0 < b → b < 1 → ∀ m : Nat, ∀ᵐ ω ∂(inputs pairLaw),
      ∃ᶠ k in atTop, |(ω k).1 - a| < 1 / (m + 1) ∧ |(ω k).2 - b| < 1 / (m + 1) := by
    intro a b ha ha1 hb hb1 m
    have hε : (0 : ℝ) < 1 / (m + 1) := by positivity
    refine inputs_often pairLaw (B := Metric.ball a (1 / ((m : ℝ) + 1)) ×ˢ Metric.ball b (1 / ((m : ℝ) + 1)))
      (measurableSet_ball.prod measurableSet_ball) ?_
    rw [Measure.prod_prod]
    exact mul_ne_zero (unif_near ha ha1 hε) (unif_near hb hb1 hε)
  have h1 := ae_all_iff.2 (hb (1 / 2) (1 / 2) (by norm_num) (by norm_num) (by norm_num) (by norm_num))
  have h2 := ae_all_iff.2 (hb (1 / 4) (1 / 2) (by norm_num) (by norm_num) (by norm_num) (by norm_num))
  filter_upwards [h0, h1, h2] with ω h0 h1 h2
  refine ⟨fun k => ?_, fun m => ⟨h1 m, h2 m⟩⟩
  obtain ⟨⟨a, b⟩, c, d⟩ := h0 k
  rw [abs_of_nonneg a, abs_of_nonneg c]
  exact ⟨b.le, d.le⟩

/-- Between two different attractors no particle comes to rest. -/
theorem pull_apart : ∀ᵐ ω ∂(inputs pairLaw), ∀ (w c1 c2 p l z : ℝ) (s : ℝ × ℝ), c1 ≠ 0 → c2 ≠ 0 → p ≠ l →
    ¬ Tendsto (fun k => (chain (fun _ => pull w c1 c2 p l) s ω k).1) atTop (𝓝 z) := by
  refine pair_dense.mono fun ω hω w c1 c2 p l z s h1 h2 hpl ht => ?_
  set x : Nat → ℝ := fun k => (chain (fun _ => pull w c1 c2 p l) s ω k).1 with hx
  set v : Nat → ℝ := fun k => (chain (fun _ => pull w c1 c2 p l) s ω k).2 with hv
  have hstep : ∀ k, x (k + 1) = x k + v (k + 1) := fun k => rfl
  have hvel : ∀ k, v (k + 1) = w * v k + c1 * (ω k).1 * (p - x k) + c2 * (ω k).2 * (l - x k) := fun k => rfl
  have hv0' : Tendsto (fun k => v (k + 1)) atTop (𝓝 0) := by
    have := (ht.comp (tendsto_add_atTop_nat 1)).sub ht
    rw [sub_self] at this
    refine this.congr fun k => ?_
    show x (k + 1) - x k = v (k + 1)
    rw [hstep]
    ring
  have hv0 : Tendsto v atTop (𝓝 0) := (tendsto_add_atTop_iff_nat 1).1 hv0'
  -- the attraction vanishes
  have ha : Tendsto (fun k => c1 * (p - z) * (ω k).1 + c2 * (l - z) * (ω k).2) atTop (𝓝 0) := by
    have e1 : Tendsto (fun k => c1 * ((ω k).1 * (x k - z))) atTop (𝓝 0) := by
      have hz : Tendsto (fun k => x k - z) atTop (𝓝 0) := by simpa using ht.sub_const z
      have : Tendsto (fun k => (ω k).1 * (x k - z)) atTop (𝓝 0) :=
        squeeze_zero_norm (a := fun k => |x k - z|) (fun k => by
          rw [norm_mul]
          exact mul_le_of_le_one_left (norm_nonneg _) (hω.1 k).1) (by simpa using hz.abs)
      simpa using this.const_mul c1
    have e2 : Tendsto (fun k => c2 * ((ω k).2 * (x k - z))) atTop (𝓝 0) := by
      have hz : Tendsto (fun k => x k - z) atTop (𝓝 0) := by simpa using ht.sub_const z
      have : Tendsto (fun k => (ω k).2 * (x k - z)) atTop (𝓝 0) :=
        squeeze_zero_norm (a := fun k => |x k - z|) (fun k => by
          rw [norm_mul]
          exact mul_le_of_le_one_left (norm_nonneg _) (hω.1 k).2) (by simpa using hz.abs)
      simpa using this.const_mul c2
    have e3 := ((hv0'.sub (hv0.const_mul w)).add e1).add e2
    simp only [mul_zero, sub_zero, add_zero] at e3
    refine e3.congr fun k => ?_
    rw [hvel]
    ring
  have lim : ∀ a b : ℝ, (∀ m : Nat, ∃ᶠ k in atTop, |(ω k).1 - a| < 1 / (m + 1) ∧ |(ω k).2 - b| < 1 / (m + 1)) →
      c1 * (p - z) * a + c2 * (l - z) * b = 0 := by
    intro a b hf
    by_contra hne
    set A := c1 * (p - z)
    set B := c2 * (l - z)
    have hd : 0 < |A * a + B * b| := abs_pos.2 hne
    obtain ⟨m, hm⟩ := exists_nat_gt (2 * (|A| + |B|) / |A * a + B * b|)
    obtain ⟨N, hN⟩ := Metric.tendsto_atTop.1 ha (|A * a + B * b| / 2) (by positivity)
    obtain ⟨k, hk, hk1, hk2⟩ := frequently_atTop.1 (hf m) N
    have h3 := hN k hk
    rw [Real.dist_eq, sub_zero] at h3
    have hm1 : (0 : ℝ) < m + 1 := by positivity
    have h4 : (|A| + |B|) * (1 / (m + 1)) < |A * a + B * b| / 2 := by
      rw [div_lt_iff₀ hd] at hm
      rw [mul_one_div, div_lt_iff₀ hm1]
      nlinarith
    have h5 : |A * a + B * b| ≤ |A * (ω k).1 + B * (ω k).2| + (|A| * |(ω k).1 - a| + |B| * |(ω k).2 - b|) := by
      have : A * a + B * b = (A * (ω k).1 + B * (ω k).2) - (A * ((ω k).1 - a) + B * ((ω k).2 - b)) := by ring
      rw [this]
      refine (abs_sub _ _).trans (add_le_add le_rfl ((abs_add_le _ _).trans (le_of_eq ?_)))
      exact congrArg₂ (· + ·) (abs_mul A _) (abs_mul B _)
    have h6 : |A| * |(ω k).1 - a| ≤ |A| * (1 / (m + 1)) := mul_le_mul_of_nonneg_left hk1.le (abs_nonneg _)
    have h7 : |B| * |(ω k).2 - b| ≤ |B| * (1 / (m + 1)) := mul_le_mul_of_nonneg_left hk2.le (abs_nonneg _)
    nlinarith
  have e1 := lim (1 / 2) (1 / 2) fun m => (hω.2 m).1
  have e2 := lim (1 / 4) (1 / 2) fun m => (hω.2 m).2
  have e3 : c1 * (p - z) = 0 := by linarith
  have e4 : c2 * (l - z) = 0 := by linarith
  have e5 : p - z = 0 := (mul_eq_zero.1 e3).resolve_left h1
  have e6 : l - z = 0 := (mul_eq_zero.1 e4).resolve_left h2
  exact hpl (by linarith)

end Stochopy
