import Verif.Props.Average
import Verif.Lemmas.Mixing
import Verif.Lemmas.Positive
import Verif.Lemmas.Sweep
import Verif.Lemmas.BlockStart

/-!
# C102: late samples have almost the density proportional to `exp (-f)`
-/

set_option linter.unusedSectionVars false

namespace Stochopy
open MeasureTheory hiding average
open Spec Sampling ProbabilityTheory Filter Topology Concrete
open scoped ENNReal

/-! ## Chains -/

/-- Detailed balance is reversibility. -/
theorem reversible_of_balance {n : Nat} {Ω : Type} [MeasurableSpace Ω] {P : Measure Ω} [IsProbabilityMeasure P] {w : Vec ℝ n → ℝ}
    (hw : Measurable w) (hw0 : ∀ x, 0 < w x) (hfin : ∫⁻ x, ENNReal.ofReal (w x) ≠ ∞) {next : Vec ℝ n → Ω → Vec ℝ n}
    (hm : Measurable fun e : Vec ℝ n × Ω => next e.1 e.2) (hb : DetailedBalance P next w) : Reversible (normalized w) P next := by
  have := normalized_prob hw hw0 hfin
  have hd : Measurable fun x => ENNReal.ofReal (w x) := ENNReal.measurable_ofReal.comp hw
  have hP : ∀ {A : Set (Vec ℝ n)}, MeasurableSet A → Measurable fun x => P {ω | next x ω ∈ A} := fun hA =>
    measurable_measure_prodMk_left (hm hA)
  have key : ∀ {A B : Set (Vec ℝ n)}, MeasurableSet A → MeasurableSet B →
      ((normalized w).prod P) {e | e.1 ∈ A ∧ next e.1 e.2 ∈ B} =
        (target w Set.univ)⁻¹ * ∫⁻ x in A, ENNReal.ofReal (w x) * P {ω | next x ω ∈ B} := by
    intro A B hA hB
    have hE : MeasurableSet {e : Vec ℝ n × Ω | e.1 ∈ A ∧ next e.1 e.2 ∈ B} := (measurable_fst hA).inter (hm hB)
    rw [Measure.prod_apply hE]
    have h1 : ∀ x, P (Prod.mk x ⁻¹' {e : Vec ℝ n × Ω | e.1 ∈ A ∧ next e.1 e.2 ∈ B}) = A.indicator (fun x => P {ω | next x ω ∈ B}) x := by
      intro x
      by_cases hx : x ∈ A
      · rw [Set.indicator_of_mem hx]
        congr 1
        ext ω
        exact and_iff_right hx
      · rw [Set.indicator_of_notMem hx]
        have : Prod.mk x ⁻¹' {e : Vec ℝ n × Ω | e.1 ∈ A ∧ next e.1 e.2 ∈ B} = ∅ := by
          ext ω
          exact iff_of_false (fun h => hx h.1) (Set.notMem_empty _)
        rw [this, measure_empty]
    simp only [h1]
    rw [lintegral_indicator hA, normalized, Measure.restrict_smul, lintegral_smul_measure, smul_eq_mul, target,
      restrict_withDensity hA, lintegral_withDensity_eq_lintegral_mul _ hd (hP hB)]
    rfl
  unfold Reversible
  refine Measure.ext_prod fun {A B} hA hB => ?_
  rw [Measure.map_apply (measurable_fst.prodMk hm) (hA.prod hB), Measure.map_apply (hm.prodMk measurable_fst) (hA.prod hB)]
  have e1 : (fun e : Vec ℝ n × Ω => (e.1, next e.1 e.2)) ⁻¹' A ×ˢ B = {e | e.1 ∈ A ∧ next e.1 e.2 ∈ B} := rfl
  have e2 : (fun e : Vec ℝ n × Ω => (next e.1 e.2, e.1)) ⁻¹' A ×ˢ B = {e | e.1 ∈ B ∧ next e.1 e.2 ∈ A} := by
    ext e
    exact and_comm
  rw [e1, e2, key hA hB, key hB hA, hb A B hA hB]

/-- What the runs need, for one transition that is repeated. -/
theorem law_every {n : Nat} {Ω : Type} [MeasurableSpace Ω] {P : Measure Ω} [IsProbabilityMeasure P] {w : Vec ℝ n → ℝ}
    (hw : Measurable w) (hw0 : ∀ x, 0 < w x) (hfin : ∫⁻ x, ENNReal.ofReal (w x) ≠ ∞) {next : Vec ℝ n → Ω → Vec ℝ n}
    (hm : Measurable fun e : Vec ℝ n × Ω => next e.1 e.2) (hb : DetailedBalance P next w)
    (hpos : ∀ B, MeasurableSet B → volume B ≠ 0 → ∀ x, P {ω | next x ω ∈ B} ≠ 0)
    (hjump : ∀ x N, volume N = 0 → P {r | next x r ≠ x ∧ next x r ∈ N} = 0) (hmove : ∀ x, P {r | next x r ≠ x} ≠ 0) (x : Vec ℝ n)
    {ε : ℝ} (hε : 0 < ε) :
    ∃ N : Nat, ∀ k ≥ N, ∀ B, MeasurableSet B →
      |(inputs P).real {ω | chain (fun _ => next) x ω k ∈ B} - mean w (B.indicator 1)| < ε := by
  have := normalized_prob hw hw0 hfin
  have : IsProbabilityMeasure (inputs P) := by unfold inputs; infer_instance
  have hac : ∀ N, normalized w N = 0 → volume N = 0 := by
    intro N hN
    have h1 : ∀ᵐ x ∂(normalized w), x ∉ N := by rw [ae_iff]; simpa using hN
    have h2 := ae_of_normalized hw hw0 hfin h1
    rw [ae_iff] at h2
    simpa using h2
  obtain ⟨N, hN⟩ := mixing_every hm (reversible_of_balance hw hw0 hfin hm hb)
    (fun B hB h0 => ae_of_all _ (hpos B hB fun h => h0 (normalized_ac h))) (fun x N hN => hjump x N (hac N hN)) hmove x hε
  refine ⟨N, fun k hk B hB => ?_⟩
  have hi : Measurable (B.indicator (1 : Vec ℝ n → ℝ)) := measurable_const.indicator hB
  have hi1 : ∀ y, |B.indicator (1 : Vec ℝ n → ℝ) y| ≤ 1 := by
    intro y
    by_cases hy : y ∈ B
    · rw [Set.indicator_of_mem hy]
      exact (abs_one (α := ℝ)).le
    · rw [Set.indicator_of_notMem hy, abs_zero]
      exact zero_le_one
  have h1 := hN k hk _ hi hi1
  rw [← expect_chain hm hi hi1 k x, normalized_integral hw hw0] at h1
  have h2 : ∫ ω, B.indicator (1 : Vec ℝ n → ℝ) (chain (fun _ => next) x ω k) ∂(inputs P) =
      (inputs P).real {ω | chain (fun _ => next) x ω k ∈ B} := by
    have hmS : MeasurableSet {ω | chain (fun _ => next) x ω k ∈ B} :=
      ((measurable_chain (fun _ => hm) k).comp measurable_prodMk_left) hB
    rw [← integral_indicator_one hmS]
    rfl
  rwa [h2] at h1

/-- The same when the start has a density. -/
theorem law_density {n : Nat} {Ω : Type} [MeasurableSpace Ω] {P : Measure Ω} [IsProbabilityMeasure P] {w : Vec ℝ n → ℝ}
    (hw : Measurable w) (hw0 : ∀ x, 0 < w x) (hfin : ∫⁻ x, ENNReal.ofReal (w x) ≠ ∞) {next : Vec ℝ n → Ω → Vec ℝ n}
    (hm : Measurable fun e : Vec ℝ n × Ω => next e.1 e.2) (hb : DetailedBalance P next w)
    (hpos : ∀ B, MeasurableSet B → volume B ≠ 0 → ∀ x, P {ω | next x ω ∈ B} ≠ 0)
    {U : Type} [MeasurableSpace U] {μ : Measure U} [IsProbabilityMeasure μ] {start : U → Vec ℝ n} (hs : Measurable start)
    (hst : ∀ p : Vec ℝ n → Prop, (∀ᵐ x, p x) → ∀ᵐ u ∂μ, p (start u)) {ε : ℝ} (hε : 0 < ε) :
    ∃ N : Nat, ∀ k ≥ N, ∀ B, MeasurableSet B →
      |(μ.prod (inputs P)).real {z | chain (fun _ => next) (start z.1) z.2 k ∈ B} - mean w (B.indicator 1)| < ε := by
  have := normalized_prob hw hw0 hfin
  have : IsProbabilityMeasure (inputs P) := by unfold inputs; infer_instance
  have hac : μ.map start ≪ normalized w := by
    refine Measure.AbsolutelyContinuous.mk fun N hNm hN => ?_
    have h1 : ∀ᵐ x ∂(normalized w), x ∉ N := by rw [ae_iff]; simpa using hN
    have h2 := hst _ (ae_of_normalized hw hw0 hfin h1)
    rw [ae_iff] at h2
    rw [Measure.map_apply hs hNm]
    simp only [not_not] at h2
    exact h2
  have hpr : IsProbabilityMeasure (μ.map start) := Measure.isProbabilityMeasure_map hs.aemeasurable
  obtain ⟨N, hN⟩ := mixing_density hm (reversible_of_balance hw hw0 hfin hm hb)
    (fun B hB h0 => ae_of_all _ (hpos B hB fun h => h0 (normalized_ac h))) hac hε
  refine ⟨N, fun k hk B hB => ?_⟩
  have hi : Measurable (B.indicator (1 : Vec ℝ n → ℝ)) := measurable_const.indicator hB
  have hi1 : ∀ y, |B.indicator (1 : Vec ℝ n → ℝ) y| ≤ 1 := by
    intro y
    by_cases hy : y ∈ B
    · rw [Set.indicator_of_mem hy]
      exact (abs_one (α := ℝ)).le
    · rw [Set.indicator_of_notMem hy, abs_zero]
      exact zero_le_one
  have h1 := hN k hk _ hi hi1
  rw [probReal_univ, one_mul, normalized_integral hw hw0,
    integral_map hs.aemeasurable (iterate_expect hm hi hi1 k).1.aestronglyMeasurable] at h1
  have hmz : Measurable fun z : U × (Nat → Ω) => chain (fun _ => next) (start z.1) z.2 k :=
    (measurable_chain (fun _ => hm) k).comp ((hs.comp measurable_fst).prodMk measurable_snd)
  have h2 : ∫ u, (expect P next)^[k] (B.indicator (1 : Vec ℝ n → ℝ)) (start u) ∂μ =
      (μ.prod (inputs P)).real {z | chain (fun _ => next) (start z.1) z.2 k ∈ B} := by
    have hmS : MeasurableSet {z : U × (Nat → Ω) | chain (fun _ => next) (start z.1) z.2 k ∈ B} := hmz hB
    rw [← integral_indicator_one hmS]
    have : ∀ z, ({z : U × (Nat → Ω) | chain (fun _ => next) (start z.1) z.2 k ∈ B}.indicator (1 : U × (Nat → Ω) → ℝ)) z =
        B.indicator (1 : Vec ℝ n → ℝ) (chain (fun _ => next) (start z.1) z.2 k) := fun z => rfl
    show _ = ∫ z, ({z : U × (Nat → Ω) | chain (fun _ => next) (start z.1) z.2 k ∈ B}.indicator (1 : U × (Nat → Ω) → ℝ)) z ∂_
    simp only [this]
    rw [integral_prod]
    · refine integral_congr_ae (ae_of_all _ fun u => ?_)
      exact (expect_chain hm hi hi1 k (start u)).symm
    · exact bounded_integrable (hi.comp hmz) fun z => hi1 _
  rwa [h2] at h1

theorem mcmc_reach_one {n : Nat} (hn : 0 < n) {f : Vec ℝ n → ℝ} (hf : Measurable f) {scale : Vec ℝ n} (hs : ∀ c, scale c ≠ 0) {per : Nat}
    (hper : 0 < per) (hle : n ≤ per) {B : Set (Vec ℝ n)} (hB : MeasurableSet B) (hv : volume B ≠ 0) (x : Vec ℝ n) :
    ((gauss per).prod unifLaw) {r | blockStep f scale hper 0 x r ∈ B} ≠ 0 := by
  have h1 := C95_mcmc_kernel hf hs hper hB hv 1 0 (by rw [blockCount_one hn hle]) x
  have h2 := blockStep_law hf scale hper 0 x hB
  have h3 : reach ((gauss n).prod unifLaw) B (walkSteps f scale per 0 1) x =
      ((gauss n).prod unifLaw) {ω | walkStep f scale per 0 x ω ∈ B} := by
    have h4 : MeasurableSet {ω | walkStep f scale per 0 x ω ∈ B} :=
      ((measurable_walkStep hf scale per 0).comp measurable_prodMk_left) hB
    rw [← lintegral_indicator_one h4]
    unfold walkSteps
    rw [blockCount_one hn hle]
    rfl
  rw [h3, ← h2] at h1
  exact h1.ne'

/-- The chain of 'mcmc' when all coordinates are moved together: from every starting point, the law of the `k`-th point is close to the
density proportional to `exp (-f)`, uniformly for all regions. -/
theorem C102_mcmc_kernel_start {n : Nat} (hn : 0 < n) {f : Vec ℝ n → ℝ} (hf : Measurable f)
    (hint : ∫⁻ x, ENNReal.ofReal (Real.exp (-f x)) ≠ ∞) {scale : Vec ℝ n} (hs : ∀ c, scale c ≠ 0) {per : Nat}
    (hper : 0 < per) (hle : n ≤ per) (x : Vec ℝ n) {ε : ℝ} (hε : 0 < ε) :
    ∃ N : Nat, ∀ k ≥ N, ∀ B, MeasurableSet B →
      |(inputs ((gauss per).prod unifLaw)).real {ω | chain (mcmcNext f scale hper) x ω k ∈ B} -
        mean (fun x => Real.exp (-f x)) (B.indicator 1)| < ε := by
  rw [mcmcNext_one hn hper hle]
  obtain ⟨h2, h3⟩ := mcmc_moves hn hf hs hper hle
  exact law_every (Real.measurable_exp.comp hf.neg) (fun x => Real.exp_pos _) hint (measurable_blockStep hf scale hper 0)
    (blockStep_balance hf scale hper 0) (fun B hB hv x => mcmc_reach_one hn hf hs hper hle hB hv x) h2 h3 x hε

/-- The averages of the expectations along the chain of 'mcmc'. -/
theorem mcmc_averages {n : Nat} (hn : 0 < n) {f : Vec ℝ n → ℝ} (hf : Measurable f)
    (hint : ∫⁻ x, ENNReal.ofReal (Real.exp (-f x)) ≠ ∞) {scale : Vec ℝ n} (hs : ∀ c, scale c ≠ 0) {per : Nat}
    (hper : 0 < per) {h : Vec ℝ n → ℝ} (hh : Measurable h) {M : ℝ} (hM : ∀ x, |h x| ≤ M) :
    ∀ᵐ x ∂(normalized fun x => Real.exp (-f x)), Tendsto (fun N : Nat => (∑ k ∈ Finset.range N,
      chainMean ((gauss per).prod unifLaw) (mcmcNext f scale hper) h k x) / N) atTop (𝓝 (∫ x, h x ∂(normalized fun x => Real.exp (-f x)))) := by
  have hw : Measurable fun x => Real.exp (-f x) := Real.measurable_exp.comp hf.neg
  have hw0 : ∀ x, 0 < Real.exp (-f x) := fun x => Real.exp_pos _
  have : IsProbabilityMeasure (inputs ((gauss per).prod unifLaw)) := by unfold inputs; infer_instance
  have hm : ∀ k, Measurable fun e : Vec ℝ n × (Vec ℝ per × ℝ) => mcmcNext f scale hper k e.1 e.2 := fun k =>
    measurable_blockStep hf scale hper _
  have hwi : Integrable fun x => Real.exp (-f x) := by
    refine ⟨hw.aestronglyMeasurable, ?_⟩
    rw [hasFiniteIntegral_iff_ofReal (ae_of_all _ fun y => (hw0 y).le)]
    exact lt_top_iff_ne_top.2 hint
  have hhi : Integrable fun x => h x * Real.exp (-f x) := hwi.bdd_mul hh.aestronglyMeasurable (ae_of_all _ hM)
  have h1 := (normalized_ac (w := fun x => Real.exp (-f x))).ae_le (C101_mcmc_kernel hn hf hint hs hper hh hhi)
  filter_upwards [h1] with x hx
  rw [normalized_integral hw hw0]
  have hcx : ∀ k, Measurable fun ω : Nat → Vec ℝ per × ℝ => h (chain (mcmcNext f scale hper) x ω k) := fun k =>
    hh.comp ((measurable_chain hm k).comp measurable_prodMk_left)
  have h2 : Tendsto (fun N : Nat => ∫ ω, (∑ k ∈ Finset.range N, h (chain (mcmcNext f scale hper) x ω k)) / N
      ∂(inputs ((gauss per).prod unifLaw))) atTop (𝓝 (∫ _, mean (fun x => Real.exp (-f x)) h ∂(inputs ((gauss per).prod unifLaw)))) := by
    refine tendsto_integral_of_dominated_convergence (fun _ => M) (fun N => ?_) (integrable_const _)
      (fun N => ae_of_all _ fun ω => ?_) hx
    · exact ((Finset.measurable_sum _ fun k _ => hcx k).div_const _).aestronglyMeasurable
    · have hM0 : 0 ≤ M := (abs_nonneg _).trans (hM x)
      rcases Nat.eq_zero_or_pos N with rfl | hN
      · simpa using hM0
      have hN' : (0 : ℝ) < N := by exact_mod_cast hN
      rw [Real.norm_eq_abs, abs_div, abs_of_pos hN', div_le_iff₀ hN']
      refine (Finset.abs_sum_le_sum_abs _ _).trans ?_
      refine (Finset.sum_le_sum fun k _ => hM _).trans ?_
      rw [Finset.sum_const, Finset.card_range, nsmul_eq_mul, mul_comm]
  rw [integral_const, probReal_univ, one_smul] at h2
  refine h2.congr fun N => ?_
  rw [integral_div, integral_finset_sum _ fun k _ => bounded_integrable (hcx k) fun ω => hM _]
  rfl

/-- The chain of 'mcmc' with any blocks, when the start has a density. -/
theorem C102_mcmc_kernel {n : Nat} (hn : 0 < n) {f : Vec ℝ n → ℝ} (hf : Measurable f)
    (hint : ∫⁻ x, ENNReal.ofReal (Real.exp (-f x)) ≠ ∞) {scale : Vec ℝ n} (hs : ∀ c, scale c ≠ 0) {per : Nat}
    (hper : 0 < per) {ν : Measure (Vec ℝ n)} [IsProbabilityMeasure ν] (hν : ν ≪ volume) {ε : ℝ} (hε : 0 < ε) :
    ∃ N : Nat, ∀ k ≥ N, ∀ B, MeasurableSet B →
      |(ν.prod (inputs ((gauss per).prod unifLaw))).real {z | chain (mcmcNext f scale hper) z.1 z.2 k ∈ B} -
        mean (fun x => Real.exp (-f x)) (B.indicator 1)| < ε := by
  have hw : Measurable fun x => Real.exp (-f x) := Real.measurable_exp.comp hf.neg
  have hw0 : ∀ x, 0 < Real.exp (-f x) := fun x => Real.exp_pos _
  have := normalized_prob hw hw0 hint
  have : IsProbabilityMeasure (inputs ((gauss per).prod unifLaw)) := by unfold inputs; infer_instance
  have hbc : 0 < blockCount n per := by
    unfold blockCount
    exact Nat.div_pos (by omega) hper
  have hm : ∀ k, Measurable fun e : Vec ℝ n × (Vec ℝ per × ℝ) => mcmcNext f scale hper k e.1 e.2 := fun k =>
    measurable_blockStep hf scale hper _
  have hac : ν ≪ normalized fun x => Real.exp (-f x) := by
    refine Measure.AbsolutelyContinuous.mk fun N hNm hN => hν ?_
    have h1 : ∀ᵐ x ∂(normalized fun x => Real.exp (-f x)), x ∉ N := by rw [ae_iff]; simpa using hN
    have h2 := ae_of_normalized hw hw0 hint h1
    rw [ae_iff] at h2
    simpa using h2
  have hwi : Integrable fun x => Real.exp (-f x) := by
    refine ⟨hw.aestronglyMeasurable, ?_⟩
    rw [hasFiniteIntegral_iff_ofReal (ae_of_all _ fun y => (hw0 y).le)]
    exact lt_top_iff_ne_top.2 hint
  have h := sweep_density (π := normalized fun x => Real.exp (-f x)) (P := (gauss per).prod unifLaw) (next := mcmcNext f scale hper) hm
    (fun k => reversible_of_balance hw hw0 hint (hm k) (blockStep_balance hf scale hper _))
    (fun k h M hh hM => block_positive hf hint scale hper _ hh hM) hbc (fun k j => ?_)
    (fun h M hh hM => mcmc_averages hn hf hint hs hper hh hM) hac hε
  · obtain ⟨N, hN⟩ := h
    refine ⟨N, fun k hk B hB => ?_⟩
    have hi : Measurable (B.indicator (1 : Vec ℝ n → ℝ)) := measurable_const.indicator hB
    have hi1 : ∀ y, |B.indicator (1 : Vec ℝ n → ℝ) y| ≤ 1 := by
      intro y
      by_cases hy : y ∈ B
      · rw [Set.indicator_of_mem hy]
        exact (abs_one (α := ℝ)).le
      · rw [Set.indicator_of_notMem hy, abs_zero]
        exact zero_le_one
    have h1 := hN k hk _ hi hi1
    rw [probReal_univ, one_mul, normalized_integral hw hw0] at h1
    have hmz := measurable_chain hm k
    have hmS : MeasurableSet {z : Vec ℝ n × (Nat → Vec ℝ per × ℝ) | chain (mcmcNext f scale hper) z.1 z.2 k ∈ B} := hmz hB
    rw [← integral_indicator_one hmS]
    show |∫ z : Vec ℝ n × (Nat → Vec ℝ per × ℝ), B.indicator (1 : Vec ℝ n → ℝ) (chain (mcmcNext f scale hper) z.1 z.2 k) ∂_ - _| < ε
    rw [integral_prod]
    · exact h1
    · exact bounded_integrable (hi.comp hmz) fun z => hi1 _
  · unfold mcmcNext
    rw [Nat.add_comm, Nat.add_mul_mod_self_right]

/-- From almost every start. -/
theorem C102_mcmc_kernel_x0 {n : Nat} (hn : 0 < n) {f : Vec ℝ n → ℝ} (hf : Measurable f)
    (hint : ∫⁻ x, ENNReal.ofReal (Real.exp (-f x)) ≠ ∞) {scale : Vec ℝ n} (hs : ∀ c, scale c ≠ 0) {per : Nat} (hper : 0 < per) :
    ∀ᵐ x, ∀ ε > 0, ∃ N : Nat, ∀ k ≥ N, ∀ B, MeasurableSet B →
      |(inputs ((gauss per).prod unifLaw)).real {ω | chain (mcmcNext f scale hper) x ω k ∈ B} -
        mean (fun x => Real.exp (-f x)) (B.indicator 1)| < ε := by
  have hw : Measurable fun x => Real.exp (-f x) := Real.measurable_exp.comp hf.neg
  have hw0 : ∀ x, 0 < Real.exp (-f x) := fun x => Real.exp_pos _
  have := normalized_prob hw hw0 hint
  have hbc : 0 < blockCount n per := by
    unfold blockCount
    exact Nat.div_pos (by omega) hper
  have hm : ∀ k, Measurable fun e : Vec ℝ n × (Vec ℝ per × ℝ) => mcmcNext f scale hper k e.1 e.2 := fun k =>
    measurable_blockStep hf scale hper _
  filter_upwards [changes hper hn hf hint hs] with x hx ε hε
  have h := sweep_start (π := normalized fun x => Real.exp (-f x)) (P := (gauss per).prod unifLaw) (next := mcmcNext f scale hper) hm
    (fun k => reversible_of_balance hw hw0 hint (hm k) (blockStep_balance hf scale hper _))
    (fun k h M hh hM => block_positive hf hint scale hper _ hh hM) hbc (fun k j => ?_)
    (fun h M hh hM => mcmc_averages hn hf hint hs hper hh hM) (measurableSet_changed x) (fun k N hN h0 => ?_) hx hε
  · obtain ⟨N, hN⟩ := h
    refine ⟨N, fun k hk B hB => ?_⟩
    obtain ⟨hi, hi1⟩ := indicator_ok hB
    have h1 := hN k hk _ hi hi1
    rwa [normalized_integral hw hw0, chainMean_indicator hm hB] at h1
  · unfold mcmcNext
    rw [Nat.add_comm, Nat.add_mul_mod_self_right]
  · refine law_changed hper hf hs x k hN ?_
    have h1 : ∀ᵐ x ∂(normalized fun x => Real.exp (-f x)), x ∉ N := by rw [ae_iff]; simpa using h0
    have h2 := ae_of_normalized hw hw0 hint h1
    rw [ae_iff] at h2
    simpa using h2

/-- The same for 'hmc' under the conditions of `C96_hmc_kernel_partial`. -/
theorem C102_hmc_kernel_partial {n : Nat} (hn : 0 < n) {f : Vec ℝ n → ℝ} (hf : Measurable f)
    (hint : ∫⁻ x, ENNReal.ofReal (Real.exp (-f x)) ≠ ∞) {γ : Vec ℝ n → Vec ℝ n} (hγ : Measurable γ) {ε : Vec ℝ n}
    (hε : ∀ c, ε c ≠ 0) {κ e : ℝ} (hκ : 0 ≤ κ) (he0 : 0 ≤ e) (he : ∀ c, |ε c| ≤ e)
    (hl : ∀ x y, ‖γ x - γ y‖ ≤ κ * ‖x - y‖) {L : Nat} (hL : 1 ≤ L) (hshort : (L * e) ^ 2 * κ ≤ 1) (x : Vec ℝ n)
    {δ : ℝ} (hδ : 0 < δ) :
    ∃ N : Nat, ∀ k ≥ N, ∀ B, MeasurableSet B →
      |(inputs ((gauss n).prod unifLaw)).real {ω | chain (fun _ => hamiltonianStep f γ ε L) x ω k ∈ B} -
        mean (fun x => Real.exp (-f x)) (B.indicator 1)| < δ :=
  law_every (Real.measurable_exp.comp hf.neg) (fun x => Real.exp_pos _) hint (measurable_hamiltonianStep hf hγ ε L)
    (hamiltonian_balance hf hγ ε L) (fun B hB hv x => hamiltonian_reach hκ hl he hε hL hshort he0 x hv)
    (fun x N hN => hamiltonian_jump hκ hl he hε hL hshort he0 x hN) (hmc_moves hn hε hκ he0 he hl hL hshort) x hδ

/-! ## Runs -/

section Runs
variable {σ : Type} {R : Rng σ ℝ} {fuel : Nat} {g : σ}

/-- The call returned, and its sample number `k` is in `B`. -/
def SampleIn {n : Nat} (result : Except PyErr (Sampling.Output σ ℝ n)) (k : Nat) (B : Set (Vec ℝ n)) : Prop :=
  ∃ o, result = .ok o ∧ ∃ xs, o.xall = some xs ∧ ∃ q ∈ B, xs[k]? = some (point q)

theorem sampleIn_iff {n : Nat} {result : Except PyErr (Sampling.Output σ ℝ n)} {k : Nat} {c : Vec ℝ n} {B : Set (Vec ℝ n)}
    (key : ∀ o, result = .ok o → ∃ qs : List (Vec ℝ n), o.xall = some (qs.map point) ∧ qs[k]? = some c)
    (hret : ∃ o, result = .ok o) : SampleIn result k B ↔ c ∈ B := by
  constructor
  · rintro ⟨o, ho, xs, hxs, q, hq, hqk⟩
    obtain ⟨qs, e1, e2⟩ := key o ho
    rw [e1] at hxs
    obtain rfl := Option.some.inj hxs
    rw [List.getElem?_map, e2] at hqk
    have : point c = point q := Option.some.inj hqk
    have hqe : c = q := funext fun j => Val.fin.inj (congrFun this j)
    rw [hqe]
    exact hq
  · intro hmem
    obtain ⟨o, ho⟩ := hret
    obtain ⟨qs, e1, e2⟩ := key o ho
    refine ⟨o, ho, _, e1, _, hmem, ?_⟩
    rw [List.getElem?_map, e2]
    rfl

theorem mcmc_sampleIn (hR : R.Ok) {a : MCMC.Args ℝ}
    {fn : Vec (Val ℝ) a.ndim → Val ℝ} (hfn : a.fn = some fn) {φ : Vec ℝ a.ndim → ℝ} (hφ : ∀ x, fn (point x) = .fin (φ x))
    (hc : a.constraints ≠ some "Reject") (hall : a.returnAll = true)
    {q : Vec ℝ a.ndim} (hq : ∀ x, FirstSample R a.toArgs g x → x = point q) {g' : σ} (hg' : genStart R a.toArgs g = g')
    {k m fuel : Nat} (hkm : k < m) (hret : ∃ o, (MCMC.sample R fuel { a with maxiter := m } g).1 = .ok o) {B : Set (Vec ℝ a.ndim)} :
    SampleIn (MCMC.sample R fuel { a with maxiter := m } g).1 k B ↔
      chain (mcmcNext φ (scaleOf a.toArgs) (blockSize_pos a.perc a.ndim)) q (numbers R (blockSize a.perc a.ndim) g') k ∈ B := by
  refine sampleIn_iff (fun o ho => ?_) hret
  obtain ⟨qs, e1, -, e3⟩ := mcmc_samples hR (a := { a with maxiter := m }) hfn hφ hc hall ho hq
  subst hg'
  exact ⟨qs, e1, e3 k (by show (k : Int) < m; omega)⟩

theorem hmc_sampleIn (hR : R.Ok) {a : HMC.Args ℝ}
    {fn : Vec (Val ℝ) a.ndim → Val ℝ} (hfn : a.fn = some fn) {φ : Vec ℝ a.ndim → ℝ} (hφ : ∀ x, fn (point x) = .fin (φ x))
    (hh : a.fdStep ≠ 0) (hj : a.jac = none) (hc : a.constraints ≠ some "Reject") (hall : a.returnAll = true)
    {q : Vec ℝ a.ndim} (hq : ∀ x, FirstSample R a.toArgs g x → x = point q) {g' : σ} (hg' : genStart R a.toArgs g = g')
    {k m : Nat} (hkm : k < m) (hret : ∃ o, (HMC.sample R { a with maxiter := m } g).1 = .ok o) {B : Set (Vec ℝ a.ndim)} :
    SampleIn (HMC.sample R { a with maxiter := m } g).1 k B ↔
      chain (fun _ => hamiltonianStep φ (centralGradient φ a.fdStep) (scaleOf a.toArgs) (a.nleap.toNat + 1)) q
        (numbers R a.ndim g') k ∈ B := by
  refine sampleIn_iff (fun o ho => ?_) hret
  obtain ⟨qs, e1, -, e3⟩ := hmc_chain hR (a := { a with maxiter := m }) hfn hφ hh hj hc hall ho hq
  subst hg'
  exact ⟨qs, e1, e3 k (by show (k : Int) < m; omega)⟩

/-- 'mcmc' with `perc=1`, without constraints and with a given first sample: the probability that sample number `k` of a call falls into
`B` is close to the probability of `B` under the density proportional to `exp (-f)`, when `k` is large; how large does not depend on `B`
and the number of iterations. -/
theorem C102_mcmc_start [MeasurableSpace σ] {Q : Measure σ} (hQ : Ideal R Q) (hR : R.Ok) {a : MCMC.Args ℝ}
    {fn : Vec (Val ℝ) a.ndim → Val ℝ} (hfn : a.fn = some fn) {φ : Vec ℝ a.ndim → ℝ} (hφ : ∀ x, fn (point x) = .fin (φ x))
    (hm : Measurable φ) (hint : ∫⁻ x, ENNReal.ofReal (Real.exp (-φ x)) ≠ ∞) (hc : a.constraints ≠ some "Reject")
    (hs : ∀ c, scaleOf a.toArgs c ≠ 0) (hn : 0 < a.ndim) (hp : a.perc = 1) {x : NdArr ℝ} (hx0 : a.x0 = some x)
    (hshape : x.shape = [a.ndim]) (hseed : a.seed = none) (hall : a.returnAll = true) {ε : ℝ} (hε : 0 < ε) :
    ∃ N : Nat, ∀ k m fuel : Nat, N ≤ k → k < m → (∀ g, ∃ o, (MCMC.sample R fuel { a with maxiter := m } g).1 = .ok o) →
      ∀ B : Set (Vec ℝ a.ndim), MeasurableSet B →
        |Q.real {g | SampleIn (MCMC.sample R fuel { a with maxiter := m } g).1 k B} -
          mean (fun x => Real.exp (-φ x)) (B.indicator 1)| < ε := by
  have hb : a.ndim ≤ blockSize a.perc a.ndim := by
    unfold blockSize
    rw [hp, one_mul, Nat.floor_natCast]
    omega
  obtain ⟨N, hN⟩ := C102_mcmc_kernel_start hn hm hint hs (blockSize_pos a.perc a.ndim) hb (fun j => x.get [j]) hε
  refine ⟨N, fun k m fuel hk hkm hret B hB => ?_⟩
  obtain ⟨hmeas, hlaw⟩ := hQ.numbers (blockSize a.perc a.ndim)
  have h1 := hN k hk B hB
  have hmk : Measurable fun ω : Nat → Vec ℝ (blockSize a.perc a.ndim) × ℝ =>
      chain (mcmcNext φ (scaleOf a.toArgs) (blockSize_pos a.perc a.ndim)) (fun j => x.get [j]) ω k :=
    (measurable_chain (next := mcmcNext φ (scaleOf a.toArgs) (blockSize_pos a.perc a.ndim)) (fun _ =>
      measurable_blockStep hm (scaleOf a.toArgs) (blockSize_pos a.perc a.ndim) _) k).comp measurable_prodMk_left
  rw [← hlaw, map_measureReal_apply hmeas (s := {ω | chain (mcmcNext φ (scaleOf a.toArgs) (blockSize_pos a.perc a.ndim))
    (fun j => x.get [j]) ω k ∈ B}) (hmk hB)] at h1
  have he : {g | SampleIn (MCMC.sample R fuel { a with maxiter := m } g).1 k B} = numbers R (blockSize a.perc a.ndim) ⁻¹'
      {ω | chain (mcmcNext φ (scaleOf a.toArgs) (blockSize_pos a.perc a.ndim)) (fun j => x.get [j]) ω k ∈ B} := by
    ext g
    refine mcmc_sampleIn hR hfn hφ hc hall (q := fun j => x.get [j]) (fun y hy => ?_) ?_ hkm (hret g)
    · unfold FirstSample at hy
      simp only [hx0] at hy
      rw [hy hshape]
      rfl
    · unfold genStart
      simp only [hx0, hseed]
  rw [he]
  exact h1

/-- For every `perc` and almost every given first sample. -/
theorem C102_mcmc_x0 [MeasurableSpace σ] {Q : Measure σ} (hQ : Ideal R Q) (hR : R.Ok) {a : MCMC.Args ℝ}
    {fn : Vec (Val ℝ) a.ndim → Val ℝ} (hfn : a.fn = some fn) {φ : Vec ℝ a.ndim → ℝ} (hφ : ∀ x, fn (point x) = .fin (φ x))
    (hm : Measurable φ) (hint : ∫⁻ x, ENNReal.ofReal (Real.exp (-φ x)) ≠ ∞) (hc : a.constraints ≠ some "Reject")
    (hs : ∀ c, scaleOf a.toArgs c ≠ 0) (hn : 0 < a.ndim) (hseed : a.seed = none) (hall : a.returnAll = true) :
    ∀ᵐ x : Vec ℝ a.ndim, ∀ ε > 0, ∃ N : Nat, ∀ k m fuel : Nat, N ≤ k → k < m →
      (∀ g, ∃ o, (MCMC.sample R fuel { a with maxiter := m, x0 := some (asArray x) } g).1 = .ok o) →
      ∀ B : Set (Vec ℝ a.ndim), MeasurableSet B →
        |Q.real {g | SampleIn (MCMC.sample R fuel { a with maxiter := m, x0 := some (asArray x) } g).1 k B} -
          mean (fun x => Real.exp (-φ x)) (B.indicator 1)| < ε := by
  filter_upwards [C102_mcmc_kernel_x0 hn hm hint hs (blockSize_pos a.perc a.ndim)] with x hx ε hε
  obtain ⟨N, hN⟩ := hx ε hε
  refine ⟨N, fun k m fuel hk hkm hret B hB => ?_⟩
  obtain ⟨hmeas, hlaw⟩ := hQ.numbers (blockSize a.perc a.ndim)
  have h1 := hN k hk B hB
  have hmk : Measurable fun ω : Nat → Vec ℝ (blockSize a.perc a.ndim) × ℝ =>
      chain (mcmcNext φ (scaleOf a.toArgs) (blockSize_pos a.perc a.ndim)) x ω k :=
    (measurable_chain (next := mcmcNext φ (scaleOf a.toArgs) (blockSize_pos a.perc a.ndim)) (fun _ =>
      measurable_blockStep hm (scaleOf a.toArgs) (blockSize_pos a.perc a.ndim) _) k).comp measurable_prodMk_left
  rw [← hlaw, map_measureReal_apply hmeas (s := {ω | chain (mcmcNext φ (scaleOf a.toArgs) (blockSize_pos a.perc a.ndim))
    x ω k ∈ B}) (hmk hB)] at h1
  refine lt_of_eq_of_lt ?_ h1
  congr 3
  ext g
  refine mcmc_sampleIn hR (a := { a with x0 := some (asArray x) }) hfn hφ hc hall (q := x) (fun y hy => ?_) ?_ hkm (hret g)
  · rw [hy rfl]
    funext j
    show Val.fin (if h : j.val < a.ndim then x ⟨j.val, h⟩ else 0) = Val.fin (x j)
    rw [dif_pos j.isLt]
  · unfold genStart
    simp only [hseed]

/-- The same with a random first sample, for every `perc`. -/
theorem C102_mcmc [MeasurableSpace σ] {Q : Measure σ} (hQ : Ideal R Q) (hR : R.Ok) {a : MCMC.Args ℝ}
    {fn : Vec (Val ℝ) a.ndim → Val ℝ} (hfn : a.fn = some fn) {φ : Vec ℝ a.ndim → ℝ} (hφ : ∀ x, fn (point x) = .fin (φ x))
    (hm : Measurable φ) (hint : ∫⁻ x, ENNReal.ofReal (Real.exp (-φ x)) ≠ ∞) (hc : a.constraints ≠ some "Reject")
    (hs : ∀ c, scaleOf a.toArgs c ≠ 0) (hn : 0 < a.ndim) (hx0 : a.x0 = none)
    (hseed : a.seed = none) (hall : a.returnAll = true) {ε : ℝ} (hε : 0 < ε) :
    ∃ N : Nat, ∀ k m fuel : Nat, N ≤ k → k < m → (∀ g, ∃ o, (MCMC.sample R fuel { a with maxiter := m } g).1 = .ok o) →
      ∀ B : Set (Vec ℝ a.ndim), MeasurableSet B →
        |Q.real {g | SampleIn (MCMC.sample R fuel { a with maxiter := m } g).1 k B} -
          mean (fun x => Real.exp (-φ x)) (B.indicator 1)| < ε := by
  have hd : ∀ c : Fin a.ndim, a.bounds.get [c, 1] - a.bounds.get [c, 0] ≠ 0 := by
    intro c hc
    refine hs c ?_
    unfold scaleOf
    rw [hc, zero_div, mul_zero]
  have hmb : Measurable (boxPoint a.toArgs) :=
    measurable_pi_lambda _ fun j => ((measurable_pi_apply j).const_mul _).const_add _
  have hpr : IsProbabilityMeasure ((Measure.pi fun _ : Fin a.ndim => unifLaw).map (boxPoint a.toArgs)) :=
    Measure.isProbabilityMeasure_map hmb.aemeasurable
  have hac : (Measure.pi fun _ : Fin a.ndim => unifLaw).map (boxPoint a.toArgs) ≪ volume := by
    refine Measure.AbsolutelyContinuous.mk fun N hNm hN => ?_
    have h1 : ∀ᵐ x : Vec ℝ a.ndim, x ∉ N := by rw [ae_iff]; simpa using hN
    have h2 := box_ae (fun j : Fin a.ndim => a.bounds.get [j, 0]) (fun j => a.bounds.get [j, 1] - a.bounds.get [j, 0]) hd h1
    rw [ae_iff] at h2
    rw [Measure.map_apply hmb hNm]
    simp only [not_not] at h2
    exact h2
  obtain ⟨N, hN⟩ := C102_mcmc_kernel hn hm hint hs (blockSize_pos a.perc a.ndim) hac hε
  refine ⟨N, fun k m fuel hk hkm hret B hB => ?_⟩
  obtain ⟨hmeas, hlaw⟩ := hQ.start a.ndim (blockSize a.perc a.ndim)
  have h1 := hN k hk B hB
  have hmk : Measurable fun z : Vec ℝ a.ndim × (Nat → Vec ℝ (blockSize a.perc a.ndim) × ℝ) =>
      chain (mcmcNext φ (scaleOf a.toArgs) (blockSize_pos a.perc a.ndim)) (boxPoint a.toArgs z.1) z.2 k :=
    (measurable_chain (next := mcmcNext φ (scaleOf a.toArgs) (blockSize_pos a.perc a.ndim)) (fun _ =>
      measurable_blockStep hm (scaleOf a.toArgs) (blockSize_pos a.perc a.ndim) _) k).comp
        ((hmb.comp measurable_fst).prodMk measurable_snd)
  have : IsProbabilityMeasure (inputs ((gauss (blockSize a.perc a.ndim)).prod unifLaw)) := by unfold inputs; infer_instance
  have hmk' := measurable_chain (next := mcmcNext φ (scaleOf a.toArgs) (blockSize_pos a.perc a.ndim)) (fun _ =>
    measurable_blockStep hm (scaleOf a.toArgs) (blockSize_pos a.perc a.ndim) _) k
  have hprod : ((Measure.pi fun _ : Fin a.ndim => unifLaw).map (boxPoint a.toArgs)).prod
      (inputs ((gauss (blockSize a.perc a.ndim)).prod unifLaw)) =
      ((Measure.pi fun _ : Fin a.ndim => unifLaw).prod (inputs ((gauss (blockSize a.perc a.ndim)).prod unifLaw))).map
        (Prod.map (boxPoint a.toArgs) id) := by
    have := Measure.map_prod_map (Measure.pi fun _ : Fin a.ndim => unifLaw) (inputs ((gauss (blockSize a.perc a.ndim)).prod unifLaw))
      hmb measurable_id
    rwa [Measure.map_id] at this
  rw [hprod, map_measureReal_apply (hmb.prodMap measurable_id) (s := {z | chain (mcmcNext φ (scaleOf a.toArgs)
    (blockSize_pos a.perc a.ndim)) z.1 z.2 k ∈ B}) (hmk' hB)] at h1
  change |(_ : Measure _).real {z : Vec ℝ a.ndim × (Nat → Vec ℝ (blockSize a.perc a.ndim) × ℝ) | chain (mcmcNext φ (scaleOf a.toArgs)
    (blockSize_pos a.perc a.ndim)) (boxPoint a.toArgs z.1) z.2 k ∈ B} - _| < _ at h1
  rw [← hlaw, map_measureReal_apply hmeas (s := {z | chain (mcmcNext φ (scaleOf a.toArgs) (blockSize_pos a.perc a.ndim))
    (boxPoint a.toArgs z.1) z.2 k ∈ B}) (hmk hB)] at h1
  refine lt_of_eq_of_lt ?_ h1
  congr 3
  ext g
  refine mcmc_sampleIn hR hfn hφ hc hall (q := boxPoint a.toArgs (drawVec R.rand a.ndim g).1) (fun x hx => ?_) ?_ hkm (hret g)
  · unfold FirstSample at hx
    simp only [hx0, hseed] at hx
    rw [hx]
    rfl
  · unfold genStart
    simp only [hx0, hseed]

/-- 'hmc' with a given first sample, under the conditions of `C96_hmc_x0_partial`. -/
theorem C102_hmc_x0_partial [MeasurableSpace σ] {Q : Measure σ} (hQ : Ideal R Q) (hR : R.Ok) {a : HMC.Args ℝ}
    {fn : Vec (Val ℝ) a.ndim → Val ℝ} (hfn : a.fn = some fn) {φ : Vec ℝ a.ndim → ℝ} (hφ : ∀ x, fn (point x) = .fin (φ x))
    (hm : Measurable φ) (hint : ∫⁻ x, ENNReal.ofReal (Real.exp (-φ x)) ≠ ∞) (hfd : a.fdStep ≠ 0) (hj : a.jac = none)
    (hc : a.constraints ≠ some "Reject") (hs : ∀ c, scaleOf a.toArgs c ≠ 0) (hn : 0 < a.ndim) {κ e : ℝ} (hκ : 0 ≤ κ) (he0 : 0 ≤ e)
    (he : ∀ c, |scaleOf a.toArgs c| ≤ e)
    (hl : ∀ x y, ‖centralGradient φ a.fdStep x - centralGradient φ a.fdStep y‖ ≤ κ * ‖x - y‖)
    (hshort : (((a.nleap.toNat + 1 : Nat) : ℝ) * e) ^ 2 * κ ≤ 1) {x : NdArr ℝ} (hx0 : a.x0 = some x)
    (hshape : x.shape = [a.ndim]) (hseed : a.seed = none) (hall : a.returnAll = true) {ε : ℝ} (hε : 0 < ε) :
    ∃ N : Nat, ∀ k m : Nat, N ≤ k → k < m → (∀ g, ∃ o, (HMC.sample R { a with maxiter := m } g).1 = .ok o) →
      ∀ B : Set (Vec ℝ a.ndim), MeasurableSet B →
        |Q.real {g | SampleIn (HMC.sample R { a with maxiter := m } g).1 k B} -
          mean (fun x => Real.exp (-φ x)) (B.indicator 1)| < ε := by
  have hγ := C45_hmc_gradient hm a.fdStep
  obtain ⟨N, hN⟩ := C102_hmc_kernel_partial hn hm hint hγ hs hκ he0 he hl (L := a.nleap.toNat + 1) (by omega) hshort
    (fun j => x.get [j]) hε
  refine ⟨N, fun k m hk hkm hret B hB => ?_⟩
  obtain ⟨hmeas, hlaw⟩ := hQ.numbers a.ndim
  have h1 := hN k hk B hB
  have hmk : Measurable fun ω : Nat → Vec ℝ a.ndim × ℝ => chain (fun _ => hamiltonianStep φ (centralGradient φ a.fdStep)
      (scaleOf a.toArgs) (a.nleap.toNat + 1)) (fun j => x.get [j]) ω k :=
    (measurable_chain (next := fun _ => hamiltonianStep φ (centralGradient φ a.fdStep) (scaleOf a.toArgs) (a.nleap.toNat + 1))
      (fun _ => measurable_hamiltonianStep hm hγ _ _) k).comp measurable_prodMk_left
  rw [← hlaw, map_measureReal_apply hmeas (s := {ω | chain (fun _ => hamiltonianStep φ (centralGradient φ a.fdStep)
      (scaleOf a.toArgs) (a.nleap.toNat + 1)) (fun j => x.get [j]) ω k ∈ B}) (hmk hB)] at h1
  refine lt_of_eq_of_lt ?_ h1
  congr 3
  ext g
  refine hmc_sampleIn hR hfn hφ hfd hj hc hall (q := fun j => x.get [j]) (fun y hy => ?_) ?_ hkm (hret g)
  · unfold FirstSample at hy
    simp only [hx0] at hy
    rw [hy hshape]
    rfl
  · unfold genStart
    simp only [hx0, hseed]

/-- The same with a random first sample. -/
theorem C102_hmc_partial [MeasurableSpace σ] {Q : Measure σ} (hQ : Ideal R Q) (hR : R.Ok) {a : HMC.Args ℝ}
    {fn : Vec (Val ℝ) a.ndim → Val ℝ} (hfn : a.fn = some fn) {φ : Vec ℝ a.ndim → ℝ} (hφ : ∀ x, fn (point x) = .fin (φ x))
    (hm : Measurable φ) (hint : ∫⁻ x, ENNReal.ofReal (Real.exp (-φ x)) ≠ ∞) (hfd : a.fdStep ≠ 0) (hj : a.jac = none)
    (hc : a.constraints ≠ some "Reject") (hs : ∀ c, scaleOf a.toArgs c ≠ 0) {κ e : ℝ} (hκ : 0 ≤ κ) (he0 : 0 ≤ e)
    (he : ∀ c, |scaleOf a.toArgs c| ≤ e)
    (hl : ∀ x y, ‖centralGradient φ a.fdStep x - centralGradient φ a.fdStep y‖ ≤ κ * ‖x - y‖)
    (hshort : (((a.nleap.toNat + 1 : Nat) : ℝ) * e) ^ 2 * κ ≤ 1) (hx0 : a.x0 = none)
    (hseed : a.seed = none) (hall : a.returnAll = true) {ε : ℝ} (hε : 0 < ε) :
    ∃ N : Nat, ∀ k m : Nat, N ≤ k → k < m → (∀ g, ∃ o, (HMC.sample R { a with maxiter := m } g).1 = .ok o) →
      ∀ B : Set (Vec ℝ a.ndim), MeasurableSet B →
        |Q.real {g | SampleIn (HMC.sample R { a with maxiter := m } g).1 k B} -
          mean (fun x => Real.exp (-φ x)) (B.indicator 1)| < ε := by
  have hγ := C45_hmc_gradient hm a.fdStep
  have hd : ∀ c : Fin a.ndim, a.bounds.get [c, 1] - a.bounds.get [c, 0] ≠ 0 := by
    intro c hc
    refine hs c ?_
    unfold scaleOf
    rw [hc, zero_div, mul_zero]
  have hmb : Measurable (boxPoint a.toArgs) :=
    measurable_pi_lambda _ fun j => ((measurable_pi_apply j).const_mul _).const_add _
  obtain ⟨N, hN⟩ := law_density (w := fun x => Real.exp (-φ x)) (Real.measurable_exp.comp hm.neg) (fun x => Real.exp_pos _) hint
    (measurable_hamiltonianStep hm hγ (scaleOf a.toArgs) (a.nleap.toNat + 1))
    (hamiltonian_balance hm hγ (scaleOf a.toArgs) (a.nleap.toNat + 1))
    (fun B hB hv x => hamiltonian_reach hκ hl he hs (by omega) hshort he0 x hv) (start := boxPoint a.toArgs)
    (μ := Measure.pi fun _ : Fin a.ndim => unifLaw) hmb
    (fun p hp => box_ae (fun j : Fin a.ndim => a.bounds.get [j, 0]) (fun j => a.bounds.get [j, 1] - a.bounds.get [j, 0]) hd hp) hε
  refine ⟨N, fun k m hk hkm hret B hB => ?_⟩
  obtain ⟨hmeas, hlaw⟩ := hQ.start a.ndim a.ndim
  have h1 := hN k hk B hB
  have hmk : Measurable fun z : Vec ℝ a.ndim × (Nat → Vec ℝ a.ndim × ℝ) => chain (fun _ => hamiltonianStep φ
      (centralGradient φ a.fdStep) (scaleOf a.toArgs) (a.nleap.toNat + 1)) (boxPoint a.toArgs z.1) z.2 k :=
    (measurable_chain (next := fun _ => hamiltonianStep φ (centralGradient φ a.fdStep) (scaleOf a.toArgs) (a.nleap.toNat + 1))
      (fun _ => measurable_hamiltonianStep hm hγ _ _) k).comp ((hmb.comp measurable_fst).prodMk measurable_snd)
  rw [← hlaw, map_measureReal_apply hmeas (s := {z | chain (fun _ => hamiltonianStep φ (centralGradient φ a.fdStep)
      (scaleOf a.toArgs) (a.nleap.toNat + 1)) (boxPoint a.toArgs z.1) z.2 k ∈ B}) (hmk hB)] at h1
  refine lt_of_eq_of_lt ?_ h1
  congr 3
  ext g
  refine hmc_sampleIn hR hfn hφ hfd hj hc hall (q := boxPoint a.toArgs (drawVec R.rand a.ndim g).1) (fun x hx => ?_) ?_ hkm (hret g)
  · unfold FirstSample at hx
    simp only [hx0, hseed] at hx
    rw [hx]
    rfl
  · unfold genStart
    simp only [hx0, hseed]

/-- Without the condition on the trajectories the laws of the samples of 'hmc' need not converge: for `periodicArgs` every sample is `x` or
`-x`, so no sample number `k` is ever above `|x|`. -/
theorem C102_hmc_violated [MeasurableSpace σ] {Q : Measure σ} (hR : R.Ok) (x : ℝ) :
    ∃ B : Set (Vec ℝ 1), MeasurableSet B ∧ 0 < mean (fun y : Vec ℝ 1 => Real.exp (-∑ j, y j ^ 2)) (B.indicator 1) ∧
      ∀ m k : Nat, (∀ g, ∃ o, (HMC.sample R (periodicArgs x m) g).1 = .ok o) ∧
        Q.real {g | SampleIn (HMC.sample R (periodicArgs x m) g).1 k B} = 0 := by
  have hUo : IsOpen {y : Vec ℝ 1 | |x| < y 0} := isOpen_lt continuous_const (continuous_apply 0)
  refine ⟨_, hUo.measurableSet, above_mean_pos x, fun m k => ⟨fun g => ?_, ?_⟩⟩
  · obtain ⟨o, xs, h1, -⟩ := C95_hmc_violated hR g x m
    exact ⟨o, h1⟩
  · have : {g | SampleIn (HMC.sample R (periodicArgs x m) g).1 k {y : Vec ℝ 1 | |x| < y 0}} = ∅ := by
      refine Set.eq_empty_of_forall_notMem ?_
      rintro g ⟨o, ho, xs, hxs, (q : Vec ℝ 1), hq, hk⟩
      obtain ⟨o', xs', h1, h2, -, h4⟩ := C95_hmc_violated hR g x m
      rw [h1] at ho
      obtain rfl := Except.ok.inj ho
      obtain rfl := Option.some.inj (h2.symm.trans hxs)
      have hq' : |x| < q 0 := hq
      rcases h4 _ (List.mem_of_getElem? hk) with h | h
      · have : q 0 = x := Val.fin.inj (congrFun h (0 : Fin 1))
        rw [this] at hq'
        exact absurd (le_abs_self x) (not_le.2 hq')
      · have : q 0 = -x := Val.fin.inj (congrFun h (0 : Fin 1))
        rw [this] at hq'
        exact absurd (neg_le_abs x) (not_le.2 hq')
    exact (congrArg Q.real this).trans measureReal_empty

end Runs

/-! ## Concrete cases -/

namespace Concrete

/-- The sum of squares of two variables, `realArgs`: the probability that a late sample has a positive first coordinate
is close to one half. -/
example {ε : ℝ} (hε : 0 < ε) : ∃ N : Nat, ∀ k m : Nat, N ≤ k → k < m →
    |streamLaw.real {g | SampleIn (MCMC.sample streamRng m { realArgs with maxiter := m } g).1 k {x : Vec ℝ 2 | 0 < x 0}} -
      1 / 2| < ε := by
  have h := C102_mcmc stream_ideal streamRng_ok (a := realArgs) (φ := fun x : Vec ℝ 2 => ∑ j, x j ^ 2)
    rfl ?_ ?_ (squares_integrable 2) (by rintro ⟨⟩) ?_ (by decide) rfl rfl rfl hε
  · obtain ⟨N, hN⟩ := h
    refine ⟨N, fun k m hk hkm => ?_⟩
    rw [← mean_half 1]
    refine hN k m m hk hkm (fun g => ?_) _ (measurableSet_lt measurable_const (measurable_pi_apply 0))
    refine (C62_mcmc streamRng_ok (a := { realArgs with maxiter := m }) (Int.toNat_natCast m).le).2
      ⟨⟨⟨rfl, rfl, ?_, rfl, ?_, ?_⟩, ?_⟩, Or.inl ⟨Nat.two_pos, Or.inl ?_⟩⟩
    · rintro y ⟨⟩
    · rintro ⟨⟩
    · show (1 : Int) ≤ m
      omega
    · show (0 : ℝ) ≤ 1 ∧ (1 : ℝ) ≤ 1
      norm_num
    · show blockSize (1 : ℝ) 2 ∣ 2
      unfold blockSize
      norm_num
  · intro (x : Vec ℝ 2)
    show Val.fin (x 0 * x 0 + x 1 * x 1) = .fin (∑ j : Fin 2, x j ^ 2)
    rw [Fin.sum_univ_two]
    congr 1
    ring
  · exact Finset.measurable_sum _ fun j _ => (measurable_pi_apply j).pow_const 2
  · intro c
    show (1 / 2 : ℝ) * (((if 1 = 0 then -1 else 1 : ℝ) - (if 0 = 0 then -1 else 1 : ℝ)) / 2) ≠ 0
    norm_num

/-- `realArgs` with blocks of one coordinate. -/
noncomputable def halfArgs : MCMC.Args ℝ := { realArgs with perc := 1 / 2 }

/-- The same with `perc=1/2`, when the two coordinates are moved in turn. -/
example {ε : ℝ} (hε : 0 < ε) : ∃ N : Nat, ∀ k m : Nat, N ≤ k → k < m →
    |streamLaw.real {g | SampleIn (MCMC.sample streamRng m { halfArgs with maxiter := m } g).1 k {x : Vec ℝ 2 | 0 < x 0}} -
      1 / 2| < ε := by
  have h := C102_mcmc stream_ideal streamRng_ok (a := halfArgs) (φ := fun x : Vec ℝ 2 => ∑ j, x j ^ 2)
    rfl ?_ ?_ (squares_integrable 2) (by rintro ⟨⟩) ?_ (by decide) rfl rfl rfl hε
  · obtain ⟨N, hN⟩ := h
    refine ⟨N, fun k m hk hkm => ?_⟩
    rw [← mean_half 1]
    refine hN k m m hk hkm (fun g => ?_) _ (measurableSet_lt measurable_const (measurable_pi_apply 0))
    refine (C62_mcmc streamRng_ok (a := { halfArgs with maxiter := m }) (Int.toNat_natCast m).le).2
      ⟨⟨⟨rfl, rfl, ?_, rfl, ?_, ?_⟩, ?_⟩, Or.inl ⟨Nat.two_pos, Or.inl ?_⟩⟩
    · rintro y ⟨⟩
    · rintro ⟨⟩
    · show (1 : Int) ≤ m
      omega
    · show (0 : ℝ) ≤ 1 / 2 ∧ (1 / 2 : ℝ) ≤ 1
      norm_num
    · show blockSize (1 / 2 : ℝ) 2 ∣ 2
      unfold blockSize
      norm_num
  · intro (x : Vec ℝ 2)
    show Val.fin (x 0 * x 0 + x 1 * x 1) = .fin (∑ j : Fin 2, x j ^ 2)
    rw [Fin.sum_univ_two]
    congr 1
    ring
  · exact Finset.measurable_sum _ fun j _ => (measurable_pi_apply j).pow_const 2
  · intro c
    show (1 / 2 : ℝ) * (((if 1 = 0 then -1 else 1 : ℝ) - (if 0 = 0 then -1 else 1 : ℝ)) / 2) ≠ 0
    norm_num

/-- The same from almost every given start. -/
example : ∀ᵐ x : Vec ℝ 2, ∀ ε > 0, ∃ N : Nat, ∀ k m : Nat, N ≤ k → k < m →
    |streamLaw.real {g | SampleIn (MCMC.sample streamRng m { halfArgs with maxiter := m, x0 := some (asArray x) } g).1 k
      {x : Vec ℝ 2 | 0 < x 0}} - 1 / 2| < ε := by
  have h := C102_mcmc_x0 stream_ideal streamRng_ok (a := halfArgs) (φ := fun x : Vec ℝ 2 => ∑ j, x j ^ 2)
    rfl ?_ ?_ (squares_integrable 2) (by rintro ⟨⟩) ?_ (by decide) rfl rfl
  · refine Eventually.mono h fun (x : Vec ℝ 2) hx ε hε => ?_
    obtain ⟨N, hN⟩ := hx ε hε
    refine ⟨N, fun k m hk hkm => ?_⟩
    rw [← mean_half 1]
    refine hN k m m hk hkm (fun g => ?_) _ (measurableSet_lt measurable_const (measurable_pi_apply 0))
    refine (C62_mcmc streamRng_ok (a := { halfArgs with maxiter := m, x0 := some (asArray x) }) (Int.toNat_natCast m).le).2
      ⟨⟨⟨rfl, rfl, ?_, rfl, ?_, ?_⟩, ?_⟩, Or.inl ⟨Nat.two_pos, Or.inl ?_⟩⟩
    · rintro y ⟨⟩
      exact Or.inl rfl
    · rintro ⟨⟩
    · show (1 : Int) ≤ m
      omega
    · show (0 : ℝ) ≤ 1 / 2 ∧ (1 / 2 : ℝ) ≤ 1
      norm_num
    · show blockSize (1 / 2 : ℝ) 2 ∣ 2
      unfold blockSize
      norm_num
  · intro (x : Vec ℝ 2)
    show Val.fin (x 0 * x 0 + x 1 * x 1) = .fin (∑ j : Fin 2, x j ^ 2)
    rw [Fin.sum_univ_two]
    congr 1
    ring
  · exact Finset.measurable_sum _ fun j _ => (measurable_pi_apply j).pow_const 2
  · intro c
    show (1 / 2 : ℝ) * (((if 1 = 0 then -1 else 1 : ℝ) - (if 0 = 0 then -1 else 1 : ℝ)) / 2) ≠ 0
    norm_num

/-- The same for 'hmc' with short trajectories, from every start. -/
example (x : ℝ) {ε : ℝ} (hε : 0 < ε) : ∃ N : Nat, ∀ k m : Nat, N ≤ k → k ≤ m →
    |streamLaw.real {g | SampleIn (HMC.sample streamRng (shortArgs x m) g).1 k {x : Vec ℝ 1 | 0 < x 0}} - 1 / 2| < ε := by
  have h := C102_hmc_x0_partial stream_ideal streamRng_ok (a := shortArgs x 0) (φ := fun x : Vec ℝ 1 => ∑ j, x j ^ 2) rfl ?_ ?_
    (squares_integrable 1) ?_ rfl (by rintro ⟨⟩) ?_ Nat.one_pos (κ := 2) (e := 1 / 10) zero_le_two (by norm_num) ?_ ?_ ?_ rfl rfl
    rfl rfl hε
  · obtain ⟨N, hN⟩ := h
    refine ⟨N, fun k m hk hkm => ?_⟩
    rw [← mean_half 0]
    refine hN k (m + 1) hk (by omega) (fun g => ?_) _ (measurableSet_lt measurable_const (measurable_pi_apply 0))
    refine C62_hmc.2 ⟨⟨⟨rfl, rfl, ?_, rfl, ?_, ?_⟩, ?_, ?_⟩, Or.inl rfl⟩
    · rintro y ⟨⟩; exact Or.inl rfl
    · rintro ⟨⟩
    · show (1 : Int) ≤ ((m + 1 : Nat) : Int)
      omega
    · show (1 : Int) ≤ 4
      omega
    · rintro ⟨⟩
  · intro (z : Vec ℝ 1)
    show Val.fin (z 0) * Val.fin (z 0) = _
    rw [Val.fin_mul, Fin.sum_univ_one, sq]
  · exact Finset.measurable_sum _ fun j _ => (measurable_pi_apply j).pow_const 2
  · show (1 / 1000 : ℝ) ≠ 0
    norm_num
  · intro c
    show (1 / 10 : ℝ) * (((if 1 = 0 then -1 else 1 : ℝ) - (if 0 = 0 then -1 else 1 : ℝ)) / 2) ≠ 0
    norm_num
  · intro c
    show |(1 / 10 : ℝ) * (((if 1 = 0 then -1 else 1 : ℝ) - (if 0 = 0 then -1 else 1 : ℝ)) / 2)| ≤ 1 / 10
    norm_num
  · intro (x : Vec ℝ 1) (y : Vec ℝ 1)
    show ‖centralGradient (fun x : Vec ℝ 1 => ∑ j, x j ^ 2) (1 / 1000) x -
      centralGradient (fun x : Vec ℝ 1 => ∑ j, x j ^ 2) (1 / 1000) y‖ ≤ 2 * ‖x - y‖
    rw [centralGradient_sq (by norm_num), centralGradient_sq (by norm_num)]
    have : (fun j => 2 * x j) - (fun j => 2 * y j) = (2 : ℝ) • (x - y) := by
      funext j
      show 2 * x j - 2 * y j = 2 * (x j - y j)
      ring
    rw [this, norm_smul]
    norm_num
  · show (((4 + 1 : Nat) : ℝ) * (1 / 10)) ^ 2 * 2 ≤ 1
    norm_num

end Concrete

end Stochopy
