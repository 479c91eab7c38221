import Mathlib.Dynamics.BirkhoffSum.NormedSpace
import Mathlib.Dynamics.Ergodic.MeasurePreserving
import Mathlib.MeasureTheory.Integral.Bochner.Set

/-!
# Averages along the orbits of a measure preserving map

The maximal ergodic inequality and the ergodic theorem.
-/

namespace Stochopy
open MeasureTheory Filter Topology

variable {Z : Type} {mZ : MeasurableSpace Z} {μ : Measure Z} {θ : Z → Z}

/-- The largest of the sums of the first `0, …, N` values along the orbit. -/
noncomputable def maxSum (θ : Z → Z) (g : Z → ℝ) : Nat → Z → ℝ
  | 0, _ => 0
  | N + 1, z => max 0 (g z + maxSum θ g N (θ z))

theorem maxSum_nonneg (g : Z → ℝ) : ∀ N z, 0 ≤ maxSum θ g N z
  | 0, _ => le_refl _
  | _ + 1, _ => le_max_left _ _

theorem maxSum_mono (g : Z → ℝ) : ∀ N z, maxSum θ g N z ≤ maxSum θ g (N + 1) z
  | 0, z => maxSum_nonneg g 1 z
  | N + 1, z => max_le_max (le_refl _) (by have := maxSum_mono g N (θ z); linarith)

theorem birkhoffSum_le_maxSum (g : Z → ℝ) : ∀ N z, birkhoffSum θ g N z ≤ maxSum θ g N z
  | 0, z => by rw [birkhoffSum_zero]; exact le_refl _
  | N + 1, z => by
    rw [birkhoffSum_succ']
    have := birkhoffSum_le_maxSum g N (θ z)
    exact le_max_of_le_right (by linarith)

theorem maxSum_integrable (hθ : MeasurePreserving θ μ μ) {g : Z → ℝ} (hm : Measurable g) (hg : Integrable g μ) :
    ∀ N, Measurable (maxSum θ g N) ∧ Integrable (maxSum θ g N) μ
  | 0 => ⟨measurable_const, integrable_zero _ _ _⟩
  | N + 1 => by
    obtain ⟨h1, h2⟩ := maxSum_integrable hθ hm hg N
    have h3 : Integrable (fun z => maxSum θ g N (θ z)) μ := hθ.integrable_comp_of_integrable h2
    refine ⟨measurable_const.max (hm.add (h1.comp hθ.measurable)), ?_⟩
    exact (integrable_zero _ _ _).sup (hg.add h3)

/-- The maximal ergodic inequality. -/
theorem maximal (hθ : MeasurePreserving θ μ μ) {g : Z → ℝ} (hm : Measurable g) (hg : Integrable g μ) (N : Nat) :
    0 ≤ ∫ z in {z | 0 < maxSum θ g N z}, g z ∂μ := by
  cases N with
  | zero =>
    have : {z : Z | 0 < maxSum θ g 0 z} = ∅ := by
      ext z; simp [maxSum]
    rw [this, Measure.restrict_empty, integral_zero_measure]
  | succ N =>
    obtain ⟨h1, h2⟩ := maxSum_integrable hθ hm hg (N + 1)
    set M := maxSum θ g (N + 1) with hM
    have h3 : Integrable (fun z => M (θ z)) μ := hθ.integrable_comp_of_integrable h2
    have hE : MeasurableSet {z | 0 < M z} := h1 measurableSet_Ioi
    have e1 : ∫ z in {z | 0 < M z}, M z ∂μ = ∫ z, M z ∂μ := by
      refine setIntegral_eq_integral_of_forall_compl_eq_zero fun z hz => ?_
      exact le_antisymm (not_lt.1 hz) (maxSum_nonneg g _ z)
    have e2 : ∫ z in {z | 0 < M z}, M (θ z) ∂μ ≤ ∫ z, M (θ z) ∂μ :=
      setIntegral_le_integral h3 (ae_of_all _ fun z => maxSum_nonneg g _ _)
    have e3 : ∫ z, M (θ z) ∂μ = ∫ z, M z ∂μ := by
      have := integral_map (μ := μ) hθ.measurable.aemeasurable (f := M) (by rw [hθ.map_eq]; exact h1.aestronglyMeasurable)
      rw [hθ.map_eq] at this
      exact this.symm
    have e4 : ∫ z in {z | 0 < M z}, (M z - M (θ z)) ∂μ ≤ ∫ z in {z | 0 < M z}, g z ∂μ := by
      refine setIntegral_mono_on (h2.sub h3).integrableOn hg.integrableOn hE fun z hz => ?_
      have hz' : 0 < max 0 (g z + maxSum θ g N (θ z)) := hz
      have h5 : M z = g z + maxSum θ g N (θ z) := by
        rcases lt_max_iff.1 hz' with h | h
        · exact absurd h (lt_irrefl _)
        · exact max_eq_right h.le
      have h6 := maxSum_mono (θ := θ) g N (θ z)
      rw [← hM] at h6
      linarith
    rw [integral_sub h2.integrableOn h3.integrableOn] at e4
    linarith

/-- The points whose sums along the orbit grow at least linearly. -/
def growing (θ : Z → Z) (g : Z → ℝ) : Set Z := {z | ∃ j : Nat, ∃ᶠ n : Nat in atTop, n * (1 / ((j : ℝ) + 1)) < birkhoffSum θ g n z}

theorem measurable_birkhoffSum (hθ : Measurable θ) {g : Z → ℝ} (hg : Measurable g) (n : Nat) : Measurable (birkhoffSum θ g n) := by
  have : birkhoffSum θ g n = fun z => ∑ k ∈ Finset.range n, g (θ^[k] z) := rfl
  rw [this]
  exact Finset.measurable_sum _ fun k _ => hg.comp (hθ.iterate k)

theorem measurableSet_growing (hθ : Measurable θ) {g : Z → ℝ} (hg : Measurable g) : MeasurableSet (growing θ g) := by
  have : growing θ g = ⋃ j : Nat, ⋂ N : Nat, ⋃ n : Nat, {z | N ≤ n ∧ n * (1 / ((j : ℝ) + 1)) < birkhoffSum θ g n z} := by
    ext z
    simp only [growing, Set.mem_setOf_eq, Set.mem_iInter, Set.mem_iUnion, frequently_atTop, ge_iff_le]
  rw [this]
  refine MeasurableSet.iUnion fun j => MeasurableSet.iInter fun N => MeasurableSet.iUnion fun n => ?_
  have h1 : MeasurableSet {z | n * (1 / ((j : ℝ) + 1)) < birkhoffSum θ g n z} :=
    measurable_birkhoffSum hθ hg n measurableSet_Ioi
  by_cases h : N ≤ n
  · simpa [h] using h1
  · simp [h]

theorem growing_invariant (θ : Z → Z) (g : Z → ℝ) (z : Z) : θ z ∈ growing θ g ↔ z ∈ growing θ g := by
  have key : ∀ (a b : ℝ) (s t : Nat → ℝ), (∀ n, s n + a = t n + b) → (∃ j : Nat, ∃ᶠ n : Nat in atTop, n * (1 / ((j : ℝ) + 1)) < s n) →
      ∃ j : Nat, ∃ᶠ n : Nat in atTop, ((n : ℝ) + 1) * (1 / ((j : ℝ) + 1)) < t n := by
    rintro a b s t hst ⟨j, hj⟩
    refine ⟨2 * j + 1, ?_⟩
    have hev : ∀ᶠ n : Nat in atTop, |a - b| + 1 < (n : ℝ) * (1 / (2 * ((j : ℝ) + 1))) :=
      (tendsto_natCast_atTop_atTop.atTop_mul_const (by positivity)).eventually_gt_atTop _
    refine (hj.and_eventually hev).mono fun n hn => ?_
    obtain ⟨h1, h2⟩ := hn
    have h3 : 1 / (((2 * j + 1 : ℕ) : ℝ) + 1) = 1 / (2 * ((j : ℝ) + 1)) := by
      push_cast
      ring_nf
    have h4 : 1 / ((j : ℝ) + 1) = 2 * (1 / (2 * ((j : ℝ) + 1))) := by
      field_simp
    have h5 : 1 / (2 * ((j : ℝ) + 1)) ≤ 1 := by
      rw [div_le_one (by positivity)]
      have : (0 : ℝ) ≤ j := Nat.cast_nonneg j
      linarith
    rw [h3]
    rw [h4] at h1
    have h6 := hst n
    have h7 := neg_abs_le (a - b)
    nlinarith
  constructor
  · intro h
    obtain ⟨j, hj⟩ := key (g z) 0 _ (fun n => birkhoffSum θ g (n + 1) z) (fun n => by rw [birkhoffSum_succ']; ring) h
    refine ⟨j, ?_⟩
    rw [frequently_atTop] at hj ⊢
    intro N
    obtain ⟨n, hn, h1⟩ := hj N
    exact ⟨n + 1, by omega, by push_cast; exact h1⟩
  · rintro ⟨j, hj⟩
    have h1 : ∃ᶠ n : Nat in atTop, n * (1 / ((j : ℝ) + 1)) < birkhoffSum θ g (n + 1) z := by
      rw [frequently_atTop] at hj ⊢
      intro N
      obtain ⟨n, hn, h1⟩ := hj (N + 1)
      refine ⟨n - 1, by omega, ?_⟩
      rw [show n - 1 + 1 = n by omega]
      refine lt_of_le_of_lt ?_ h1
      refine mul_le_mul_of_nonneg_right ?_ (by positivity)
      exact_mod_cast Nat.sub_le n 1
    obtain ⟨j', hj'⟩ := key 0 (g z) _ (fun n => birkhoffSum θ g n (θ z)) (fun n => by rw [birkhoffSum_succ']; ring) ⟨j, h1⟩
    refine ⟨j', hj'.mono fun n hn => lt_of_le_of_lt ?_ hn⟩
    exact mul_le_mul_of_nonneg_right (by linarith) (by positivity)

/-- Sums of a function with negative mean do not grow. -/
theorem not_growing [IsProbabilityMeasure μ] (hθ : MeasurePreserving θ μ μ)
    (herg : ∀ E : Set Z, MeasurableSet E → (∀ z, θ z ∈ E ↔ z ∈ E) → μ E = 0 ∨ μ E = 1) {g : Z → ℝ} (hm : Measurable g)
    (hg : Integrable g μ) (hneg : ∫ z, g z ∂μ < 0) : ∀ᵐ z ∂μ, z ∉ growing θ g := by
  rcases herg _ (measurableSet_growing hθ.measurable hm) (growing_invariant θ g) with h | h
  · exact measure_eq_zero_iff_ae_notMem.1 h
  · exfalso
    set E : Nat → Set Z := fun N => {z | 0 < maxSum θ g N z} with hE
    have hEm : ∀ N, MeasurableSet (E N) := fun N => (maxSum_integrable hθ hm hg N).1 measurableSet_Ioi
    have hmono : Monotone E := monotone_nat_of_le_succ fun N z hz => lt_of_lt_of_le hz (maxSum_mono _ N z)
    have hsub : growing θ g ⊆ ⋃ N, E N := by
      rintro z ⟨j, hj⟩
      obtain ⟨n, hn⟩ := hj.exists
      refine Set.mem_iUnion.2 ⟨n, lt_of_lt_of_le (lt_of_le_of_lt ?_ hn) (birkhoffSum_le_maxSum _ n z)⟩
      positivity
    have hfull : ∀ᵐ z ∂μ, z ∈ ⋃ N, E N := by
      have : ∀ᵐ z ∂μ, z ∈ growing θ g := (mem_ae_iff_prob_eq_one (measurableSet_growing hθ.measurable hm)).2 h
      exact this.mono fun z hz => hsub hz
    have h1 := tendsto_setIntegral_of_monotone hEm hmono hg.integrableOn
    have h2 : ∫ z in ⋃ N, E N, g z ∂μ = ∫ z, g z ∂μ := by
      rw [Measure.restrict_eq_self_of_ae_mem hfull]
    rw [h2] at h1
    exact absurd (ge_of_tendsto' h1 fun N => maximal hθ hm hg N) (not_le.2 hneg)

/-- The averages along almost every orbit converge to the mean, when invariant sets are trivial. -/
theorem ae_birkhoff [IsProbabilityMeasure μ] (hθ : MeasurePreserving θ μ μ)
    (herg : ∀ E : Set Z, MeasurableSet E → (∀ z, θ z ∈ E ↔ z ∈ E) → μ E = 0 ∨ μ E = 1) {f : Z → ℝ} (hm : Measurable f)
    (hf : Integrable f μ) :
    ∀ᵐ z ∂μ, Tendsto (fun n : Nat => (∑ k ∈ Finset.range n, f (θ^[k] z)) / n) atTop (𝓝 (∫ z, f z ∂μ)) := by
  set c := ∫ z, f z ∂μ with hc
  have hup : ∀ᵐ z ∂μ, ∀ i : Nat, z ∉ growing θ fun z => f z - (c + 1 / ((i : ℝ) + 1)) := by
    refine ae_all_iff.2 fun i => not_growing hθ herg (hm.sub measurable_const) (hf.sub (integrable_const _)) ?_
    rw [integral_sub hf (integrable_const _), integral_const, probReal_univ, one_smul, ← hc]
    have : (0 : ℝ) < 1 / ((i : ℝ) + 1) := by positivity
    linarith
  have hdown : ∀ᵐ z ∂μ, ∀ i : Nat, z ∉ growing θ fun z => (c - 1 / ((i : ℝ) + 1)) - f z := by
    refine ae_all_iff.2 fun i => not_growing hθ herg (measurable_const.sub hm) ((integrable_const _).sub hf) ?_
    rw [integral_sub (integrable_const _) hf, integral_const, probReal_univ, one_smul, ← hc]
    have : (0 : ℝ) < 1 / ((i : ℝ) + 1) := by positivity
    linarith
  filter_upwards [hup, hdown] with z h1 h2
  have hsum1 : ∀ (n : Nat) (a : ℝ), birkhoffSum θ (fun z => f z - a) n z = (∑ k ∈ Finset.range n, f (θ^[k] z)) - n * a := by
    intro n a
    simp [birkhoffSum, Finset.sum_sub_distrib]
  have hsum2 : ∀ (n : Nat) (a : ℝ), birkhoffSum θ (fun z => a - f z) n z = n * a - (∑ k ∈ Finset.range n, f (θ^[k] z)) := by
    intro n a
    simp [birkhoffSum, Finset.sum_sub_distrib]
  have hnot : ∀ {g : Z → ℝ}, z ∉ growing θ g → ∀ j : Nat, ∀ᶠ n : Nat in atTop, birkhoffSum θ g n z ≤ n * (1 / ((j : ℝ) + 1)) := by
    intro g h j
    by_contra hc
    refine h ⟨j, ?_⟩
    rw [not_eventually] at hc
    exact hc.mono fun n hn => not_le.1 hn
  rw [Metric.tendsto_nhds]
  intro ε hε
  obtain ⟨i, hi⟩ := exists_nat_one_div_lt (show 0 < ε / 2 by positivity)
  filter_upwards [hnot (h1 i) i, hnot (h2 i) i, eventually_gt_atTop 0] with n hn1 hn2 hn0
  rw [hsum1] at hn1
  rw [hsum2] at hn2
  have hn0' : (0 : ℝ) < n := by exact_mod_cast hn0
  rw [Real.dist_eq, abs_lt]
  constructor
  · have : c - ε < (∑ k ∈ Finset.range n, f (θ^[k] z)) / n := by
      rw [lt_div_iff₀ hn0']
      nlinarith
    linarith
  · rw [sub_lt_iff_lt_add, div_lt_iff₀ hn0']
    nlinarith

end Stochopy
