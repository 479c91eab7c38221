import Verif.Lemmas.Mixing
import Verif.Lemmas.Average
import Mathlib.Analysis.InnerProductSpace.Projection.Minimal
import Mathlib.Analysis.Convex.Combination
import Mathlib.Analysis.Convex.Topology
import Mathlib.Analysis.Asymptotics.SpecificAsymptotics

/-! # Chains that repeat a round of positive reversible transitions -/

set_option linter.unusedSectionVars false

namespace Stochopy
open MeasureTheory Spec Filter Topology
open scoped ENNReal

section Hilbert
variable {H : Type} [NormedAddCommGroup H] [InnerProductSpace ℝ H] [CompleteSpace H]

/-- A sequence whose shifts do not increase the norms of combinations, whose differences vanish and whose averages are in the limit
orthogonal to it, tends to zero. -/
theorem sequence_vanishes {v : Nat → H}
    (hc : ∀ (ι : Type) (t : Finset ι) (w : ι → ℝ) (k : ι → Nat) (n : Nat), ‖∑ i ∈ t, w i • v (k i + n)‖ ≤ ‖∑ i ∈ t, w i • v (k i)‖)
    (hreg : Tendsto (fun n => ‖v (n + 1) - v n‖) atTop (𝓝 0))
    (hweak : ∀ m, Tendsto (fun N : Nat => (∑ n ∈ Finset.range N, inner ℝ (v m) (v n)) / N) atTop (𝓝 0)) :
    Tendsto (fun n => ‖v n‖) atTop (𝓝 0) := by
  have hv0 : ∀ n, ‖v n‖ ≤ ‖v 0‖ := by
    intro n
    have := hc Unit {()} (fun _ => 1) (fun _ => 0) n
    simpa using this
  set C := closure (convexHull ℝ (Set.range v)) with hC
  have hconv : Convex ℝ C := (convex_convexHull ℝ _).closure
  have hmem : ∀ n, v n ∈ C := fun n => subset_closure (subset_convexHull ℝ _ ⟨n, rfl⟩)
  obtain ⟨u, hu, hmin⟩ := exists_norm_eq_iInf_of_complete_convex ⟨v 0, hmem 0⟩ isClosed_closure.isComplete hconv 0
  rw [norm_eq_iInf_iff_real_inner_le_zero hconv hu] at hmin
  have hge : ∀ n, ‖u‖ ^ 2 ≤ inner ℝ u (v n) := by
    intro n
    have := hmin (v n) (hmem n)
    rw [zero_sub, inner_neg_left, inner_sub_right, real_inner_self_eq_norm_sq] at this
    linarith
  -- the averages are orthogonal to combinations
  have hW : ∀ z ∈ convexHull ℝ (Set.range v), Tendsto (fun N : Nat => (∑ n ∈ Finset.range N, inner ℝ z (v n)) / N) atTop (𝓝 0) := by
    have : convexHull ℝ (Set.range v) ⊆ {z | Tendsto (fun N : Nat => (∑ n ∈ Finset.range N, inner ℝ z (v n)) / N) atTop (𝓝 0)} := by
      refine convexHull_min ?_ ?_
      · rintro _ ⟨m, rfl⟩
        exact hweak m
      · intro x hx y hy a b _ _ _
        have h1 := (hx.const_mul a).add (hy.const_mul b)
        rw [mul_zero, mul_zero, add_zero] at h1
        refine h1.congr fun N => ?_
        simp only [inner_add_left, inner_smul_left, Finset.sum_add_distrib, ← Finset.mul_sum]
        simp only [conj_trivial]
        ring
    exact fun z hz => this hz
  have hu0 : u = 0 := by
    have h1 : ∀ ε > 0, ‖u‖ ^ 2 ≤ ε * ‖v 0‖ := by
      intro ε hε
      obtain ⟨z, hz, hzu⟩ := Metric.mem_closure_iff.1 hu ε hε
      have h2 : ∀ N : Nat, 0 < N → ‖u‖ ^ 2 ≤ (∑ n ∈ Finset.range N, inner ℝ z (v n)) / N + ε * ‖v 0‖ := by
        intro N hN
        have hN' : (0 : ℝ) < N := by exact_mod_cast hN
        have h3 : ∀ n ∈ Finset.range N, ‖u‖ ^ 2 - ε * ‖v 0‖ ≤ inner ℝ z (v n) := by
          intro n _
          have h4 : inner ℝ u (v n) - inner ℝ z (v n) ≤ ε * ‖v 0‖ := by
            rw [← inner_sub_left]
            refine (real_inner_le_norm _ _).trans (mul_le_mul ?_ (hv0 n) (norm_nonneg _) hε.le)
            rw [← dist_eq_norm]
            exact hzu.le
          have := hge n
          linarith
        have h5 := Finset.sum_le_sum h3
        rw [Finset.sum_const, Finset.card_range, nsmul_eq_mul] at h5
        have h6 : ‖u‖ ^ 2 - ε * ‖v 0‖ ≤ (∑ n ∈ Finset.range N, inner ℝ z (v n)) / N := by
          rw [le_div_iff₀ hN', mul_comm]
          exact h5
        linarith
      have h7 := (hW z hz).add_const (ε * ‖v 0‖)
      rw [zero_add] at h7
      exact ge_of_tendsto h7 ((eventually_gt_atTop 0).mono fun N hN => h2 N hN)
    have h8 : ‖u‖ ^ 2 ≤ 0 := by
      refine le_of_forall_pos_le_add fun δ hδ => ?_
      rw [zero_add]
      have h9 : 0 < ‖v 0‖ + 1 := by positivity
      refine (h1 (δ / (‖v 0‖ + 1)) (by positivity)).trans ?_
      rw [div_mul_eq_mul_div, div_le_iff₀ h9]
      nlinarith [norm_nonneg (v 0)]
    exact norm_eq_zero.1 (pow_eq_zero_iff two_ne_zero |>.1 (le_antisymm h8 (sq_nonneg _)))
  -- differences over more steps
  have hdiff : ∀ j, Tendsto (fun n => ‖v (j + n) - v n‖) atTop (𝓝 0) := by
    intro j
    induction j with
    | zero => simp
    | succ j ih =>
      have h1 : Tendsto (fun n => ‖v (n + j + 1) - v (n + j)‖) atTop (𝓝 0) := hreg.comp (tendsto_add_atTop_nat j)
      have h2 := h1.add ih
      rw [add_zero] at h2
      refine squeeze_zero (fun n => norm_nonneg _) (fun n => ?_) h2
      have : v (j + 1 + n) - v n = (v (n + j + 1) - v (n + j)) + (v (j + n) - v n) := by
        rw [show j + 1 + n = n + j + 1 by omega, show j + n = n + j by omega]
        abel
      rw [this]
      exact norm_add_le _ _
  refine Metric.tendsto_atTop.2 fun ε hε => ?_
  rw [hu0] at hu
  obtain ⟨z, hz, hzu⟩ := Metric.mem_closure_iff.1 hu (ε / 2) (half_pos hε)
  rw [convexHull_eq] at hz
  obtain ⟨ι, t, w, y, hw0, hw1, hy, rfl⟩ := hz
  rw [Finset.centerMass_eq_of_sum_1 _ _ hw1, dist_eq_norm, zero_sub, norm_neg] at hzu
  have hk : ∀ i, ∃ m, i ∈ t → v m = y i := by
    intro i
    by_cases hi : i ∈ t
    · obtain ⟨m, hm⟩ := hy i hi
      exact ⟨m, fun _ => hm⟩
    · exact ⟨0, fun h => absurd h hi⟩
  choose k hk using hk
  have hsum : ∑ i ∈ t, w i • y i = ∑ i ∈ t, w i • v (k i) := Finset.sum_congr rfl fun i hi => by rw [hk i hi]
  rw [hsum] at hzu
  have h1 : Tendsto (fun n => ∑ i ∈ t, w i * ‖v (k i + n) - v n‖) atTop (𝓝 0) := by
    have := tendsto_finset_sum t fun i _ => (hdiff (k i)).const_mul (w i)
    simpa using this
  obtain ⟨N, hN⟩ := Metric.tendsto_atTop.1 h1 (ε / 2) (half_pos hε)
  refine ⟨N, fun n hn => ?_⟩
  rw [Real.dist_0_eq_abs, abs_of_nonneg (norm_nonneg _)]
  have h2 := (abs_lt.1 (Real.dist_0_eq_abs _ ▸ hN n hn)).2
  have h3 : v n = ∑ i ∈ t, w i • v (k i + n) - ∑ i ∈ t, w i • (v (k i + n) - v n) := by
    simp only [smul_sub, Finset.sum_sub_distrib, ← Finset.sum_smul, hw1, one_smul]
    abel
  rw [h3]
  refine (norm_sub_le _ _).trans_lt ?_
  have h4 : ‖∑ i ∈ t, w i • (v (k i + n) - v n)‖ ≤ ∑ i ∈ t, w i * ‖v (k i + n) - v n‖ := by
    refine (norm_sum_le _ _).trans (Finset.sum_le_sum fun i hi => ?_)
    rw [norm_smul, Real.norm_of_nonneg (hw0 i hi)]
  have h5 := hc ι t w k n
  linarith

end Hilbert

/-- Averages over every `L`-th term. -/
theorem average_multiples {a : Nat → ℝ} (ha : Tendsto (fun k => a (k + 1) - a k) atTop (𝓝 0))
    (hav : Tendsto (fun N : Nat => (∑ k ∈ Finset.range N, a k) / N) atTop (𝓝 0)) {L : Nat} (hL : 0 < L) :
    Tendsto (fun N : Nat => (∑ n ∈ Finset.range N, a (n * L)) / N) atTop (𝓝 0) := by
  have hL' : (0 : ℝ) < L := by exact_mod_cast hL
  have hmul : Tendsto (fun n : Nat => n * L) atTop atTop := tendsto_id.atTop_mul_const' hL
  have hi : ∀ i, Tendsto (fun n : Nat => a (n * L + i) - a (n * L)) atTop (𝓝 0) := by
    intro i
    induction i with
    | zero => simp
    | succ i ih =>
      have h1 : Tendsto (fun n : Nat => a (n * L + i + 1) - a (n * L + i)) atTop (𝓝 0) :=
        ha.comp ((tendsto_add_atTop_nat i).comp hmul)
      have h2 := h1.add ih
      rw [add_zero] at h2
      refine h2.congr fun n => ?_
      rw [show n * L + (i + 1) = n * L + i + 1 by omega]
      ring
  have hd : Tendsto (fun n : Nat => ∑ i ∈ Finset.range L, (a (n * L + i) - a (n * L))) atTop (𝓝 0) := by
    have := tendsto_finset_sum (Finset.range L) fun i _ => hi i
    simpa using this
  have h1 := hd.cesaro
  have h2 : Tendsto (fun N : Nat => (L : ℝ) * ((∑ k ∈ Finset.range (N * L), a k) / ((N * L : Nat) : ℝ))) atTop (𝓝 (L * 0)) :=
    (hav.comp hmul).const_mul _
  have h3 := (h2.sub h1).const_mul ((L : ℝ)⁻¹)
  rw [mul_zero, sub_zero, mul_zero] at h3
  refine h3.congr fun N => ?_
  rcases Nat.eq_zero_or_pos N with rfl | hN
  · simp
  have hN' : (0 : ℝ) < N := by exact_mod_cast hN
  have h4 : ∑ n ∈ Finset.range N, ∑ i ∈ Finset.range L, (a (n * L + i) - a (n * L)) =
      ∑ k ∈ Finset.range (N * L), a k - L * ∑ n ∈ Finset.range N, a (n * L) := by
    simp only [Finset.sum_sub_distrib, Finset.sum_const, Finset.card_range, nsmul_eq_mul]
    rw [sum_rounds, Finset.mul_sum]
  rw [h4]
  push_cast
  field_simp
  ring

section Chains
variable {X Ω : Type} [MeasurableSpace X] [MeasurableSpace Ω] {π : Measure X} [IsProbabilityMeasure π] {P : Measure Ω}
  [IsProbabilityMeasure P] {next : Nat → X → Ω → X}

/-- The expectation of `h` after `k` steps. -/
noncomputable def chainMean (P : Measure Ω) [IsProbabilityMeasure P] (next : Nat → X → Ω → X) (h : X → ℝ) (k : Nat) (x : X) : ℝ :=
  ∫ ω, h (chain next x ω k) ∂(inputs P)

/-- The density after `k` steps, relative to the stationary law. -/
noncomputable def forward (P : Measure Ω) (next : Nat → X → Ω → X) (f : X → ℝ) : Nat → X → ℝ
  | 0 => f
  | k + 1 => expect P (next k) (forward P next f k)

theorem forward_ok (hm : ∀ k, Measurable fun e : X × Ω => next k e.1 e.2) {f : X → ℝ} (hf : Measurable f) {M : ℝ}
    (hM : ∀ x, |f x| ≤ M) : ∀ k, Measurable (forward P next f k) ∧ ∀ x, |forward P next f k x| ≤ M
  | 0 => ⟨hf, hM⟩
  | k + 1 => ⟨measurable_expect (hm k) (forward_ok hm hf hM k).1, expect_le (forward_ok hm hf hM k).2⟩

theorem forward_shift (f : X → ℝ) : ∀ k, forward P next f (k + 1) = forward P (fun j => next (j + 1)) (expect P (next 0) f) k
  | 0 => rfl
  | k + 1 => by
    show expect P (next (k + 1)) (forward P next f (k + 1)) = _
    rw [forward_shift f k]
    rfl

theorem forward_rounds {L : Nat} (hper : ∀ k j, next (k * L + j) = next j) (f : X → ℝ) (n : Nat) :
    ∀ j, forward P next f (n * L + j) = forward P next (forward P next f (n * L)) j
  | 0 => rfl
  | j + 1 => by
    show expect P (next (n * L + j)) (forward P next f (n * L + j)) = _
    rw [forward_rounds hper f n j, hper]
    rfl

theorem chain_cons (next : Nat → X → Ω → X) (x : X) (r : Ω) (ω : Nat → Ω) (k : Nat) :
    chain next x (cons (r, ω)) (k + 1) = chain (fun j => next (j + 1)) (next 0 x r) ω k := by
  have h1 := chain_add next x (cons (r, ω)) 1 k
  rw [Nat.add_comm, h1]
  have h2 : (fun j => next (1 + j)) = fun j => next (j + 1) := funext fun j => by rw [Nat.add_comm]
  have h3 : (fun j => cons (r, ω) (1 + j)) = ω := funext fun j => by rw [Nat.add_comm]; rfl
  rw [h2, h3]
  rfl

theorem chainMean_ok (hm : ∀ k, Measurable fun e : X × Ω => next k e.1 e.2) {h : X → ℝ} (hh : Measurable h) {M : ℝ}
    (hM : ∀ x, |h x| ≤ M) (k : Nat) : Measurable (chainMean P next h k) ∧ ∀ x, |chainMean P next h k x| ≤ M := by
  have : IsProbabilityMeasure (inputs P) := by unfold inputs; infer_instance
  refine ⟨((hh.comp (measurable_chain hm k)).stronglyMeasurable.integral_prod_right' (ν := inputs P)).measurable, fun x => ?_⟩
  have := norm_integral_le_of_norm_le_const (μ := inputs P) (f := fun ω => h (chain next x ω k)) (C := M) (ae_of_all _ fun ω => hM _)
  rwa [probReal_univ, mul_one] at this

theorem chainMean_succ (hm : ∀ k, Measurable fun e : X × Ω => next k e.1 e.2) {h : X → ℝ} (hh : Measurable h) {M : ℝ}
    (hM : ∀ x, |h x| ≤ M) (k : Nat) : chainMean P next h (k + 1) = expect P (next 0) (chainMean P (fun j => next (j + 1)) h k) := by
  funext x
  have : IsProbabilityMeasure (inputs P) := by unfold inputs; infer_instance
  have hcx : Measurable fun ω : Nat → Ω => h (chain next x ω (k + 1)) := hh.comp ((measurable_chain hm (k + 1)).comp measurable_prodMk_left)
  unfold chainMean
  rw [← inputs_cons P, integral_map measurable_cons.aemeasurable hcx.aestronglyMeasurable, integral_prod]
  · simp only [chain_cons]
    rw [inputs_cons P]
    rfl
  · exact bounded_integrable (hcx.comp measurable_cons) fun z => hM _

theorem forward_adjoint {h : X → ℝ} (hh : Measurable h) {M' : ℝ} (hM' : ∀ x, |h x| ≤ M') : ∀ (k : Nat) {next : Nat → X → Ω → X},
    (∀ k, Measurable fun e : X × Ω => next k e.1 e.2) → (∀ k, Reversible π P (next k)) → ∀ {f : X → ℝ}, Measurable f → ∀ {M : ℝ},
    (∀ x, |f x| ≤ M) → ∫ x, forward P next f k x * h x ∂π = ∫ x, f x * chainMean P next h k x ∂π
  | 0, next, _, _, f, _, M, _ => by
    have : IsProbabilityMeasure (inputs P) := by unfold inputs; infer_instance
    refine integral_congr_ae (ae_of_all _ fun x => ?_)
    show f x * h x = f x * ∫ _, h x ∂(inputs P)
    rw [integral_const, probReal_univ, one_smul]
  | k + 1, next, hm, hrev, f, hf, M, hM => by
    rw [forward_shift, forward_adjoint hh hM' k (fun j => hm (j + 1)) (fun j => hrev (j + 1)) (measurable_expect (hm 0) hf) (expect_le hM),
      chainMean_succ hm hh hM']
    have hc := chainMean_ok (P := P) (fun j => hm (j + 1)) hh hM' k
    exact expect_symm (hm 0) (hrev 0) hf hc.1 hM hc.2

theorem expect_sum (hm : Measurable fun e : X × Ω => next 0 e.1 e.2) {ι : Type} (t : Finset ι) (w : ι → ℝ) {g : ι → X → ℝ}
    (hg : ∀ i, Measurable (g i)) {M : ℝ} (hM : ∀ i x, |g i x| ≤ M) (x : X) :
    expect P (next 0) (fun y => ∑ i ∈ t, w i * g i y) x = ∑ i ∈ t, w i * expect P (next 0) (g i) x := by
  unfold expect
  rw [integral_finset_sum]
  · refine Finset.sum_congr rfl fun i _ => ?_
    rw [integral_const_mul]
  · intro i _
    exact (bounded_integrable ((hg i).comp (hm.comp measurable_prodMk_left)) fun r => hM i _).const_mul _

theorem forward_sum (hm : ∀ k, Measurable fun e : X × Ω => next k e.1 e.2) {ι : Type} (t : Finset ι) (w : ι → ℝ) {g : ι → X → ℝ}
    (hg : ∀ i, Measurable (g i)) {M : ℝ} (hM : ∀ i x, |g i x| ≤ M) : ∀ k,
    forward P next (fun y => ∑ i ∈ t, w i * g i y) k = fun y => ∑ i ∈ t, w i * forward P next (g i) k y
  | 0 => rfl
  | k + 1 => by
    show expect P (next k) (forward P next _ k) = _
    rw [forward_sum hm t w hg hM k]
    funext x
    exact expect_sum (next := fun _ => next k) (hm k) t w (fun i => (forward_ok hm (hg i) (hM i) k).1) (fun i => (forward_ok hm (hg i) (hM i) k).2) x

theorem forward_contract (hm : ∀ k, Measurable fun e : X × Ω => next k e.1 e.2)
    (hinv : ∀ k, (π.prod P).map (fun e => next k e.1 e.2) = π) {f : X → ℝ} (hf : Measurable f) {M : ℝ} (hM : ∀ x, |f x| ≤ M) :
    Antitone fun k => ∫ x, forward P next f k x ^ 2 ∂π :=
  antitone_nat_of_succ_le fun k => expect_contract (hm k) (hinv k) (forward_ok hm hf hM k).1 (forward_ok hm hf hM k).2

/-- A positive reversible step moves a function by no more than it shrinks it. -/
theorem step_regular {step : X → Ω → X} (hm : Measurable fun e : X × Ω => step e.1 e.2) (hrev : Reversible π P step)
    (hpos : ∀ (h : X → ℝ) (M : ℝ), Measurable h → (∀ x, |h x| ≤ M) → 0 ≤ ∫ x, h x * expect P step h x ∂π) {h : X → ℝ}
    (hh : Measurable h) {M : ℝ} (hM : ∀ x, |h x| ≤ M) :
    ∫ x, (expect P step h x - h x) ^ 2 ∂π ≤ ∫ x, h x ^ 2 ∂π - ∫ x, expect P step h x ^ 2 ∂π := by
  set T := expect P step with hT
  have hinv := hrev.stationary hm
  have m1 : Measurable (T h) := measurable_expect hm hh
  have b1 : ∀ x, |T h x| ≤ M := expect_le hM
  have m2 : Measurable (T (T h)) := measurable_expect hm m1
  have b2 : ∀ x, |T (T h) x| ≤ M := expect_le b1
  have hI : ∀ {u v : X → ℝ}, Measurable u → Measurable v → (∀ x, |u x| ≤ M) → (∀ x, |v x| ≤ M) → Integrable (fun x => u x * v x) π :=
    fun hu hv hu' hv' => bounded_integrable (hu.mul hv) (M := M * M) fun x => by
      rw [abs_mul]
      exact mul_le_mul (hu' x) (hv' x) (abs_nonneg _) ((abs_nonneg _).trans (hu' x))
  have hTd : ∀ x, T (fun y => T h y - h y) x = T (T h) x - T h x := fun x => expect_sub hm m1 hh b1 hM x
  have h0 := hpos (fun y => T h y - h y) (2 * M) (m1.sub hh) (sub_bounded b1 hM)
  simp only [hTd] at h0
  have e0 : ∀ x, (T h x - h x) * (T (T h) x - T h x) = T h x * T (T h) x - T h x * T h x - h x * T (T h) x + h x * T h x := fun x => by ring
  simp only [e0] at h0
  have i1 := hI m1 m2 b1 b2
  have i2 := hI m1 m1 b1 b1
  have i3 := hI hh m2 hM b2
  have i4 := hI hh m1 hM b1
  have i5 := hI hh hh hM hM
  have i12 : Integrable (fun x => T h x * T (T h) x - T h x * T h x) π := i1.sub i2
  have i123 : Integrable (fun x => T h x * T (T h) x - T h x * T h x - h x * T (T h) x) π := i12.sub i3
  rw [integral_add i123 i4, integral_sub i12 i3, integral_sub i1 i2] at h0
  have s1 : ∫ x, h x * T (T h) x ∂π = ∫ x, T h x * T h x ∂π := (expect_symm hm hrev hh m1 hM b1).symm
  -- the contraction of the image
  have h1 : ∫ x, T h x * T (T h) x ∂π ≤ ∫ x, T h x * T h x ∂π := by
    have c := expect_contract (π := π) (P := P) hm hinv m1 b1
    have i6 := hI m2 m2 b2 b2
    have h3 : 0 ≤ ∫ x, (T h x - T (T h) x) ^ 2 ∂π := integral_nonneg fun x => sq_nonneg _
    have e3 : ∀ x, (T h x - T (T h) x) ^ 2 = T h x * T h x + T (T h) x * T (T h) x - 2 * (T h x * T (T h) x) := fun x => by ring
    have i7 : Integrable (fun x => T h x * T h x + T (T h) x * T (T h) x) π := i2.add i6
    simp only [e3] at h3
    rw [integral_sub i7 (i1.const_mul 2), integral_add i2 i6, integral_const_mul] at h3
    simp only [sq, ← hT] at c
    linarith
  have e4 : ∀ x, (T h x - h x) ^ 2 = T h x * T h x + h x * h x - 2 * (h x * T h x) := fun x => by ring
  have i8 : Integrable (fun x => T h x * T h x + h x * h x) π := i2.add i5
  simp only [e4]
  rw [integral_sub i8 (i4.const_mul 2), integral_add i2 i5, integral_const_mul]
  simp only [sq]
  linarith

theorem forward_regular (hm : ∀ k, Measurable fun e : X × Ω => next k e.1 e.2) (hrev : ∀ k, Reversible π P (next k))
    (hpos : ∀ (k : Nat) (h : X → ℝ) (M : ℝ), Measurable h → (∀ x, |h x| ≤ M) → 0 ≤ ∫ x, h x * expect P (next k) h x ∂π) {f : X → ℝ}
    (hf : Measurable f) {M : ℝ} (hM : ∀ x, |f x| ≤ M) :
    Tendsto (fun k => ∫ x, (forward P next f (k + 1) x - forward P next f k x) ^ 2 ∂π) atTop (𝓝 0) := by
  set a : Nat → ℝ := fun k => ∫ x, forward P next f k x ^ 2 ∂π with ha
  have hanti : Antitone a := forward_contract hm (fun k => (hrev k).stationary (hm k)) hf hM
  obtain ⟨l, hl⟩ : ∃ l, Tendsto a atTop (𝓝 l) :=
    ⟨_, tendsto_atTop_ciInf hanti ⟨0, by rintro _ ⟨n, rfl⟩; exact integral_nonneg fun x => sq_nonneg _⟩⟩
  have h1 := hl.sub (hl.comp (tendsto_add_atTop_nat 1))
  rw [sub_self] at h1
  exact squeeze_zero (fun k => integral_nonneg fun x => sq_nonneg _)
    (fun k => step_regular (hm k) (hrev k) (hpos k) (forward_ok hm hf hM k).1 (forward_ok hm hf hM k).2) h1

theorem forward_sub_const (hm : ∀ k, Measurable fun e : X × Ω => next k e.1 e.2) {f : X → ℝ} (hf : Measurable f) {M : ℝ}
    (hM : ∀ x, |f x| ≤ M) (c : ℝ) : ∀ k, forward P next (fun x => f x - c) k = fun x => forward P next f k x - c
  | 0 => rfl
  | k + 1 => by
    show expect P (next k) (forward P next _ k) = _
    rw [forward_sub_const hm hf hM c k]
    funext x
    exact expect_sub_const (hm k) (forward_ok hm hf hM k).1 (forward_ok hm hf hM k).2 c x

theorem lp_norm_sq (F : Lp ℝ 2 π) {f : X → ℝ} (hF : F =ᵐ[π] f) : ‖F‖ ^ 2 = ∫ x, f x ^ 2 ∂π := by
  rw [← real_inner_self_eq_norm_sq, L2.inner_def]
  refine integral_congr_ae (hF.mono fun x hx => ?_)
  show inner ℝ (F x) (F x) = f x ^ 2
  rw [hx, real_inner_self_eq_norm_sq, Real.norm_eq_abs, sq_abs]

/-- **Convergence in the mean square** for a round of positive reversible transitions, when the averages converge. -/
theorem sweep_square (hm : ∀ k, Measurable fun e : X × Ω => next k e.1 e.2) (hrev : ∀ k, Reversible π P (next k))
    (hpos : ∀ (k : Nat) (h : X → ℝ) (M : ℝ), Measurable h → (∀ x, |h x| ≤ M) → 0 ≤ ∫ x, h x * expect P (next k) h x ∂π) {L : Nat}
    (hL : 0 < L) (hper : ∀ k j, next (k * L + j) = next j)
    (hlaw : ∀ (h : X → ℝ) (M : ℝ), Measurable h → (∀ x, |h x| ≤ M) →
      ∀ᵐ x ∂π, Tendsto (fun N : Nat => (∑ k ∈ Finset.range N, chainMean P next h k x) / N) atTop (𝓝 (∫ x, h x ∂π)))
    {f : X → ℝ} (hf : Measurable f) {M : ℝ} (hM : ∀ x, |f x| ≤ M) :
    Tendsto (fun k => ∫ x, (forward P next f k x - ∫ y, f y ∂π) ^ 2 ∂π) atTop (𝓝 0) := by
  set c := ∫ y, f y ∂π with hc
  set f0 : X → ℝ := fun x => f x - c with hf0
  have hcM : |c| ≤ M := by
    have := norm_integral_le_of_norm_le_const (μ := π) (f := f) (C := M) (ae_of_all _ hM)
    rwa [probReal_univ, mul_one] at this
  have hf0m : Measurable f0 := hf.sub measurable_const
  have hf0M : ∀ x, |f0 x| ≤ 2 * M := sub_bounded hM fun _ => hcM
  have hf00 : ∫ x, f0 x ∂π = 0 := by
    rw [hf0, integral_sub (bounded_integrable hf hM) (integrable_const _), ← hc, integral_const, probReal_univ, one_smul, sub_self]
  have hD := fun k => forward_sub_const (P := P) hm hf hM c k
  have hgoal : ∀ k, ∫ x, (forward P next f k x - c) ^ 2 ∂π = ∫ x, forward P next f0 k x ^ 2 ∂π := fun k => by
    rw [hf0, hD k]
  simp only [hgoal]
  have hinv : ∀ k, (π.prod P).map (fun e => next k e.1 e.2) = π := fun k => (hrev k).stationary (hm k)
  have hanti := forward_contract (π := π) (P := P) hm hinv hf0m hf0M
  have hok := fun k => forward_ok (P := P) hm hf0m hf0M k
  have hmem : ∀ k, MemLp (forward P next f0 k) 2 π := fun k =>
    MemLp.of_bound (hok k).1.aestronglyMeasurable (2 * M) (ae_of_all _ (hok k).2)
  set v : Nat → Lp ℝ 2 π := fun n => (hmem (n * L)).toLp _ with hv
  have hvae : ∀ n, v n =ᵐ[π] forward P next f0 (n * L) := fun n => MemLp.coeFn_toLp _
  have hcomb : ∀ (ι : Type) (t : Finset ι) (w : ι → ℝ) (k : ι → Nat),
      ((∑ i ∈ t, w i • v (k i) : Lp ℝ 2 π) : X → ℝ) =ᵐ[π] fun x => ∑ i ∈ t, w i * forward P next f0 (k i * L) x := by
    classical
    intro ι t w k
    induction t using Finset.induction_on with
    | empty =>
      simp only [Finset.sum_empty]
      exact Lp.coeFn_zero _ _ _
    | insert i t hi ih =>
      rw [Finset.sum_insert hi]
      filter_upwards [Lp.coeFn_add (w i • v (k i)) (∑ i ∈ t, w i • v (k i)), Lp.coeFn_smul (w i) (v (k i)), hvae (k i), ih] with x h1 h2 h3 h4
      rw [h1, Pi.add_apply, h2, h4, Finset.sum_insert hi, Pi.smul_apply, h3, smul_eq_mul]
  have hreg := forward_regular (π := π) (P := P) hm hrev hpos hf0m hf0M
  have hlim : Tendsto (fun n => ‖v n‖) atTop (𝓝 0) := by
    refine sequence_vanishes ?_ ?_ ?_
    · intro ι t w k n
      refine le_of_sq_le_sq ?_ (norm_nonneg _)
      rw [lp_norm_sq _ (hcomb ι t w fun i => k i + n), lp_norm_sq _ (hcomb ι t w k)]
      have h1 := forward_sum (P := P) hm t w (g := fun i => forward P next f0 (k i * L)) (fun i => (hok _).1) (fun i => (hok _).2) (n * L)
      have h2 : ∀ x, ∑ i ∈ t, w i * forward P next f0 ((k i + n) * L) x =
          forward P next (fun y => ∑ i ∈ t, w i * forward P next f0 (k i * L) y) (n * L) x := by
        intro x
        rw [h1]
        refine Finset.sum_congr rfl fun i _ => ?_
        rw [Nat.add_mul, forward_rounds hper]
      simp only [h2]
      refine forward_contract (π := π) (P := P) hm hinv (f := fun y => ∑ i ∈ t, w i * forward P next f0 (k i * L) y)
        (Finset.measurable_sum _ fun i _ => (hok _).1.const_mul _) (M := ∑ i ∈ t, |w i| * (2 * M)) (fun x => ?_) (Nat.zero_le (n * L))
      refine (Finset.abs_sum_le_sum_abs _ _).trans (Finset.sum_le_sum fun i _ => ?_)
      rw [abs_mul]
      exact mul_le_mul_of_nonneg_left ((hok _).2 x) (abs_nonneg _)
    · -- differences over a round
      have hroot : ∀ n, ‖v (n + 1) - v n‖ ^ 2 = ∫ x, (forward P next f0 (n * L + L) x - forward P next f0 (n * L) x) ^ 2 ∂π := by
        intro n
        refine lp_norm_sq _ ?_
        filter_upwards [Lp.coeFn_sub (v (n + 1)) (v n), hvae (n + 1), hvae n] with x h1 h2 h3
        rw [h1, Pi.sub_apply, h2, h3, Nat.add_mul, one_mul]
      have hsum : ∀ i, Tendsto (fun m => ∫ x, (forward P next f0 (m + i) x - forward P next f0 m x) ^ 2 ∂π) atTop (𝓝 0) := by
        intro i
        induction i with
        | zero => simp
        | succ i ih =>
          have h1 := ((hreg.comp (tendsto_add_atTop_nat i)).const_mul 2).add (ih.const_mul 2)
          rw [mul_zero, add_zero] at h1
          refine squeeze_zero (fun m => integral_nonneg fun x => sq_nonneg _) (fun m => ?_) h1
          show ∫ x, (forward P next f0 (m + i + 1) x - forward P next f0 m x) ^ 2 ∂π ≤
            2 * ∫ x, (forward P next f0 (m + i + 1) x - forward P next f0 (m + i) x) ^ 2 ∂π +
            2 * ∫ x, (forward P next f0 (m + i) x - forward P next f0 m x) ^ 2 ∂π
          have i1 : ∀ p q, Integrable (fun x => (forward P next f0 p x - forward P next f0 q x) ^ 2) π := fun p q =>
            square_integrable ((hok p).1.sub (hok q).1) (sub_bounded (hok p).2 (hok q).2)
          rw [← integral_const_mul, ← integral_const_mul, ← integral_add ((i1 _ _).const_mul 2) ((i1 _ _).const_mul 2)]
          refine integral_mono (i1 _ _) (((i1 _ _).const_mul 2).add ((i1 _ _).const_mul 2)) fun x => ?_
          show (_ - _) ^ 2 ≤ 2 * (_ - _) ^ 2 + 2 * (_ - _) ^ 2
          nlinarith [sq_nonneg ((forward P next f0 (m + i + 1) x - forward P next f0 (m + i) x) -
            (forward P next f0 (m + i) x - forward P next f0 m x))]
      have h2 : Tendsto (fun n => ‖v (n + 1) - v n‖ ^ 2) atTop (𝓝 0) := by
        simp only [hroot]
        exact (hsum L).comp (tendsto_id.atTop_mul_const' hL)
      have h3 := (Real.continuous_sqrt.tendsto 0).comp h2
      rw [Real.sqrt_zero] at h3
      refine h3.congr fun n => ?_
      exact Real.sqrt_sq (norm_nonneg _)
    · intro m
      set h := forward P next f0 (m * L) with hh
      have hin : ∀ n, inner ℝ (v m) (v n) = ∫ x, forward P next f0 (n * L) x * h x ∂π := by
        intro n
        rw [L2.inner_def]
        refine integral_congr_ae ?_
        filter_upwards [hvae m, hvae n] with x h1 h2
        rw [h1, h2]
        rfl
      simp only [hin]
      refine average_multiples (a := fun k => ∫ x, forward P next f0 k x * h x ∂π) ?_ ?_ hL
      · have h1 := (mean_abs_tendsto (π := π) (u := fun k x => forward P next f0 (k + 1) x - forward P next f0 k x)
          (fun k => (hok _).1.sub (hok _).1) (fun k => sub_bounded (hok _).2 (hok _).2) hreg).const_mul (2 * M)
        rw [mul_zero] at h1
        refine squeeze_zero_norm (fun k => ?_) h1
        have i1 : ∀ k, Integrable (fun x => forward P next f0 k x * h x) π := fun k =>
          (bounded_integrable (hok k).1 (hok k).2).mul_bdd (hok (m * L)).1.aestronglyMeasurable (ae_of_all _ (hok (m * L)).2)
        rw [← integral_sub (i1 _) (i1 _), Real.norm_eq_abs]
        refine abs_integral_le_integral_abs.trans ?_
        rw [← integral_const_mul]
        refine integral_mono ((i1 _).sub (i1 _)).abs ((bounded_integrable ((hok _).1.sub (hok _).1)
          (sub_bounded (hok (k + 1)).2 (hok k).2)).abs.const_mul _) fun x => ?_
        show |forward P next f0 (k + 1) x * h x - forward P next f0 k x * h x| ≤ 2 * M * |forward P next f0 (k + 1) x - forward P next f0 k x|
        rw [← sub_mul, abs_mul, mul_comm]
        exact mul_le_mul_of_nonneg_right ((hok (m * L)).2 x) (abs_nonneg _)
      · have hadj : ∀ k, ∫ x, forward P next f0 k x * h x ∂π = ∫ x, f0 x * chainMean P next h k x ∂π := fun k =>
          forward_adjoint (hok (m * L)).1 (hok (m * L)).2 k hm hrev hf0m hf0M
        have hcm := fun k => chainMean_ok (P := P) hm (hok (m * L)).1 (hok (m * L)).2 k
        have i1 : ∀ k, Integrable (fun x => f0 x * chainMean P next h k x) π := fun k =>
          (bounded_integrable hf0m hf0M).mul_bdd (hcm k).1.aestronglyMeasurable (ae_of_all _ (hcm k).2)
        have hav : ∀ N : Nat, (∑ k ∈ Finset.range N, ∫ x, forward P next f0 k x * h x ∂π) / N =
            ∫ x, f0 x * ((∑ k ∈ Finset.range N, chainMean P next h k x) / N) ∂π := by
          intro N
          simp only [hadj]
          rw [← integral_finset_sum _ fun k _ => i1 k, ← integral_div]
          refine integral_congr_ae (ae_of_all _ fun x => ?_)
          show (∑ k ∈ Finset.range N, f0 x * chainMean P next h k x) / N = _
          rw [← Finset.mul_sum, mul_div_assoc]
        simp only [hav]
        have h0 : ∫ x, f0 x * ∫ y, h y ∂π ∂π = 0 := by rw [integral_mul_const, hf00, zero_mul]
        rw [← h0]
        refine tendsto_integral_of_dominated_convergence (fun _ => 2 * M * (2 * M)) (fun N => ?_) (integrable_const _)
          (fun N => ae_of_all _ fun x => ?_) ?_
        · exact (hf0m.mul ((Finset.measurable_sum _ fun k _ => (hcm k).1).div_const _)).aestronglyMeasurable
        · rw [Real.norm_eq_abs, abs_mul]
          have h2M : 0 ≤ 2 * M := (abs_nonneg _).trans (hf0M x)
          refine mul_le_mul (hf0M x) ?_ (abs_nonneg _) h2M
          rcases Nat.eq_zero_or_pos N with rfl | hN
          · simpa using h2M
          have hN' : (0 : ℝ) < N := by exact_mod_cast hN
          rw [abs_div, abs_of_pos hN', div_le_iff₀ hN']
          refine (Finset.abs_sum_le_sum_abs _ _).trans ?_
          refine (Finset.sum_le_sum fun k _ => (hcm k).2 x).trans ?_
          rw [Finset.sum_const, Finset.card_range, nsmul_eq_mul, mul_comm]
        · filter_upwards [hlaw h (2 * M) (hok (m * L)).1 (hok (m * L)).2] with x hx
          exact hx.const_mul _
  have hsq : Tendsto (fun n => ∫ x, forward P next f0 (n * L) x ^ 2 ∂π) atTop (𝓝 0) := by
    have h1 := hlim.pow 2
    rw [zero_pow two_ne_zero] at h1
    exact h1.congr fun n => lp_norm_sq _ (hvae n)
  have hdiv : Tendsto (fun k : Nat => k / L) atTop atTop := Nat.tendsto_div_const_atTop hL.ne'
  exact squeeze_zero (fun k => integral_nonneg fun x => sq_nonneg _) (fun k => hanti (Nat.div_mul_le_self k L)) (hsq.comp hdiv)

/-- **Convergence in total variation** from every law that has a density. -/
theorem sweep_density (hm : ∀ k, Measurable fun e : X × Ω => next k e.1 e.2) (hrev : ∀ k, Reversible π P (next k))
    (hpos : ∀ (k : Nat) (h : X → ℝ) (M : ℝ), Measurable h → (∀ x, |h x| ≤ M) → 0 ≤ ∫ x, h x * expect P (next k) h x ∂π) {L : Nat}
    (hL : 0 < L) (hper : ∀ k j, next (k * L + j) = next j)
    (hlaw : ∀ (h : X → ℝ) (M : ℝ), Measurable h → (∀ x, |h x| ≤ M) →
      ∀ᵐ x ∂π, Tendsto (fun N : Nat => (∑ k ∈ Finset.range N, chainMean P next h k x) / N) atTop (𝓝 (∫ x, h x ∂π)))
    {ν : Measure X} [IsFiniteMeasure ν] (hν : ν ≪ π) {ε : ℝ} (hε : 0 < ε) :
    ∃ N : Nat, ∀ n ≥ N, ∀ h : X → ℝ, Measurable h → (∀ x, |h x| ≤ 1) →
      |∫ x, chainMean P next h n x ∂ν - ν.real Set.univ * ∫ x, h x ∂π| < ε := by
  refine density_limit (A := fun n h => chainMean P next h n) (F := fun n h => forward P next h n)
    (fun n _ hh _ hM => chainMean_ok hm hh hM n) (fun n _ hh _ hM => forward_ok hm hh hM n) ?_ ?_ hν hε
  · intro n h e hh he M M' hM hM'
    have := forward_adjoint (π := π) (P := P) hh hM n hm hrev he hM'
    rw [integral_congr_ae (ae_of_all _ fun x => mul_comm (h x) (forward P next e n x)), this]
    exact integral_congr_ae (ae_of_all _ fun x => mul_comm _ _)
  · intro h hh M hM
    have hcM : |∫ y, h y ∂π| ≤ M := by
      have := norm_integral_le_of_norm_le_const (μ := π) (f := h) (C := M) (ae_of_all _ hM)
      rwa [probReal_univ, mul_one] at this
    exact mean_abs_tendsto (u := fun n x => forward P next h n x - ∫ y, h y ∂π)
      (fun n => (forward_ok hm hh hM n).1.sub measurable_const)
      (fun n => sub_bounded (forward_ok hm hh hM n).2 fun _ => hcM) (sweep_square hm hrev hpos hL hper hlaw hh hM)

end Chains

end Stochopy
