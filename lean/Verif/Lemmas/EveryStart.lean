import Verif.Lemmas.Average

/-!
# Chains from every starting point
-/

namespace Stochopy
open Spec MeasureTheory Filter Topology
open scoped ENNReal

section Every
variable {X Ω : Type} [MeasurableSpace X] [MeasurableSingletonClass X] [MeasurableSpace Ω]

/-- An invariant event that is certain from almost every starting point is certain from every starting point, when the chain leaves
every point and does not enter null sets when it moves. -/
theorem invariant_every {π : Measure X} {P : Measure Ω} [IsProbabilityMeasure P] {step : X → Ω → X}
    (hm : Measurable fun e : X × Ω => step e.1 e.2)
    (hjump : ∀ x N, π N = 0 → P {r | step x r ≠ x ∧ step x r ∈ N} = 0) (hmove : ∀ x, P {r | step x r ≠ x} ≠ 0)
    {E : Set (X × (Nat → Ω))} (hE : MeasurableSet E) (hTE : ∀ z, advanceChain step z ∈ E ↔ z ∈ E)
    (hae : ∀ᵐ x ∂π, ∀ᵐ ω ∂(inputs P), (x, ω) ∈ E) (x : X) : ∀ᵐ ω ∂(inputs P), (x, ω) ∈ E := by
  set D : X → ℝ≥0∞ := fun x => inputs P {ω | (x, ω) ∈ Eᶜ} with hD
  have hstep : ∀ x, D x = ∫⁻ r, D (step x r) ∂P := invariant_step P hE.compl fun z => not_congr (hTE z)
  have hN : π {x | ¬ D x = 0} = 0 := ae_iff.1 hae
  have hmx : Measurable fun r => step x r := hm.comp measurable_prodMk_left
  have hS : MeasurableSet {r | step x r = x} := hmx (measurableSet_singleton x)
  have h1 : ∀ᵐ r ∂P, D (step x r) = ({r | step x r = x}).indicator (fun _ => D x) r := by
    refine (measure_eq_zero_iff_ae_notMem.1 (hjump x _ hN)).mono fun r hr => ?_
    by_cases he : step x r = x
    · rw [Set.indicator_of_mem (show r ∈ {r | step x r = x} from he), he]
    · rw [Set.indicator_of_notMem (show r ∉ {r | step x r = x} from he)]
      by_contra hne
      exact hr ⟨he, hne⟩
  have h2 := hstep x
  rw [lintegral_congr_ae h1, lintegral_indicator_const hS] at h2
  have h3 : P {r | step x r = x} ≠ 1 := by
    intro h
    refine hmove x ?_
    have := (prob_compl_eq_zero_iff hS).2 h
    exact this
  have hfin : D x ≠ ∞ := (lt_of_le_of_lt prob_le_one ENNReal.one_lt_top).ne
  show D x = 0
  by_contra h0
  refine h3 ?_
  have h4 : D x * P {r | step x r = x} = D x * 1 := by rw [mul_one]; exact h2.symm
  exact (ENNReal.mul_right_inj h0 hfin).1 h4

theorem average_shift {a : Nat → ℝ} {c : ℝ} :
    Tendsto (fun n : Nat => (∑ k ∈ Finset.range n, a (k + 1)) / n) atTop (𝓝 c) ↔
      Tendsto (fun n : Nat => (∑ k ∈ Finset.range n, a k) / n) atTop (𝓝 c) := by
  have h0 : Tendsto (fun n : Nat => a 0 / n) atTop (𝓝 0) := tendsto_const_div_atTop_nhds_zero_nat _
  have h1 : Tendsto (fun m : Nat => (1 : ℝ) + 1 / m) atTop (𝓝 1) := by
    have := (tendsto_const_nhds (x := (1 : ℝ))).add (tendsto_one_div_atTop_nhds_zero_nat (𝕜 := ℝ))
    rwa [add_zero] at this
  have h2 : Tendsto (fun m : Nat => 1 / ((1 : ℝ) + 1 / m)) atTop (𝓝 1) := by
    have := (tendsto_const_nhds (x := (1 : ℝ))).div h1 one_ne_zero
    rwa [div_one] at this
  rw [← tendsto_add_atTop_iff_nat (f := fun n : Nat => (∑ k ∈ Finset.range n, a k) / (n : ℝ)) 1]
  constructor
  · intro h
    have h3 := (h.add h0).mul h2
    rw [add_zero, mul_one] at h3
    refine h3.congr' ?_
    filter_upwards [eventually_gt_atTop 0] with n hn
    have hn' : (0 : ℝ) < n := by exact_mod_cast hn
    rw [Finset.sum_range_succ']
    push_cast
    field_simp
  · intro h
    have h3 := (h.mul h1).sub h0
    rw [sub_zero, mul_one] at h3
    refine h3.congr' ?_
    filter_upwards [eventually_gt_atTop 0] with n hn
    have hn' : (0 : ℝ) < n := by exact_mod_cast hn
    rw [Finset.sum_range_succ']
    push_cast
    field_simp
    ring

/-- The law of large numbers from every starting point. -/
theorem average_every {π : Measure X} {P : Measure Ω} [IsProbabilityMeasure P] {step : X → Ω → X}
    (hm : Measurable fun e : X × Ω => step e.1 e.2)
    (hjump : ∀ x N, π N = 0 → P {r | step x r ≠ x ∧ step x r ∈ N} = 0) (hmove : ∀ x, P {r | step x r ≠ x} ≠ 0)
    {h : X → ℝ} (hh : Measurable h) {c : ℝ}
    (hae : ∀ᵐ x ∂π, ∀ᵐ ω ∂(inputs P), Tendsto (fun m : Nat => (∑ k ∈ Finset.range m, h (chain (fun _ => step) x ω k)) / m) atTop (𝓝 c))
    (x : X) :
    ∀ᵐ ω ∂(inputs P), Tendsto (fun m : Nat => (∑ k ∈ Finset.range m, h (chain (fun _ => step) x ω k)) / m) atTop (𝓝 c) := by
  have hmm : ∀ m : Nat, Measurable fun z : X × (Nat → Ω) => (∑ k ∈ Finset.range m, h (chain (fun _ => step) z.1 z.2 k)) / m := fun m =>
    (Finset.measurable_sum _ fun k _ => hh.comp (measurable_chain (fun _ => hm) k)).div_const _
  let E : Set (X × (Nat → Ω)) :=
    {z | Tendsto (fun m : Nat => (∑ k ∈ Finset.range m, h (chain (fun _ => step) z.1 z.2 k)) / m) atTop (𝓝 c)}
  have hE : MeasurableSet E := measurableSet_tendsto _ hmm
  suffices hTE : ∀ z, advanceChain step z ∈ E ↔ z ∈ E from invariant_every hm hjump hmove hE hTE hae x
  intro z
  have hk : ∀ k, chain (fun _ => step) (advanceChain step z).1 (advanceChain step z).2 k = chain (fun _ => step) z.1 z.2 (k + 1) := by
    intro k
    have h1 := advanceChain_iterate step (k + 1) z.1 z.2
    have h2 := advanceChain_iterate step k (advanceChain step z).1 (advanceChain step z).2
    rw [Function.iterate_succ_apply] at h1
    exact congrArg Prod.fst (h2.symm.trans h1)
  show Tendsto _ _ _ ↔ Tendsto _ _ _
  simp only [hk]
  exact average_shift (a := fun k => h (chain (fun _ => step) z.1 z.2 k))

/-- Infinitely many visits from every starting point. -/
theorem often_every {π : Measure X} {P : Measure Ω} [IsProbabilityMeasure P] {step : X → Ω → X}
    (hm : Measurable fun e : X × Ω => step e.1 e.2)
    (hjump : ∀ x N, π N = 0 → P {r | step x r ≠ x ∧ step x r ∈ N} = 0) (hmove : ∀ x, P {r | step x r ≠ x} ≠ 0)
    {B : Set X} (hB : MeasurableSet B)
    (hae : ∀ᵐ x ∂π, ∀ᵐ ω ∂(inputs P), ∃ᶠ k in atTop, chain (fun _ => step) x ω k ∈ B) (x : X) :
    ∀ᵐ ω ∂(inputs P), ∃ᶠ k in atTop, chain (fun _ => step) x ω k ∈ B := by
  have hE := measurable_often hm hB
  simp only [fun (z : X × (Nat → Ω)) k => show (((advanceChain step)^[k]) z).1 = chain (fun _ => step) z.1 z.2 k from
    congrArg Prod.fst (advanceChain_iterate step k z.1 z.2)] at hE
  refine invariant_every hm hjump hmove hE (fun z => ?_) hae x
  have hk : ∀ k, chain (fun _ => step) (advanceChain step z).1 (advanceChain step z).2 k = chain (fun _ => step) z.1 z.2 (k + 1) := by
    intro k
    have h1 := advanceChain_iterate step (k + 1) z.1 z.2
    have h2 := advanceChain_iterate step k (advanceChain step z).1 (advanceChain step z).2
    rw [Function.iterate_succ_apply] at h1
    exact congrArg Prod.fst (h2.symm.trans h1)
  simp only [Set.mem_setOf_eq, hk, frequently_atTop]
  constructor
  · intro h n
    obtain ⟨k, hk, h1⟩ := h n
    exact ⟨k + 1, by omega, h1⟩
  · intro h n
    obtain ⟨k, hk, h1⟩ := h (n + 1)
    refine ⟨k - 1, by omega, ?_⟩
    rwa [show k - 1 + 1 = k by omega]

end Every

/-! ## The random walk in all coordinates -/

theorem gauss_ac (n : Nat) : gauss n ≪ volume := by
  rw [gauss_density]
  exact withDensity_absolutelyContinuous _ _

/-- Null sets stay null under coordinate-wise affine maps. -/
theorem affine_null {n : Nat} (l : Vec ℝ n) {d : Vec ℝ n} (hd : ∀ c, d c ≠ 0) {t : Set (Vec ℝ n)} (ht : volume t = 0) :
    volume {u : Vec ℝ n | (fun j => l j + d j * u j) ∈ t} = 0 := by
  obtain ⟨K, hK⟩ : ∃ K : NNReal, AntilipschitzWith K fun u : Vec ℝ n => fun j => l j + d j * u j := by
    obtain ⟨b, hb0, hb⟩ : ∃ b : ℝ, 0 < b ∧ ∀ j, b ≤ |d j| := by
      cases isEmpty_or_nonempty (Fin n) with
      | inl h => exact ⟨1, one_pos, fun j => isEmptyElim j⟩
      | inr h =>
        obtain ⟨j, -, hj⟩ := Finset.exists_min_image Finset.univ (fun j => |d j|) Finset.univ_nonempty
        exact ⟨|d j|, abs_pos.2 (hd j), fun i => hj i (Finset.mem_univ i)⟩
    refine ⟨⟨1 / b, by positivity⟩, AntilipschitzWith.of_le_mul_dist fun u v => ?_⟩
    rw [dist_eq_norm, dist_eq_norm]
    show _ ≤ 1 / b * _
    rw [pi_norm_le_iff_of_nonneg (by positivity)]
    intro j
    have h1 := norm_le_pi_norm ((fun j => l j + d j * u j) - fun j => l j + d j * v j) j
    rw [Pi.sub_apply, Real.norm_eq_abs, show l j + d j * u j - (l j + d j * v j) = d j * (u j - v j) by ring, abs_mul] at h1
    rw [Pi.sub_apply, Real.norm_eq_abs, one_div, ← div_eq_inv_mul, le_div_iff₀ hb0]
    have h2 := mul_le_mul_of_nonneg_right (hb j) (abs_nonneg (u j - v j))
    linarith
  exact HMC.antilipschitz_null hK ht

/-- Accepted proposals of a random walk that moves every coordinate avoid null sets. -/
theorem walk_jump {n : Nat} {f : Vec ℝ n → ℝ} {scale : Vec ℝ n} (hs : ∀ c, scale c ≠ 0) {per : Nat} (hn : n ≤ per) (x : Vec ℝ n)
    {N : Set (Vec ℝ n)} (hN : volume N = 0) :
    ((gauss n).prod unifLaw) {ω | walkStep f scale per 0 x ω ≠ x ∧ walkStep f scale per 0 x ω ∈ N} = 0 := by
  have h1 : gauss n {z | (fun j => x j + scale j * z j) ∈ N} = 0 := gauss_ac n (affine_null x hs hN)
  refine measure_mono_null (t := {z | (fun j => x j + scale j * z j) ∈ N} ×ˢ Set.univ) ?_ (by rw [Measure.prod_prod, h1, zero_mul])
  rintro ω ⟨hne, hmem⟩
  refine ⟨?_, trivial⟩
  have hb : blockMove scale per 0 x ω.1 = fun j => x j + scale j * ω.1 j := by
    funext j
    unfold blockMove
    rw [if_pos (Nat.div_eq_of_lt (lt_of_lt_of_le j.isLt hn)), mul_comm]
  unfold walkStep at hne hmem
  dsimp only at hne hmem
  split at hne
  · rename_i hacc
    rw [if_pos hacc, hb] at hmem
    exact hmem
  · exact absurd rfl hne

end Stochopy
