import Verif.Spec.AcceptRate
import Verif.Lemmas.EveryStart

/-!
# The law of large numbers for functions of the state and of the next input
-/

namespace Stochopy
open Spec MeasureTheory Filter Topology Sampling
open scoped ENNReal

section Chains
variable {X Ω : Type} [MeasurableSpace X] [MeasurableSpace Ω]

/-- The next input is independent of the state. -/
theorem chain_pair_law {π : Measure X} [IsProbabilityMeasure π] {P : Measure Ω} [IsProbabilityMeasure P] :
    ∀ (i : Nat) {next : Nat → X → Ω → X},
    (∀ k, Measurable fun e : X × Ω => next k e.1 e.2) → (∀ k, (π.prod P).map (fun e => next k e.1 e.2) = π) →
    (π.prod (inputs P)).map (fun z => (chain next z.1 z.2 i, z.2 i)) = π.prod P
  | 0, next, _, _ => by
    show (π.prod (inputs P)).map (Prod.map id fun ω => ω 0) = π.prod P
    rw [← Measure.map_prod_map _ _ measurable_id (measurable_pi_apply 0), Measure.map_id]
    unfold inputs
    rw [Measure.infinitePi_map_eval]
  | i + 1, next, hm, hinv => by
    have h1 := chain_pair_law (π := π) (P := P) i (next := fun k => next (k + 1)) (fun k => hm (k + 1)) fun k => hinv (k + 1)
    have h2 := advanceChain_preserving (hm 0) (hinv 0)
    have h3 : (fun z : X × (Nat → Ω) => (chain next z.1 z.2 (i + 1), z.2 (i + 1))) =
        (fun z : X × (Nat → Ω) => (chain (fun k => next (k + 1)) z.1 z.2 i, z.2 i)) ∘ advanceChain (next 0) := by
      funext z
      refine Prod.ext ?_ rfl
      show chain next z.1 z.2 (i + 1) = chain (fun k => next (k + 1)) (advanceChain (next 0) z).1 (advanceChain (next 0) z).2 i
      rw [Nat.add_comm i 1, chain_add next z.1 z.2 1 i]
      show chain (fun j => next (1 + j)) _ (fun j => z.2 (1 + j)) i = chain (fun k => next (k + 1)) _ (fun k => z.2 (k + 1)) i
      simp only [Nat.add_comm 1]
      rfl
    have h4 : Measurable fun z : X × (Nat → Ω) => (chain (fun k => next (k + 1)) z.1 z.2 i, z.2 i) :=
      (measurable_chain (fun k => hm (k + 1)) i).prodMk ((measurable_pi_apply i).comp measurable_snd)
    rw [h3, ← Measure.map_map h4 h2.measurable, h2.map_eq, h1]

end Chains

section Density
variable {n : Nat} {Ω : Type} [MeasurableSpace Ω] {P : Measure Ω}

/-- `rounds_average` for functions of the position in the round, of the state and of the next input. -/
theorem rounds_average_pairs [IsProbabilityMeasure P] {w : Vec ℝ n → ℝ} (hw : Measurable w) (hw0 : ∀ x, 0 < w x)
    (hfin : ∫⁻ x, ENNReal.ofReal (w x) ≠ ∞) {l : List (Vec ℝ n → Ω → Vec ℝ n)} (hl : 0 < l.length)
    (hm : ∀ next ∈ l, Measurable fun e : Vec ℝ n × Ω => next e.1 e.2) (hb : ∀ next ∈ l, DetailedBalance P next w)
    {next : Nat → Vec ℝ n → Ω → Vec ℝ n} (hnext : ∀ k i (h : i < l.length), next (k * l.length + i) = l[i])
    (hpos : ∀ B, MeasurableSet B → volume B ≠ 0 → ∀ x, reach P B l x ≠ 0) {h : Nat → Vec ℝ n → Ω → ℝ}
    (hh : ∀ k, Measurable fun e : Vec ℝ n × Ω => h k e.1 e.2) (hround : ∀ k i, i < l.length → h (k * l.length + i) = h i)
    (hhi : ∀ k, Integrable (fun e : Vec ℝ n × Ω => h k e.1 e.2) ((normalized w).prod P)) :
    ∀ᵐ x, ∀ᵐ ω ∂(inputs P), Tendsto (fun m : Nat => (∑ k ∈ Finset.range m, h k (chain next x ω k) (ω k)) / m) atTop
      (𝓝 ((∑ i ∈ Finset.range l.length, ∫ e, h i e.1 e.2 ∂((normalized w).prod P)) / l.length)) := by
  have := normalized_prob hw hw0 hfin
  set π := normalized w with hπ
  set L := l.length with hLdef
  have hL0 : (0 : ℝ) < L := by exact_mod_cast hl
  have hmw := measurable_walk l hm
  have hinv := normalized_stationary hw hm hb
  have hirr : ∀ B, MeasurableSet B → π B ≠ 0 → ∀ᵐ x ∂π, (Measure.pi fun _ : Fin L => P) {ω | walk l x ω ∈ B} ≠ 0 :=
    fun B hB hB0 => ae_of_all _ fun x => by
      rw [← reach_eq_pi hB l hm x]
      exact hpos B hB (fun h0 => hB0 (normalized_ac h0)) x
  have hget : ∀ k, next k = l[k % L]'(Nat.mod_lt _ hl) := by
    intro k
    have := hnext (k / L) (k % L) (Nat.mod_lt _ hl)
    rwa [Nat.mul_comm, Nat.div_add_mod] at this
  have hnm : ∀ k, Measurable fun e : Vec ℝ n × Ω => next k e.1 e.2 := fun k => by
    rw [hget k]
    exact hm _ (List.getElem_mem _)
  have hni : ∀ k, (π.prod P).map (fun e => next k e.1 e.2) = π := fun k => by
    have h1 := hnm k
    have h2 : DetailedBalance P (next k) w := by
      rw [hget k]
      exact hb _ (List.getElem_mem _)
    exact normalized_stationary_one hw h1 h2
  have hper : ∀ k, (fun j => next (k * L + j)) = next := by
    intro k
    funext j
    rw [hget, hget j]
    congr 1
    rw [Nat.add_comm, Nat.add_mul_mod_self_right]
  -- sums over one round
  have key : ∀ {v : Nat → Vec ℝ n → Ω → ℝ}, (∀ k, Measurable fun e : Vec ℝ n × Ω => v k e.1 e.2) →
      (∀ k i, i < L → v (k * L + i) = v i) → (∀ k, Integrable (fun e : Vec ℝ n × Ω => v k e.1 e.2) (π.prod P)) →
      ∀ᵐ x ∂π, ∀ᵐ ω ∂(inputs P), Tendsto (fun N : Nat => (∑ j ∈ Finset.range (N * L), v j (chain next x ω j) (ω j)) / N) atTop
        (𝓝 (∑ i ∈ Finset.range L, ∫ e, v i e.1 e.2 ∂(π.prod P))) := by
    intro v hv hvr hvi
    set F : Vec ℝ n × (Nat → Fin L → Ω) → ℝ :=
      fun z => ∑ i ∈ Finset.range L, v i (chain next z.1 (flatten hl z.2) i) (flatten hl z.2 i) with hF
    have hfl : MeasurePreserving (Prod.map id (flatten hl)) (π.prod (inputs (Measure.pi fun _ : Fin L => P))) (π.prod (inputs P)) := by
      refine ⟨measurable_id.prodMap (measurable_flatten hl), ?_⟩
      rw [← Measure.map_prod_map _ _ measurable_id (measurable_flatten hl), inputs_flatten P hl, Measure.map_id]
    have hpres : ∀ i, MeasurePreserving
        (fun z : Vec ℝ n × (Nat → Fin L → Ω) => (chain next z.1 (flatten hl z.2) i, flatten hl z.2 i))
        (π.prod (inputs (Measure.pi fun _ : Fin L => P))) (π.prod P) := fun i =>
      (MeasurePreserving.mk ((measurable_chain hnm i).prodMk ((measurable_pi_apply i).comp measurable_snd))
        (chain_pair_law i hnm hni)).comp hfl
    have hFm : Measurable F := Finset.measurable_sum _ fun i _ => (hv i).comp (hpres i).measurable
    have hFi1 : ∀ i, Integrable (fun z : Vec ℝ n × (Nat → Fin L → Ω) => v i (chain next z.1 (flatten hl z.2) i) (flatten hl z.2 i))
        (π.prod (inputs (Measure.pi fun _ : Fin L => P))) := fun i => (hpres i).integrable_comp_of_integrable (hvi i)
    have hFi : Integrable F (π.prod (inputs (Measure.pi fun _ : Fin L => P))) := integrable_finset_sum _ fun i _ => hFi1 i
    have hint : ∫ z, F z ∂(π.prod (inputs (Measure.pi fun _ : Fin L => P))) = ∑ i ∈ Finset.range L, ∫ e, v i e.1 e.2 ∂(π.prod P) := by
      rw [hF, integral_finset_sum _ fun i _ => hFi1 i]
      refine Finset.sum_congr rfl fun i _ => ?_
      have h1 := integral_map (hpres i).measurable.aemeasurable (f := fun e : Vec ℝ n × Ω => v i e.1 e.2)
        (by rw [(hpres i).map_eq]; exact (hv i).aestronglyMeasurable)
      rw [(hpres i).map_eq] at h1
      exact h1.symm
    have h1 := chain_average hmw hinv hirr hFm hFi
    rw [hint] at h1
    refine (Measure.ae_ae_of_ae_prod h1).mono fun x hx => ?_
    rw [← inputs_regroup P hl] at hx
    have hmr : Measurable fun (ω : Nat → Ω) (k : Nat) (j : Fin L) => ω (k * L + j) :=
      measurable_pi_lambda _ fun k => measurable_pi_lambda _ fun j => measurable_pi_apply _
    refine (ae_of_ae_map hmr.aemeasurable hx).mono fun ω hω => ?_
    refine hω.congr fun N => ?_
    congr 1
    rw [← sum_rounds (fun j => v j (chain next x ω j) (ω j))]
    refine Finset.sum_congr rfl fun k _ => Finset.sum_congr rfl fun i hi => ?_
    rw [advanceChain_iterate]
    show v i (chain next (chain (fun _ => walk l) x _ k) (flatten hl fun i => _) i) (flatten hl (fun i => _) i) = _
    rw [flatten_shift hl (fun k (j : Fin L) => ω (k * L + j)) k, flatten_regroup, ← chain_rounds hnext, chain_add next x ω (k * L) i, hper,
      hvr k i (Finset.mem_range.1 hi)]
  have h1 := key hh hround hhi
  have h2 := key (v := fun k x ω => |h k x ω|) (fun k => measurable_norm.comp (hh k))
    (fun k i hi => by rw [hround k i hi]) fun k => (hhi k).abs
  refine ae_of_normalized hw hw0 hfin ?_
  filter_upwards [h1, h2] with x hx1 hx2
  filter_upwards [hx1, hx2] with ω hω1 hω2
  refine average_rounds hl ?_ hω2
  rwa [mul_div_cancel₀ _ hL0.ne']

end Density

section Every
variable {X Ω : Type} [MeasurableSpace X] [MeasurableSingletonClass X] [MeasurableSpace Ω]

/-- `average_every` for functions of the state and of the next input. -/
theorem average_every_pairs {π : Measure X} {P : Measure Ω} [IsProbabilityMeasure P] {step : X → Ω → X}
    (hm : Measurable fun e : X × Ω => step e.1 e.2)
    (hjump : ∀ x N, π N = 0 → P {r | step x r ≠ x ∧ step x r ∈ N} = 0) (hmove : ∀ x, P {r | step x r ≠ x} ≠ 0)
    {h : X → Ω → ℝ} (hh : Measurable fun e : X × Ω => h e.1 e.2) {c : ℝ}
    (hae : ∀ᵐ x ∂π, ∀ᵐ ω ∂(inputs P),
      Tendsto (fun m : Nat => (∑ k ∈ Finset.range m, h (chain (fun _ => step) x ω k) (ω k)) / m) atTop (𝓝 c)) (x : X) :
    ∀ᵐ ω ∂(inputs P),
      Tendsto (fun m : Nat => (∑ k ∈ Finset.range m, h (chain (fun _ => step) x ω k) (ω k)) / m) atTop (𝓝 c) := by
  have hmm : ∀ m : Nat, Measurable fun z : X × (Nat → Ω) =>
      (∑ k ∈ Finset.range m, h (chain (fun _ => step) z.1 z.2 k) (z.2 k)) / m := fun m =>
    (Finset.measurable_sum _ fun k _ =>
      hh.comp ((measurable_chain (fun _ => hm) k).prodMk ((measurable_pi_apply k).comp measurable_snd))).div_const _
  let E : Set (X × (Nat → Ω)) :=
    {z | Tendsto (fun m : Nat => (∑ k ∈ Finset.range m, h (chain (fun _ => step) z.1 z.2 k) (z.2 k)) / m) atTop (𝓝 c)}
  have hE : MeasurableSet E := measurableSet_tendsto _ hmm
  suffices hTE : ∀ z, advanceChain step z ∈ E ↔ z ∈ E from invariant_every hm hjump hmove hE hTE hae x
  intro z
  have hk : ∀ k, chain (fun _ => step) (advanceChain step z).1 (advanceChain step z).2 k = chain (fun _ => step) z.1 z.2 (k + 1) := by
    intro k
    have h1 := advanceChain_iterate step (k + 1) z.1 z.2
    have h2 := advanceChain_iterate step k (advanceChain step z).1 (advanceChain step z).2
    rw [Function.iterate_succ_apply] at h1
    exact congrArg Prod.fst (h2.symm.trans h1)
  show Tendsto _ _ _ ↔ Tendsto _ _ _
  simp only [hk]
  exact average_shift (a := fun k => h (chain (fun _ => step) z.1 z.2 k) (z.2 k))

end Every

/-! ## The acceptance test -/

/-- One if the test accepts an energy drop `d` with the uniform number `u`, otherwise zero. -/
noncomputable def acceptIndicator (d u : ℝ) : ℝ := if metropolis (Val.fin d) u = true then 1 else 0

theorem acceptIndicator_abs (d u : ℝ) : |acceptIndicator d u| ≤ 1 := by
  unfold acceptIndicator
  split_ifs <;> norm_num

/-- The test without case distinctions. -/
theorem acceptIndicator_ae (d : ℝ) : ∀ᵐ u ∂unifLaw, acceptIndicator d u = (Set.Iio (Real.exp d)).indicator 1 u := by
  unfold unifLaw
  refine (ae_restrict_mem measurableSet_Ico).mono fun u hu => ?_
  unfold acceptIndicator
  by_cases h : u < Real.exp d
  · rw [if_pos ((metropolis_exp hu.1 hu.2).2 h), Set.indicator_of_mem (show u ∈ Set.Iio (Real.exp d) from h)]
    rfl
  · rw [if_neg fun h' => h ((metropolis_exp hu.1 hu.2).1 h'), Set.indicator_of_notMem (show u ∉ Set.Iio (Real.exp d) from h)]

theorem acceptIndicator_integral (d : ℝ) : ∫ u, acceptIndicator d u ∂unifLaw = min 1 (Real.exp d) := by
  rw [integral_congr_ae (acceptIndicator_ae d), integral_indicator_one measurableSet_Iio, measureReal_def]
  have h1 := unifLaw_metropolis d
  have h2 : unifLaw {u | metropolis (Val.fin d) u = true} = unifLaw (Set.Iio (Real.exp d)) := by
    refine measure_congr ?_
    unfold unifLaw
    rw [Filter.eventuallyEq_set]
    exact (ae_restrict_mem measurableSet_Ico).mono fun u hu => metropolis_exp hu.1 hu.2
  rw [← h2, h1, ENNReal.toReal_ofReal (le_min zero_le_one (Real.exp_pos _).le)]

end Stochopy
